import Verif.Lemmas.PolyPow

/-! Polynomials built by one pass over the terms of another polynomial. -/

namespace EC
namespace Poly

variable {M : Type*} [AddCommGroup M]

/-- `mapM`-like characterisation of a pass that inserts one term per entry. -/
theorem foldlM_insert_eq_ok {f : Monomial × Int → Res Term} {l : List (Monomial × Int)} {P Q : Poly}
    (h : l.foldlM (fun pol e => do
      let u ← f e
      .ok (pol.insert u.monomial u.coef)) P = .ok Q) :
    ∃ us : List Term, List.Forall₂ (fun e u => f e = .ok u) l us ∧
      Q = insAll (us.map fun u => (u.monomial, u.coef)) P := by
  induction l generalizing P with
  | nil =>
    simp only [List.foldlM_nil, Res.pure_eq, Res.ok.injEq] at h
    exact ⟨[], List.Forall₂.nil, h.symm⟩
  | cons a t ih =>
    rw [List.foldlM_cons, bind_assoc, Res.bind_eq_ok] at h
    obtain ⟨u, hu, h⟩ := h
    obtain ⟨us, h1, h2⟩ := ih h
    exact ⟨u :: us, List.Forall₂.cons hu h1, h2⟩

theorem foldlM_insert_ok {f : Monomial × Int → Res Term} {l : List (Monomial × Int)} (P : Poly)
    (h : ∀ e ∈ l, ∃ u, f e = .ok u) :
    ∃ Q, l.foldlM (fun pol e => do
      let u ← f e
      .ok (pol.insert u.monomial u.coef)) P = .ok Q := by
  induction l generalizing P with
  | nil => exact ⟨P, rfl⟩
  | cons a t ih =>
    obtain ⟨u, hu⟩ := h a (by simp)
    rw [List.foldlM_cons, hu, Res.ok_bind, Res.ok_bind]
    exact ih _ (fun e he => h e (by simp [he]))

private theorem forall₂_keys {f : Monomial × Int → Res Term} {g : Key → Key} {c : Monomial × Int → ℤ}
    {l : List (Monomial × Int)} {us : List Term}
    (hf : ∀ e ∈ l, ∀ u, f e = .ok u → u.monomial.key = g e.1.key ∧ u.coef = c e)
    (h : List.Forall₂ (fun e u => f e = .ok u) l us) :
    (us.map fun u => (u.monomial.key, u.coef)) = l.map fun e => (g e.1.key, c e) := by
  induction h with
  | nil => rfl
  | @cons a u t us h1 _ ih =>
    obtain ⟨h3, h4⟩ := hf a (by simp) u h1
    rw [List.map_cons, List.map_cons, h3, h4, ih (fun e he => hf e (by simp [he]))]

theorem lookL_eq_of_kv {l l' : List (Monomial × Int)}
    (h : (l.map fun e => (e.1.key, e.2)) = l'.map fun e => (e.1.key, e.2)) (k : Key) :
    lookL k l = lookL k l' := by
  induction l generalizing l' with
  | nil => cases l' <;> simp_all
  | cons a t ih =>
    cases l' with
    | nil => simp at h
    | cons b s =>
      simp only [List.map_cons, List.cons.injEq, Prod.mk.injEq] at h
      rw [lookL_cons, lookL_cons, h.1.1, h.1.2, ih h.2]

/-- One pass whose key map is injective on the stored keys: the coefficients are carried over. -/
theorem pass_fs {f : Monomial × Int → Res Term} {g : Key → Key} {c : Monomial × Int → ℤ} {P Q : Poly}
    (h : P.entries.foldlM (fun pol e => do
      let u ← f e
      .ok (pol.insert u.monomial u.coef)) new = .ok Q)
    (hf : ∀ e ∈ P.entries, ∀ u, f e = .ok u → u.monomial.key = g e.1.key ∧ u.coef = c e)
    (hg : ∀ e ∈ P.entries, ∀ e' ∈ P.entries, g e.1.key = g e'.1.key → e.1.key = e'.1.key) :
    (∀ e ∈ P.entries, ∃ u, f e = .ok u) ∧
    Q.fs = (P.entries.map fun e => Finsupp.single (g e.1.key) (c e)).sum ∧
    (∀ k v, Q.look k = some v ↔ ∃ e ∈ P.entries, k = g e.1.key ∧ v = c e) := by
  obtain ⟨us, h1, rfl⟩ := foldlM_insert_eq_ok h
  have hk := forall₂_keys hf h1
  have hnd : ((us.map fun u => (u.monomial, u.coef)).map (·.1.key)).Nodup := by
    have : ((us.map fun u => (u.monomial, u.coef)).map (·.1.key)) =
        (P.entries.map (·.1.key)).map g := by
      have := congrArg (List.map Prod.fst) hk
      simpa [List.map_map, Function.comp_def] using this
    rw [this]
    refine List.Nodup.map_on ?_ P.keys_nodup
    intro k hk k' hk'
    simp only [List.mem_map] at hk hk'
    obtain ⟨e, he, rfl⟩ := hk
    obtain ⟨e', he', rfl⟩ := hk'
    exact hg e he e' he'
  refine ⟨?_, ?_, ?_⟩
  · intro e he
    have : ∀ {l : List (Monomial × Int)} {us : List Term},
        List.Forall₂ (fun e u => f e = .ok u) l us → e ∈ l → ∃ u, f e = .ok u := by
      intro l us h
      induction h with
      | nil => simp
      | @cons a u t us h1 _ ih =>
        intro he
        rcases List.mem_cons.1 he with rfl | he
        · exact ⟨u, h1⟩
        · exact ih he
    exact this h1 he
  · rw [fs_insAll_new hnd]
    have := congrArg (fun l => (l.map fun (e : Key × ℤ) => Finsupp.single e.1 e.2).sum) hk
    simpa [List.map_map, Function.comp_def] using this
  · intro k v
    rw [look_insAll_new hnd]
    have hmem : ∀ (l : List (Monomial × Int)), (l.map (·.1.key)).Nodup →
        (lookL k l = some v ↔ (k, v) ∈ l.map fun e => (e.1.key, e.2)) := by
      intro l hl
      constructor
      · intro h
        obtain ⟨e, he, h1, h2⟩ := lookL_eq_some h
        exact List.mem_map.2 ⟨e, he, by rw [h1, h2]⟩
      · intro h
        induction l with
        | nil => simp at h
        | cons a t ih =>
          rw [List.map_cons, List.nodup_cons] at hl
          rw [lookL_cons]
          simp only [List.map_cons, List.mem_cons, Prod.mk.injEq] at h
          rcases h with ⟨h1, h2⟩ | h
          · rw [if_pos h1.symm, h2]
          · rw [if_neg, ih hl.2 h]
            intro h3
            obtain ⟨e, he, h4⟩ := List.mem_map.1 h
            simp only [Prod.mk.injEq] at h4
            exact hl.1 (List.mem_map.2 ⟨e, he, by rw [h4.1, h3]⟩)
    rw [hmem _ hnd]
    have h5 : ((us.map fun u => (u.monomial, u.coef)).map fun e => (e.1.key, e.2)) =
        P.entries.map fun e => (g e.1.key, c e) := by
      rw [← hk]; simp [List.map_map, Function.comp_def]
    rw [h5]
    simp only [List.mem_map, Prod.mk.injEq]
    constructor
    · rintro ⟨e, he, h6, h7⟩; exact ⟨e, he, h6.symm, h7.symm⟩
    · rintro ⟨e, he, h6, h7⟩; exact ⟨e, he, h6.symm, h7.symm⟩

theorem pass_lin {f : Monomial × Int → Res Term} {g : Key → Key} {c : Monomial × Int → ℤ} {P Q : Poly}
    (h : P.entries.foldlM (fun pol e => do
      let u ← f e
      .ok (pol.insert u.monomial u.coef)) new = .ok Q)
    (hf : ∀ e ∈ P.entries, ∀ u, f e = .ok u → u.monomial.key = g e.1.key ∧ u.coef = c e)
    (hg : ∀ e ∈ P.entries, ∀ e' ∈ P.entries, g e.1.key = g e'.1.key → e.1.key = e'.1.key)
    (φ : Key → M) : Q.lin φ = (P.entries.map fun e => c e • φ (g e.1.key)).sum := by
  rw [lin_eq_fs, (pass_fs h hf hg).2.1, map_list_sum, List.map_map]
  congr 1
  apply List.map_congr_left
  intro e _
  simp

/-- Splitting a sum over entries. -/
theorem lin_filter_add (φ : Key → M) (l : List (Monomial × Int)) (b : Monomial × Int → Bool) :
    (l.map fun e => e.2 • φ e.1.key).sum =
      ((l.filter b).map fun e => e.2 • φ e.1.key).sum +
      ((l.filter (fun e => !b e)).map fun e => e.2 • φ e.1.key).sum := by
  induction l with
  | nil => simp
  | cons a t ih =>
    rw [List.map_cons, List.sum_cons, ih, List.filter_cons, List.filter_cons]
    cases h : b a <;> simp <;> abel

/-! ### Highest term -/

theorem getLast_max {P : Poly} {e : Monomial × Int} (h : P.entries.getLast? = some e) :
    e ∈ P.entries ∧ ∀ e' ∈ P.entries, e'.1.key = e.1.key ∨ e'.1.key.Lt e.1.key := by
  have hs := P.sorted
  generalize P.entries = l at *
  induction l with
  | nil => simp at h
  | cons a t ih =>
    cases t with
    | nil =>
      simp only [List.getLast?_singleton, Option.some.injEq] at h
      subst h
      simp
    | cons b s =>
      rw [List.getLast?_cons_cons] at h
      obtain ⟨h1, h2⟩ := ih h hs.tail
      refine ⟨by simp [h1], fun e' he' => ?_⟩
      rcases List.mem_cons.1 he' with rfl | he'
      · right; exact hs.head e h1
      · exact h2 e' he'

theorem highestTermX_of_ne {P : Poly} (h : P.entries ≠ []) :
    ∃ e ∈ P.entries, P.highestTermX = Term.from' e.1 e.2 ∧
      ∀ e' ∈ P.entries, e'.1.key = e.1.key ∨ e'.1.key.Lt e.1.key := by
  cases hl : P.entries.getLast? with
  | none => exact absurd (List.getLast?_eq_none_iff.1 hl) h
  | some e =>
    obtain ⟨h1, h2⟩ := getLast_max hl
    refine ⟨e, h1, ?_, h2⟩
    unfold highestTermX; rw [hl]

theorem highestTermX_of_nil {P : Poly} (h : P.entries = []) : P.highestTermX = Term.new := by
  unfold highestTermX; rw [h]; rfl

/-- No entry has a larger x exponent than the highest term. -/
theorem le_highest {P : Poly} {e : Monomial × Int} (he : e ∈ P.entries) :
    e.1.xpow ≤ P.highestTermX.xpow := by
  obtain ⟨e', h1, h2, h3⟩ := highestTermX_of_ne (List.ne_nil_of_mem he)
  rw [h2]
  rcases h3 e he with h | h
  · exact le_of_eq (congrArg Key.x h)
  · rw [Key.lt_iff] at h
    change e.1.key.x ≤ e'.1.key.x
    rcases h with h | h
    · exact le_of_lt h
    · exact le_of_eq h.1

theorem hasX_eq_false {P : Poly} : P.hasX = false ↔ ∀ e ∈ P.entries, e.1.xpow = 0 := by
  unfold hasX; simp [Term.hasX, Term.from', Term.xpow]
theorem hasY_eq_false {P : Poly} : P.hasY = false ↔ ∀ e ∈ P.entries, e.1.ypow = 0 := by
  unfold hasY; simp [Term.hasY, Term.from', Term.ypow]
theorem hasQ_eq_false {P : Poly} : P.hasQ = false ↔ ∀ e ∈ P.entries, e.1.qpow = 0 := by
  unfold hasQ; simp [Term.hasQ, Term.from', Term.qpow]

end Poly
end EC
