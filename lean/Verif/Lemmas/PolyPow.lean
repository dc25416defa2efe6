import Verif.Lemmas.PolyOps

/-! Multiplicative functionals, powers, reduction modulo `p`. -/

namespace EC

/-- The key of the monomial 1. -/
def Key.one : Key := { x := 0, y := 0, q := 0, v := none }

/-- `φ` is multiplicative on the keys in `S`. -/
structure MulFn {R : Type*} [CommRing R] (S : Key → Prop) (φ : Key → R) : Prop where
  one_mem : S Key.one
  map_one : φ Key.one = 1
  mul_mem : ∀ {k k' : Key}, S k → S k' → k.Compat k' → S (k.mul k')
  map_mul : ∀ {k k' : Key}, S k → S k' → k.Compat k' → φ (k.mul k') = φ k * φ k'

theorem MulFn.comp {R R' : Type*} [CommRing R] [CommRing R'] {S : Key → Prop} {φ : Key → R}
    (h : MulFn S φ) (f : R →+* R') : MulFn S (fun k => f (φ k)) :=
  ⟨h.one_mem, by rw [h.map_one, _root_.map_one], h.mul_mem, fun h1 h2 h3 => by
    rw [h.map_mul h1 h2 h3, _root_.map_mul]⟩

theorem mulFn_val : MulFn (fun _ => True) Key.val :=
  ⟨trivial, rfl, fun _ _ _ => trivial, fun _ _ h => Key.val_mul h⟩

theorem mulFn_evalAt {R : Type*} [CommRing R] (x y q : R) (c : ℤ × ℤ → R) :
    MulFn Key.Nonneg (Key.evalAt x y q c) :=
  ⟨by simp [Key.Nonneg, Key.one], by simp [Key.evalAt, Key.one],
   fun ⟨a1, a2, a3⟩ ⟨b1, b2, b3⟩ _ => ⟨by simp only [Key.mul]; omega, by simp only [Key.mul]; omega,
     by simp only [Key.mul]; omega⟩,
   fun h1 h2 h3 => Key.evalAt_mul x y q c h1 h2 h3⟩

namespace Poly

@[simp] theorem one_entries : one.entries = [({ xpow := 0, ypow := 0, qpow := 0, var := SubVar.new }, 1)] := rfl

theorem all_one {S : Key → Prop} (h : S Key.one) : one.All S := by
  intro e he; simp at he; subst he; exact h

theorem lin_one {M : Type*} [AddCommGroup M] (φ : Key → M) : one.lin φ = φ Key.one := by
  simp only [lin, one_entries, List.map_cons, List.map_nil, List.sum_cons, List.sum_nil, one_smul,
    add_zero]; rfl

theorem canon_one : one.Canon := by intro e he; simp at he; subst he; simp

section MulFn
variable {R : Type*} [CommRing R] {S : Key → Prop} {φ : Key → R}

theorem MulFn.mul (hφ : MulFn S φ) {a b c : Poly} (ha : a.All S) (hb : b.All S)
    (h : a.mul b = .ok c) : c.All S ∧ c.lin φ = a.lin φ * b.lin φ :=
  ⟨all_mul ha hb (fun _ _ h1 h2 h3 => hφ.mul_mem h1 h2 h3) h,
   lin_mul h (fun ie hi je hj hc => hφ.map_mul (ha ie hi) (hb je hj) hc)⟩

theorem tdiv2 {e : ℤ} (h : 0 ≤ e) : e.tdiv 2 = e / 2 := Int.tdiv_eq_ediv_of_nonneg h

theorem MulFn.powLoop (hφ : MulFn S φ) : ∀ (e : ℤ) (b r c : Poly), 1 ≤ e → b.All S → r.All S →
    powLoop e b r = .ok c → c.All S ∧ c.lin φ = r.lin φ * b.lin φ ^ e.toNat := by
  intro e
  induction hn : e.toNat using Nat.strong_induction_on generalizing e with
  | _ n ih =>
    intro b r c he hb hr h
    rw [Poly.powLoop] at h
    split_ifs at h with h1 h2
    · rw [Res.bind_eq_ok] at h
      obtain ⟨r', hr', h⟩ := h
      rw [Res.bind_eq_ok] at h
      obtain ⟨b', hb', h⟩ := h
      obtain ⟨hr1, hr2⟩ := MulFn.mul hφ hr hb hr'
      obtain ⟨hb1, hb2⟩ := MulFn.mul hφ hb hb hb'
      rw [tdiv2 (by omega)] at h
      obtain ⟨h3, h4⟩ := ih _ (by omega) (e / 2) rfl b' r' c (by omega) hb1 hr1 h
      refine ⟨h3, ?_⟩
      rw [h4, hr2, hb2, ← pow_two, ← pow_mul]
      have : n = 2 * (e / 2).toNat + 1 := by omega
      rw [this, pow_succ]; ring
    · rw [Res.ok_bind, Res.bind_eq_ok] at h
      obtain ⟨b', hb', h⟩ := h
      obtain ⟨hb1, hb2⟩ := MulFn.mul hφ hb hb hb'
      rw [tdiv2 (by omega)] at h
      obtain ⟨h3, h4⟩ := ih _ (by omega) (e / 2) rfl b' r c (by omega) hb1 hr h
      refine ⟨h3, ?_⟩
      rw [h4, hb2, ← pow_two, ← pow_mul]
      have : n = 2 * (e / 2).toNat := by omega
      rw [this]
    · obtain ⟨h3, h4⟩ := MulFn.mul hφ hr hb h
      have : n = 1 := by omega
      refine ⟨h3, by rw [h4, this, pow_one]⟩

theorem MulFn.power (hφ : MulFn S φ) {f c : Poly} {n : ℤ} (hf : f.All S) (h : f.power n = .ok c) :
    0 ≤ n ∧ c.All S ∧ c.lin φ = f.lin φ ^ n.toNat := by
  unfold Poly.power at h
  rw [Res.bind_eq_ok] at h
  obtain ⟨_, h0, h⟩ := h
  have hn : 0 ≤ n := by simpa [rassert_eq_ok] using h0
  refine ⟨hn, ?_⟩
  split_ifs at h with h1
  · simp only [Res.ok.injEq] at h
    subst h; subst h1
    exact ⟨all_one hφ.one_mem, by simp [lin_one, hφ.map_one]⟩
  · obtain ⟨h2, h3⟩ := MulFn.powLoop hφ n f one c (by omega) hf (all_one hφ.one_mem) h
    exact ⟨h2, by rw [h3, lin_one, hφ.map_one, one_mul]⟩

end MulFn

/-! ### Totality of powers, for a graded family of monomials -/

/-- A family of monomial sets, graded by weight, inside which products stay in `i32` up to weight
`N`. -/
structure Graded (N : ℤ) (T : ℤ → Key → Prop) : Prop where
  one_mem : T 0 Key.one
  mul_mem : ∀ {m n : ℤ} {k k' : Key}, T m k → T n k' → T (m + n) (k.mul k')
  compat : ∀ {m n : ℤ} {k k' : Key}, T m k → T n k' → m + n ≤ N → k.Compat k'

theorem Graded.mul {N : ℤ} {T : ℤ → Key → Prop} (hT : Graded N T) {a b : Poly} {m n : ℤ}
    (ha : a.All (T m)) (hb : b.All (T n)) (h : m + n ≤ N) :
    ∃ c, a.mul b = .ok c ∧ c.All (T (m + n)) := by
  obtain ⟨c, hc⟩ := mul_ok (a := a) (b := b)
    (fun ie hi je hj => hT.compat (ha ie hi) (hb je hj) h)
  exact ⟨c, hc, all_mul ha hb (fun _ _ h1 h2 _ => hT.mul_mem h1 h2) hc⟩

theorem Graded.powLoop {N : ℤ} {T : ℤ → Key → Prop} (hT : Graded N T) :
    ∀ (e : ℤ) (b r : Poly) (i j : ℤ), 1 ≤ e → 0 ≤ i → 0 ≤ j → b.All (T j) → r.All (T i) →
      i + e * j ≤ N → ∃ c, powLoop e b r = .ok c ∧ c.All (T (i + e * j)) := by
  intro e
  induction hn : e.toNat using Nat.strong_induction_on generalizing e with
  | _ n ih =>
    intro b r i j he hi hj hb hr hN
    rw [Poly.powLoop]
    split_ifs with h1 h2
    · have hj2 : 2 * j ≤ e * j := by nlinarith
      obtain ⟨r', hr', hr1⟩ := hT.mul hr hb (show i + j ≤ N by nlinarith)
      obtain ⟨b', hb', hb1⟩ := hT.mul hb hb (show j + j ≤ N by omega)
      have e2 : i + j + e / 2 * (j + j) = i + e * j := by
        have : e = 2 * (e / 2) + 1 := by omega
        generalize e / 2 = u at *; subst this; ring
      obtain ⟨c, hc, hc1⟩ := ih _ (by omega) (e / 2) rfl b' r' (i + j) (j + j) (by omega) (by omega)
        (by omega) hb1 hr1 (by rw [e2]; exact hN)
      rw [e2] at hc1
      refine ⟨c, ?_, hc1⟩
      simp only [mulAssign, hr', Res.ok_bind, hb']
      rw [tdiv2 (by omega), hc]
    · have hj2 : 2 * j ≤ e * j := by nlinarith
      obtain ⟨b', hb', hb1⟩ := hT.mul hb hb (show j + j ≤ N by omega)
      have e2 : i + e / 2 * (j + j) = i + e * j := by
        have : e = 2 * (e / 2) := by omega
        generalize e / 2 = u at *; subst this; ring
      obtain ⟨c, hc, hc1⟩ := ih _ (by omega) (e / 2) rfl b' r i (j + j) (by omega) (by omega)
        (by omega) hb1 hr (by rw [e2]; exact hN)
      rw [e2] at hc1
      refine ⟨c, ?_, hc1⟩
      simp only [Res.ok_bind, hb']
      rw [tdiv2 (by omega), hc]
    · have : e = 1 := by omega
      subst this
      rw [one_mul] at *
      exact hT.mul hr hb hN

theorem Graded.power {N : ℤ} {T : ℤ → Key → Prop} (hT : Graded N T) {f : Poly} {n j : ℤ}
    (hn : 0 ≤ n) (hj : 0 ≤ j) (hf : f.All (T j)) (hN : n * j ≤ N) :
    ∃ c, f.power n = .ok c ∧ c.All (T (n * j)) := by
  unfold Poly.power
  have : rassert (decide (n ≥ 0)) = .ok () := by simp [rassert, hn]
  rw [this, Res.ok_bind]
  split_ifs with h1
  · subst h1
    exact ⟨one, rfl, by simpa using all_one hT.one_mem⟩
  · simpa using hT.powLoop n f one 0 j (by omega) le_rfl hj hf (all_one hT.one_mem) (by omega)

theorem powLoop_ne_timeout : ∀ (e : ℤ) (b r : Poly), powLoop e b r ≠ .timeout := by
  intro e
  induction hn : e.toNat using Nat.strong_induction_on generalizing e with
  | _ n ih =>
    intro b r
    rw [Poly.powLoop]
    split_ifs with h1 h2
    · simp only [ne_eq, Res.bind_eq_timeout, not_or, not_exists, not_and]
      refine ⟨mul_ne_timeout _ _, fun _ _ => ⟨mul_ne_timeout _ _, fun _ _ => ?_⟩⟩
      rw [tdiv2 (by omega)]
      exact ih _ (by omega) _ rfl _ _
    · simp only [ne_eq, Res.ok_bind, Res.bind_eq_timeout, not_or, not_exists, not_and]
      refine ⟨mul_ne_timeout _ _, fun _ _ => ?_⟩
      rw [tdiv2 (by omega)]
      exact ih _ (by omega) _ rfl _ _
    · exact mul_ne_timeout _ _

theorem power_ne_timeout (f : Poly) (n : ℤ) : f.power n ≠ .timeout := by
  unfold Poly.power
  rw [ne_eq, Res.bind_eq_timeout]
  push Not
  refine ⟨by unfold rassert; split_ifs <;> simp, fun _ _ => ?_⟩
  split_ifs
  · simp
  · exact powLoop_ne_timeout _ _ _

/-! ### Reduction of the coefficients modulo `p` -/

/-- Entries reduced modulo `p`, zeros dropped. -/
def modEntries (p : ℤ) (l : List (Monomial × Int)) : List (Monomial × Int) :=
  (l.map fun e => (e.1, e.2 % p)).filter (fun e => e.2 ≠ 0)

theorem lookL_map_snd (g : Int → Int) (l : List (Monomial × Int)) (k : Key) :
    lookL k (l.map fun e => (e.1, g e.2)) = (lookL k l).map g := by
  induction l with
  | nil => rfl
  | cons e t ih => rw [List.map_cons, lookL_cons, lookL_cons, ih]; split_ifs <;> rfl

theorem sorted_map_snd (g : Int → Int) {l : List (Monomial × Int)} (hl : SortedEntries l) :
    SortedEntries (l.map fun e => (e.1, g e.2)) := by
  unfold SortedEntries at *
  rw [List.pairwise_map]; exact hl

theorem lookL_modEntries (p : ℤ) {l : List (Monomial × Int)} (hl : SortedEntries l) (k : Key) :
    lookL k (modEntries p l) = ((lookL k l).map (· % p)).filter (fun c => c ≠ 0) := by
  unfold modEntries
  rw [lookL_filter (sorted_map_snd (· % p) hl) _ (fun _ c => c ≠ 0) (by intro e _; simp),
    lookL_map_snd (· % p)]

private theorem nodup_modEntries (p : ℤ) {l : List (Monomial × Int)}
    (hl : (l.map (·.1.key)).Nodup) : ((modEntries p l).map (·.1.key)).Nodup := by
  unfold modEntries
  refine List.Nodup.sublist (List.Sublist.map _ List.filter_sublist) ?_
  rw [List.map_map]; exact hl

theorem assertBelow_ok {p c : ℤ} (h : c < p) : assertBelow p c = .ok () := by
  unfold assertBelow; split_ifs <;> simp [h]

private theorem forM_ok {l : List (Monomial × Int)} {p : ℤ} (h : ∀ e ∈ l, e.2 < p) :
    l.forM (fun e => assertBelow p e.2) = Res.ok () := by
  induction l with
  | nil => rfl
  | cons a t ih =>
    change (assertBelow p a.2 >>= fun _ => t.forM _) = _
    rw [assertBelow_ok (h a (by simp)), Res.ok_bind]
    exact ih (fun e he => h e (by simp [he]))

/-- The look-up function of a polynomial reduced modulo `p`. -/
def ModOf (p : ℤ) (f r : Poly) : Prop :=
  ∀ k, r.look k = ((f.look k).map (· % p)).filter (fun c => c ≠ 0)

theorem rem_ok (f : Poly) {p : ℤ} (hp : 0 < p) : ∃ r, f.rem p = .ok r ∧ ModOf p f r := by
  have h1 : ∀ (l : List (Monomial × Int)) (P : Poly),
      l.foldlM (fun pol e => do
        let c ← modFloor e.2 p
        assertBelow p c
        .ok (if c = 0 then pol else pol.insert e.1 c)) P = Res.ok (insAll (modEntries p l) P) := by
    intro l
    induction l with
    | nil => intro P; rfl
    | cons a t ih =>
      intro P
      rw [List.foldlM_cons, modFloor_of (by omega), Res.ok_bind, fmod_pos_eq hp]
      have h2 : a.2 % p < p := Int.emod_lt_of_pos _ hp
      rw [assertBelow_ok h2, Res.ok_bind, Res.ok_bind, ih]
      congr 1
      unfold modEntries
      rw [List.map_cons, List.filter_cons]
      by_cases h3 : a.2 % p = 0
      · simp [h3]
      · rw [if_neg h3, if_pos (by simpa using h3)]; rfl
  have hlook : ∀ k, (insAll (modEntries p f.entries) new).look k =
      ((f.look k).map (· % p)).filter (fun c => c ≠ 0) := by
    intro k
    rw [look_insAll_new (nodup_modEntries p f.keys_nodup), lookL_modEntries p f.sorted]; rfl
  refine ⟨insAll (modEntries p f.entries) new, ?_, hlook⟩
  unfold rem
  rw [h1, Res.ok_bind, forM_ok, Res.ok_bind]
  intro e he
  have := look_of_mem he
  rw [hlook, Option.filter_eq_some_iff] at this
  obtain ⟨h2, _⟩ := this
  rw [Option.map_eq_some_iff] at h2
  obtain ⟨c, _, h3⟩ := h2
  rw [← h3]; exact Int.emod_lt_of_pos _ hp

private theorem look_foldl_remove (del : List Monomial) (P : Poly) (k : Key) :
    (del.foldl remove P).look k = if ∃ m ∈ del, m.key = k then none else P.look k := by
  induction del generalizing P with
  | nil => simp
  | cons m t ih =>
    rw [List.foldl_cons, ih, look_remove]
    simp only [List.mem_cons, exists_eq_or_imp, eq_comm (a := k)]
    by_cases h1 : m.key = k
    · simp [h1]
    · simp only [h1, false_or, if_false]

theorem modularAssign_ok (f : Poly) {p : ℤ} (hp : 0 < p) :
    ∃ r, f.modularAssign p = .ok r ∧ ModOf p f r := by
  -- the loop state after the entries `l`
  have h1 : ∀ (l : List (Monomial × Int)) (P : Poly) (d : List Monomial),
      (∀ e ∈ l, True) →
      l.foldlM (fun (acc : Poly × List Monomial) e => do
        let c ← modFloor e.2 p
        assertBelow p c
        .ok (acc.1.insert e.1 c, if c = 0 then acc.2 ++ [e.1] else acc.2)) (P, d) =
      Res.ok (insAll (l.map fun e => (e.1, e.2 % p)) P,
        d ++ (l.filter fun e => e.2 % p = 0).map (·.1)) := by
    intro l
    induction l with
    | nil => intro P d _; simp [insAll]
    | cons a t ih =>
      intro P d _
      rw [List.foldlM_cons, modFloor_of (by omega), Res.ok_bind, fmod_pos_eq hp]
      have h2 : a.2 % p < p := Int.emod_lt_of_pos _ hp
      rw [assertBelow_ok h2, Res.ok_bind, Res.ok_bind, ih _ _ (by simp)]
      congr 1
      rw [List.filter_cons]
      refine Prod.ext rfl ?_
      by_cases h3 : a.2 % p = 0
      · simp [h3]
      · rw [if_neg h3, if_neg (by simpa using h3)]
  set P1 := insAll (f.entries.map fun e => (e.1, e.2 % p)) f with hP1
  set del := (f.entries.filter fun e => e.2 % p = 0).map (·.1) with hdel
  have hP1look : ∀ k, P1.look k = (f.look k).map (· % p) := by
    intro k
    rw [hP1, look_insAll (by rw [List.map_map]; exact f.keys_nodup), lookL_map_snd (· % p)]
    change ((f.look k).map _).or (f.look k) = _
    cases f.look k <;> rfl
  have hlook : ∀ k, (del.foldl remove P1).look k =
      ((f.look k).map (· % p)).filter (fun c => c ≠ 0) := by
    intro k
    rw [look_foldl_remove, hP1look]
    have hiff : (∃ m ∈ del, m.key = k) ↔ ∃ c, f.look k = some c ∧ c % p = 0 := by
      rw [hdel]
      simp only [List.mem_map, List.mem_filter, decide_eq_true_eq]
      constructor
      · rintro ⟨m, ⟨e, ⟨he, h0⟩, rfl⟩, rfl⟩
        exact ⟨e.2, look_of_mem he, h0⟩
      · rintro ⟨c, hc, h0⟩
        obtain ⟨e, he, h3, h4⟩ := look_eq_some hc
        exact ⟨e.1, ⟨e, ⟨he, by rw [h4]; exact h0⟩, rfl⟩, h3⟩
    split_ifs with h
    · obtain ⟨c, hc, h0⟩ := hiff.1 h
      rw [hc]; simp [h0, Option.filter]
    · cases hc : f.look k with
      | none => rfl
      | some c =>
        have : c % p ≠ 0 := fun h0 => h (hiff.2 ⟨c, hc, h0⟩)
        simp [this, Option.filter]
  refine ⟨del.foldl remove P1, ?_, hlook⟩
  unfold modularAssign modAssignLoop
  rw [h1 _ _ _ (by simp), Res.ok_bind]
  simp only [List.nil_append]
  rw [forM_ok, Res.ok_bind]
  intro e he
  have := look_of_mem he
  rw [hlook, Option.filter_eq_some_iff] at this
  obtain ⟨h2, _⟩ := this
  rw [Option.map_eq_some_iff] at h2
  obtain ⟨c, _, h3⟩ := h2
  rw [← h3]; exact Int.emod_lt_of_pos _ hp

section ModOf
variable {p : ℤ} {f r : Poly}

theorem ModOf.canon (h : ModOf p f r) : r.Canon := by
  rw [canon_iff]; intro k hk
  rw [h k, Option.filter_eq_some_iff] at hk
  simp at hk

theorem ModOf.reduced (hp : 0 < p) (h : ModOf p f r) : r.Reduced p := by
  rw [reduced_iff]; intro k c hk
  rw [h k, Option.filter_eq_some_iff, Option.map_eq_some_iff] at hk
  obtain ⟨⟨d, _, rfl⟩, _⟩ := hk
  exact ⟨Int.emod_nonneg _ (by omega), Int.emod_lt_of_pos _ hp⟩

theorem ModOf.all {S : Key → Prop} (hf : f.All S) (h : ModOf p f r) : r.All S := by
  rw [all_iff] at *; intro k c hk
  rw [h k, Option.filter_eq_some_iff, Option.map_eq_some_iff] at hk
  obtain ⟨⟨d, h1, rfl⟩, _⟩ := hk
  exact hf k d h1

theorem ModOf.coef (h : ModOf p f r) (k : Key) : r.coef k = f.coef k % p := by
  rw [coef_eq, coef_eq, h k]
  cases hc : f.look k with
  | none => simp
  | some c =>
    simp only [Option.map_some, Option.filter, Option.getD_some]
    by_cases h0 : c % p = 0 <;> simp [h0]

theorem ModOf.lin {M : Type*} [AddCommGroup M] (φ : Key → M) (hM : ∀ m : M, p • m = 0)
    (h : ModOf p f r) : r.lin φ = f.lin φ := by
  have hfs : ∃ g : Key →₀ ℤ, f.fs = r.fs + p • g := by
    refine ⟨f.fs.mapRange (· / p) (by simp), ?_⟩
    ext k
    have := h.coef k
    rw [coef_eq_fs, coef_eq_fs] at this
    simp only [Finsupp.add_apply, Finsupp.smul_apply, Finsupp.mapRange_apply, this, smul_eq_mul]
    exact (Int.emod_add_mul_ediv _ _).symm
  obtain ⟨g, hg⟩ := hfs
  rw [lin_eq_fs, lin_eq_fs, hg, map_add, map_smul, hM, add_zero]

theorem ModOf.unique {r' : Poly} (h : ModOf p f r) (h' : ModOf p f r') : r.eq r' = true := by
  rw [eq_iff_look]; intro k; rw [h k, h' k]

end ModOf

theorem modularAssign_eq_ok {f r : Poly} {p : ℤ} (hp : 0 < p) (h : f.modularAssign p = .ok r) :
    ModOf p f r := by
  obtain ⟨r', h1, h2⟩ := modularAssign_ok f hp
  rw [h1] at h; simp at h; subst h; exact h2

theorem rem_eq_ok {f r : Poly} {p : ℤ} (hp : 0 < p) (h : f.rem p = .ok r) : ModOf p f r := by
  obtain ⟨r', h1, h2⟩ := rem_ok f hp
  rw [h1] at h; simp at h; subst h; exact h2

/-! ### `power_modulo` -/

section
variable {R : Type*} [CommRing R] {S : Key → Prop} {φ : Key → R}

theorem MulFn.mulMod (hφ : MulFn S φ) {p : ℤ} (hp : 0 < p) (hR : ∀ m : R, p • m = 0) {a b c d : Poly}
    (ha : a.All S) (hb : b.All S) (h : a.mulAssign b = .ok c) (h2 : c.modularAssign p = .ok d) :
    ModOf p c d ∧ d.All S ∧ d.lin φ = a.lin φ * b.lin φ := by
  obtain ⟨h3, h4⟩ := MulFn.mul hφ ha hb h
  have hm := modularAssign_eq_ok hp h2
  exact ⟨hm, hm.all h3, by rw [hm.lin φ hR, h4]⟩

theorem MulFn.powModLoop (hφ : MulFn S φ) {p : ℤ} (hp : 0 < p) (hR : ∀ m : R, p • m = 0) :
    ∀ (e : ℤ) (b r c : Poly), b.All S → r.All S → powModLoop p e b r = .ok c →
      c.All S ∧ c.lin φ = r.lin φ * b.lin φ ^ (max e 1).toNat ∧ c.Canon ∧ c.Reduced p := by
  intro e
  induction hn : e.toNat using Nat.strong_induction_on generalizing e with
  | _ n ih =>
    intro b r c hb hr h
    rw [Poly.powModLoop] at h
    split_ifs at h with h1 h2
    · simp only [bind_assoc, Res.bind_eq_ok] at h
      obtain ⟨r1, hr1, r', hr', b1, hb1, b', hb', h⟩ := h
      obtain ⟨_, hrA, hrL⟩ := MulFn.mulMod hφ hp hR hr hb hr1 hr'
      obtain ⟨_, hbA, hbL⟩ := MulFn.mulMod hφ hp hR hb hb hb1 hb'
      rw [tdiv2 (by omega)] at h
      obtain ⟨h3, h4, h5⟩ := ih _ (by omega) (e / 2) rfl b' r' c hbA hrA h
      refine ⟨h3, ?_, h5⟩
      rw [h4, hrL, hbL, ← pow_two, ← pow_mul]
      have : (max e 1).toNat = 2 * (max (e / 2) 1).toNat + 1 := by omega
      rw [this, pow_succ]; ring
    · simp only [Res.ok_bind, Res.bind_eq_ok] at h
      obtain ⟨b1, hb1, b', hb', h⟩ := h
      obtain ⟨_, hbA, hbL⟩ := MulFn.mulMod hφ hp hR hb hb hb1 hb'
      rw [tdiv2 (by omega)] at h
      obtain ⟨h3, h4, h5⟩ := ih _ (by omega) (e / 2) rfl b' r c hbA hr h
      refine ⟨h3, ?_, h5⟩
      rw [h4, hbL, ← pow_two, ← pow_mul]
      have : (max e 1).toNat = 2 * (max (e / 2) 1).toNat := by omega
      rw [this]
    · rw [Res.bind_eq_ok] at h
      obtain ⟨r1, hr1, h⟩ := h
      obtain ⟨hm, hrA, hrL⟩ := MulFn.mulMod hφ hp hR hr hb hr1 h
      have : (max e 1).toNat = 1 := by omega
      exact ⟨hrA, by rw [hrL, this, pow_one], hm.canon, hm.reduced hp⟩

theorem MulFn.powerModulo (hφ : MulFn S φ) {p : ℤ} (hp : 0 < p) (hR : ∀ m : R, p • m = 0)
    {f c : Poly} {n : ℤ} (hf : f.All S) (h : f.powerModulo n p = .ok c) :
    0 ≤ n ∧ c.All S ∧ c.lin φ = f.lin φ ^ (max n 1).toNat ∧ c.Canon ∧ c.Reduced p := by
  unfold Poly.powerModulo at h
  rw [Res.bind_eq_ok] at h
  obtain ⟨_, h0, h⟩ := h
  have hn : 0 ≤ n := by simpa [rassert_eq_ok] using h0
  rw [Res.bind_eq_ok] at h
  obtain ⟨b, hb, h⟩ := h
  have hm := rem_eq_ok hp hb
  obtain ⟨h2, h3, h4⟩ := MulFn.powModLoop hφ hp hR n b one c (hm.all hf) (all_one hφ.one_mem) h
  exact ⟨hn, h2, by rw [h3, lin_one, hφ.map_one, one_mul, hm.lin φ hR], h4⟩

end

theorem Graded.powModLoop {N : ℤ} {T : ℤ → Key → Prop} (hT : Graded N T) {p : ℤ} (hp : 0 < p) :
    ∀ (e : ℤ) (b r : Poly) (i j : ℤ), 0 ≤ i → 0 ≤ j → b.All (T j) → r.All (T i) →
      i + max e 1 * j ≤ N → ∃ c, powModLoop p e b r = .ok c ∧ c.All (T (i + max e 1 * j)) := by
  intro e
  induction hn : e.toNat using Nat.strong_induction_on generalizing e with
  | _ n ih =>
    intro b r i j hi hj hb hr hN
    rw [Poly.powModLoop]
    split_ifs with h1 h2
    · have hm : max e 1 = e := by omega
      have hm2 : max (e / 2) 1 = e / 2 := by omega
      rw [hm] at hN ⊢
      have hj2 : 2 * j ≤ e * j := by nlinarith
      obtain ⟨r1, hr1, hrA⟩ := hT.mul hr hb (show i + j ≤ N by nlinarith)
      obtain ⟨b1, hb1, hbA⟩ := hT.mul hb hb (show j + j ≤ N by omega)
      obtain ⟨r', hr', hrM⟩ := modularAssign_ok r1 hp
      obtain ⟨b', hb', hbM⟩ := modularAssign_ok b1 hp
      have e2 : i + j + e / 2 * (j + j) = i + e * j := by
        have : e = 2 * (e / 2) + 1 := by omega
        generalize e / 2 = u at *; subst this; ring
      obtain ⟨c, hc, hc1⟩ := ih _ (by omega) (e / 2) rfl b' r' (i + j) (j + j) (by omega)
        (by omega) (hbM.all hbA) (hrM.all hrA) (by rw [hm2, e2]; exact hN)
      rw [hm2, e2] at hc1
      refine ⟨c, ?_, hc1⟩
      simp only [mulAssign, hr1, Res.ok_bind, hr', hb1, hb']
      rw [tdiv2 (by omega), hc]
    · have hm : max e 1 = e := by omega
      have hm2 : max (e / 2) 1 = e / 2 := by omega
      rw [hm] at hN ⊢
      have hj2 : 2 * j ≤ e * j := by nlinarith
      obtain ⟨b1, hb1, hbA⟩ := hT.mul hb hb (show j + j ≤ N by omega)
      obtain ⟨b', hb', hbM⟩ := modularAssign_ok b1 hp
      have e2 : i + e / 2 * (j + j) = i + e * j := by
        have : e = 2 * (e / 2) := by omega
        generalize e / 2 = u at *; subst this; ring
      obtain ⟨c, hc, hc1⟩ := ih _ (by omega) (e / 2) rfl b' r i (j + j) (by omega)
        (by omega) (hbM.all hbA) hr (by rw [hm2, e2]; exact hN)
      rw [hm2, e2] at hc1
      refine ⟨c, ?_, hc1⟩
      simp only [mulAssign, Res.ok_bind, hb1, hb']
      rw [tdiv2 (by omega), hc]
    · have hm : max e 1 = 1 := by omega
      rw [hm, one_mul] at hN ⊢
      obtain ⟨r1, hr1, hrA⟩ := hT.mul hr hb hN
      obtain ⟨r', hr', hrM⟩ := modularAssign_ok r1 hp
      refine ⟨r', ?_, hrM.all hrA⟩
      unfold mulAssign
      rw [hr1, Res.ok_bind, hr']

theorem Graded.powerModulo {N : ℤ} {T : ℤ → Key → Prop} (hT : Graded N T) {p : ℤ} (hp : 0 < p)
    {f : Poly} {n j : ℤ} (hn : 0 ≤ n) (hj : 0 ≤ j) (hf : f.All (T j)) (hN : max n 1 * j ≤ N) :
    ∃ c, f.powerModulo n p = .ok c ∧ c.All (T (max n 1 * j)) := by
  unfold Poly.powerModulo
  have : rassert (decide (n ≥ 0)) = .ok () := by simp [rassert, hn]
  obtain ⟨b, hb, hbM⟩ := rem_ok f hp
  rw [this, Res.ok_bind, hb, Res.ok_bind]
  simpa using hT.powModLoop hp n b one 0 j le_rfl hj (hbM.all hf) (all_one hT.one_mem) (by omega)

theorem rassert_ne_timeout (c : Bool) : rassert c ≠ .timeout := by unfold rassert; split_ifs <;> simp
theorem modFloor_ne_timeout (a p : ℤ) : modFloor a p ≠ .timeout := by unfold modFloor; split_ifs <;> simp

theorem assertBelow_ne_timeout (p c : ℤ) : assertBelow p c ≠ .timeout := by
  unfold assertBelow; split_ifs
  · exact rassert_ne_timeout _
  · simp

theorem forM_ne_timeout {α : Type} {f : α → Res Unit} (hf : ∀ a, f a ≠ .timeout) (l : List α) :
    l.forM f ≠ .timeout := by
  induction l with
  | nil => simp
  | cons a t ih =>
    change (f a >>= fun _ => t.forM _) ≠ _
    rw [ne_eq, Res.bind_eq_timeout]
    push Not
    exact ⟨hf _, fun _ _ => ih⟩

theorem modularAssign_ne_timeout (f : Poly) (p : ℤ) : f.modularAssign p ≠ .timeout := by
  unfold modularAssign modAssignLoop
  rw [ne_eq, Res.bind_eq_timeout]
  push Not
  refine ⟨foldlM_ne_timeout (fun b a => ?_) _ _, fun a _ => ?_⟩
  · simp only [ne_eq, Res.bind_eq_timeout, not_or, not_exists, not_and]
    exact ⟨modFloor_ne_timeout _ _, fun _ _ => ⟨assertBelow_ne_timeout _ _, by simp⟩⟩
  · simp only [ne_eq, Res.bind_eq_timeout, not_or, not_exists, not_and]
    exact ⟨forM_ne_timeout (fun a => assertBelow_ne_timeout _ _) _, by simp⟩

theorem powModLoop_ne_timeout (p : ℤ) : ∀ (e : ℤ) (b r : Poly), powModLoop p e b r ≠ .timeout := by
  intro e
  induction hn : e.toNat using Nat.strong_induction_on generalizing e with
  | _ n ih =>
    intro b r
    rw [Poly.powModLoop]
    split_ifs with h1 h2
    · simp only [ne_eq, Res.bind_eq_timeout, not_or, not_exists, not_and, Res.bind_eq_ok]
      refine ⟨⟨mul_ne_timeout _ _, fun _ _ => modularAssign_ne_timeout _ _⟩,
        fun _ _ => ⟨mul_ne_timeout _ _, fun _ _ => ⟨modularAssign_ne_timeout _ _, fun _ _ => ?_⟩⟩⟩
      rw [tdiv2 (by omega)]
      exact ih _ (by omega) _ rfl _ _
    · simp only [ne_eq, Res.ok_bind, Res.bind_eq_timeout, not_or, not_exists, not_and]
      refine ⟨mul_ne_timeout _ _, fun _ _ => ⟨modularAssign_ne_timeout _ _, fun _ _ => ?_⟩⟩
      rw [tdiv2 (by omega)]
      exact ih _ (by omega) _ rfl _ _
    · simp only [ne_eq, Res.bind_eq_timeout, not_or, not_exists, not_and]
      exact ⟨mul_ne_timeout _ _, fun _ _ => modularAssign_ne_timeout _ _⟩

/-- Grading of the monomials of a power, for a call that returns. -/
theorem powLoop_all {T : ℤ → Key → Prop}
    (hmul : ∀ {m n : ℤ} {k k' : Key}, T m k → T n k' → T (m + n) (k.mul k')) :
    ∀ (e : ℤ) (b r c : Poly) (i j : ℤ), 1 ≤ e → b.All (T j) → r.All (T i) →
      powLoop e b r = .ok c → c.All (T (i + e * j)) := by
  intro e
  induction hn : e.toNat using Nat.strong_induction_on generalizing e with
  | _ n ih =>
    intro b r c i j he hb hr h
    rw [Poly.powLoop] at h
    have hm : ∀ {m n : ℤ} {a b c : Poly}, a.All (T m) → b.All (T n) → a.mul b = .ok c →
        c.All (T (m + n)) := fun ha hb hc => all_mul ha hb (fun _ _ h1 h2 _ => hmul h1 h2) hc
    split_ifs at h with h1 h2
    · rw [Res.bind_eq_ok] at h
      obtain ⟨r', hr', h⟩ := h
      rw [Res.bind_eq_ok] at h
      obtain ⟨b', hb', h⟩ := h
      rw [tdiv2 (by omega)] at h
      have := ih _ (by omega) (e / 2) rfl b' r' c (i + j) (j + j) (by omega) (hm hb hb hb') (hm hr hb hr') h
      have he2 : e = 2 * (e / 2) + 1 := by omega
      rwa [show i + j + e / 2 * (j + j) = i + e * j by linear_combination (-j) * he2] at this
    · rw [Res.ok_bind, Res.bind_eq_ok] at h
      obtain ⟨b', hb', h⟩ := h
      rw [tdiv2 (by omega)] at h
      have := ih _ (by omega) (e / 2) rfl b' r c i (j + j) (by omega) (hm hb hb hb') hr h
      have he2 : e = 2 * (e / 2) := by omega
      rwa [show i + e / 2 * (j + j) = i + e * j by linear_combination (-j) * he2] at this
    · have he1 : e = 1 := by omega
      rw [he1, one_mul]
      exact hm hr hb h

theorem power_all {T : ℤ → Key → Prop} (hone : T 0 Key.one)
    (hmul : ∀ {m n : ℤ} {k k' : Key}, T m k → T n k' → T (m + n) (k.mul k'))
    {f c : Poly} {n j : ℤ} (hf : f.All (T j)) (h : f.power n = .ok c) : c.All (T (n * j)) := by
  unfold Poly.power at h
  rw [Res.bind_eq_ok] at h
  obtain ⟨_, h0, h⟩ := h
  have hn : 0 ≤ n := by simpa [rassert_eq_ok] using h0
  split_ifs at h with h1
  · cases h; rw [h1, zero_mul]; exact all_one hone
  · have := powLoop_all hmul n f one c 0 j (by omega) hf (all_one hone) h
    rwa [zero_add] at this

end Poly
end EC
