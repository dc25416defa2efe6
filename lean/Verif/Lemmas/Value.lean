import Verif.Spec.Value
import Verif.Lemmas.Res
import Mathlib.LinearAlgebra.Finsupp.LinearCombination
import Mathlib.Data.List.GetD

/-! Map semantics of stored polynomials: lookup by key, extensionality, and linear functionals. -/

namespace EC

/-- Canonical monomial of a key. -/
def Key.rep (k : Key) : Monomial :=
  { xpow := k.x, ypow := k.y, qpow := k.q,
    var := match k.v with
      | none => { i := 0, j := 0, empty := true }
      | some v => { i := v.1, j := v.2, empty := false } }

@[simp] theorem Key.key_rep (k : Key) : k.rep.key = k := by
  rcases k with ⟨x, y, q, v⟩
  cases v <;> simp [rep, Monomial.key, SubVar.key]

/-- Strict order on keys induced by the code's order. -/
def Key.Lt (a b : Key) : Prop := Monomial.cmp a.rep b.rep = .lt

theorem Monomial.cmp_lt_key (a b : Monomial) : Monomial.cmp a b = .lt ↔ a.key.Lt b.key := by
  unfold Key.Lt
  rw [Monomial.cmp_congr_left (a := a.key.rep) (b := a) (by simp),
    Monomial.cmp_congr_right (a := b.key.rep) (b := b) (by simp)]

theorem Monomial.cmp_gt_key (a b : Monomial) : Monomial.cmp a b = .gt ↔ b.key.Lt a.key := by
  rw [← Monomial.cmp_lt_key, ← Monomial.cmp_swap a b]
  cases Monomial.cmp a b <;> simp

theorem Key.Lt.trans {a b c : Key} (h1 : a.Lt b) (h2 : b.Lt c) : a.Lt c := Monomial.cmp_lt_trans h1 h2
theorem Key.Lt.ne {a b : Key} (h : a.Lt b) : a ≠ b := by
  rintro rfl
  have := (Monomial.cmp_eq_iff a.rep a.rep).2 rfl
  unfold Key.Lt at h; rw [this] at h; simp at h
theorem Key.Lt.asymm {a b : Key} (h : a.Lt b) : ¬ b.Lt a := fun h2 => (h.trans h2).ne rfl

theorem Key.lt_iff (a b : Key) : a.Lt b ↔
    (a.x < b.x ∨ (a.x = b.x ∧ (a.y < b.y ∨ (a.y = b.y ∧
      (a.q < b.q ∨ (a.q = b.q ∧ SubVar.cmp a.rep.var b.rep.var = .lt)))))) := by
  unfold Key.Lt; rw [Monomial.cmp_lt_iff]; rfl

/-- Lookup by key in an entry list. -/
def lookL (k : Key) (l : List (Monomial × Int)) : Option Int :=
  (l.find? (fun e => e.1.key = k)).map (·.2)

@[simp] theorem lookL_nil (k : Key) : lookL k [] = none := rfl
theorem lookL_cons (k : Key) (a : Monomial × Int) (t : List (Monomial × Int)) :
    lookL k (a :: t) = if a.1.key = k then some a.2 else lookL k t := by
  unfold lookL; rw [List.find?_cons]; split_ifs <;> simp_all

theorem lookL_eq_none {k : Key} {l : List (Monomial × Int)} :
    lookL k l = none ↔ ∀ e ∈ l, e.1.key ≠ k := by
  induction l with
  | nil => simp
  | cons a t ih => rw [lookL_cons]; split_ifs with h <;> simp [h, ih]

theorem SortedEntries.tail {a : Monomial × Int} {t : List (Monomial × Int)}
    (h : SortedEntries (a :: t)) : SortedEntries t := (List.pairwise_cons.1 h).2

theorem SortedEntries.head {a : Monomial × Int} {t : List (Monomial × Int)}
    (h : SortedEntries (a :: t)) : ∀ e ∈ t, a.1.key.Lt e.1.key := fun e he =>
  (Monomial.cmp_lt_key _ _).1 ((List.pairwise_cons.1 h).1 e he)

theorem lookL_of_mem {l : List (Monomial × Int)} (hl : SortedEntries l) {e : Monomial × Int}
    (he : e ∈ l) : lookL e.1.key l = some e.2 := by
  induction l with
  | nil => simp at he
  | cons a t ih =>
    rw [lookL_cons]
    rcases List.mem_cons.1 he with rfl | h
    · simp
    · have := (hl.head e h).ne
      simp [this, ih hl.tail h]

theorem lookL_eq_some {l : List (Monomial × Int)} {k : Key} {c : Int}
    (h : lookL k l = some c) : ∃ e ∈ l, e.1.key = k ∧ e.2 = c := by
  induction l with
  | nil => simp at h
  | cons a t ih =>
    rw [lookL_cons] at h
    split_ifs at h with h1
    · exact ⟨a, by simp, h1, by simpa using h⟩
    · obtain ⟨e, he, h2⟩ := ih h
      exact ⟨e, by simp [he], h2⟩

theorem getL_eq_lookL {l : List (Monomial × Int)} (hl : SortedEntries l) (m : Monomial) :
    getL m l = lookL m.key l := by
  induction l with
  | nil => rfl
  | cons a t ih =>
    obtain ⟨k, v⟩ := a
    rw [lookL_cons]
    simp only [getL]
    cases hc : Monomial.cmp m k with
    | lt =>
      have h1 := (Monomial.cmp_lt_key _ _).1 hc
      simp only [h1.ne.symm, if_false]
      rw [eq_comm, lookL_eq_none]
      intro e he h2
      exact (h1.trans (hl.head e he)).ne h2.symm
    | eq =>
      have h1 := (Monomial.cmp_eq_iff _ _).1 hc
      simp [h1]
    | gt =>
      have h1 := (Monomial.cmp_gt_key _ _).1 hc
      simp [h1.ne, ih hl.tail]

theorem lookL_insertL {l : List (Monomial × Int)} (hl : SortedEntries l) (m : Monomial) (c : Int)
    (k : Key) : lookL k (insertL m c l) = if k = m.key then some c else lookL k l := by
  induction l with
  | nil => simp [insertL, lookL_cons, eq_comm]
  | cons a t ih =>
    obtain ⟨k', v⟩ := a
    simp only [insertL]
    cases hc : Monomial.cmp m k' with
    | lt => simp only [lookL_cons, eq_comm (a := k)]
    | eq =>
      have h1 := (Monomial.cmp_eq_iff _ _).1 hc
      simp only [lookL_cons, h1, eq_comm (a := k)]; split_ifs <;> rfl
    | gt =>
      have h1 := (Monomial.cmp_gt_key _ _).1 hc
      simp only [lookL_cons, ih hl.tail]
      have := h1.ne
      split_ifs <;> simp_all

theorem lookL_removeL {l : List (Monomial × Int)} (hl : SortedEntries l) (m : Monomial)
    (k : Key) : lookL k (removeL m l) = if k = m.key then none else lookL k l := by
  induction l with
  | nil => simp [removeL]
  | cons a t ih =>
    obtain ⟨k', v⟩ := a
    simp only [removeL]
    cases hc : Monomial.cmp m k' with
    | lt =>
      have h1 := (Monomial.cmp_lt_key _ _).1 hc
      split_ifs with h2
      · subst h2
        rw [lookL_eq_none]
        intro e he h2
        rcases List.mem_cons.1 he with rfl | he
        · exact h1.ne h2.symm
        · exact (h1.trans (hl.head e he)).ne h2.symm
      · rfl
    | eq =>
      have h1 := (Monomial.cmp_eq_iff _ _).1 hc
      split_ifs with h2
      · subst h2
        rw [lookL_eq_none]
        intro e he h2
        exact (hl.head e he).ne (h1 ▸ h2.symm)
      · have : k'.key ≠ k := fun h => h2 (by rw [← h, h1])
        simp [lookL_cons, this]
    | gt =>
      have h1 := (Monomial.cmp_gt_key _ _).1 hc
      have := h1.ne
      simp only [lookL_cons, ih hl.tail]
      split_ifs <;> simp_all

theorem lookL_filter {l : List (Monomial × Int)} (hl : SortedEntries l)
    (f : Monomial × Int → Bool) (g : Key → Int → Prop) [∀ k c, Decidable (g k c)]
    (hfg : ∀ e ∈ l, f e = true ↔ g e.1.key e.2) (k : Key) :
    lookL k (l.filter f) = (lookL k l).filter (fun c => g k c) := by
  induction l with
  | nil => rfl
  | cons a t ih =>
    have ih := ih hl.tail (fun e he => hfg e (by simp [he]))
    have ha := hfg a (by simp)
    rw [List.filter_cons, lookL_cons]
    split_ifs with h1 h2 h3
    · subst h2
      rw [lookL_cons, if_pos rfl, Option.filter, if_pos (by simpa using ha.1 h1)]
    · simp [lookL_cons, h2, ih]
    · subst h3
      have : lookL a.1.key t = none := by
        rw [lookL_eq_none]; intro e he; exact (hl.head e he).ne.symm
      rw [ih, this]
      simp only [Option.filter]
      rw [if_neg]
      simpa [ha] using h1
    · exact ih

namespace Poly

/-- Lookup by key. -/
def look (P : Poly) (k : Key) : Option Int := lookL k P.entries

theorem get?_eq (P : Poly) (m : Monomial) : P.get? m = P.look m.key := getL_eq_lookL P.sorted m
@[simp] theorem look_new (k : Key) : new.look k = none := rfl
theorem look_insert (P : Poly) (m : Monomial) (c : Int) (k : Key) :
    (P.insert m c).look k = if k = m.key then some c else P.look k := lookL_insertL P.sorted m c k
theorem look_remove (P : Poly) (m : Monomial) (k : Key) :
    (P.remove m).look k = if k = m.key then none else P.look k := lookL_removeL P.sorted m k

theorem look_of_mem {P : Poly} {e : Monomial × Int} (h : e ∈ P.entries) :
    P.look e.1.key = some e.2 := lookL_of_mem P.sorted h
theorem look_eq_some {P : Poly} {k : Key} {c : Int} (h : P.look k = some c) :
    ∃ e ∈ P.entries, e.1.key = k ∧ e.2 = c := lookL_eq_some h
theorem look_eq_none {P : Poly} {k : Key} : P.look k = none ↔ ∀ e ∈ P.entries, e.1.key ≠ k :=
  lookL_eq_none

theorem all_iff {S : Key → Prop} {P : Poly} : P.All S ↔ ∀ k c, P.look k = some c → S k := by
  constructor
  · intro h k c hk
    obtain ⟨e, he, rfl, _⟩ := look_eq_some hk
    exact h e he
  · intro h e he
    exact h _ _ (look_of_mem he)

theorem canon_iff {P : Poly} : P.Canon ↔ ∀ k, P.look k ≠ some 0 := by
  constructor
  · intro h k hk
    obtain ⟨e, he, _, h0⟩ := look_eq_some hk
    exact h e he h0
  · intro h e he h0
    exact h _ (h0 ▸ look_of_mem he)

theorem reduced_iff {p : ℤ} {P : Poly} :
    P.Reduced p ↔ ∀ k c, P.look k = some c → 0 ≤ c ∧ c < p := by
  constructor
  · intro h k c hk
    obtain ⟨e, he, _, rfl⟩ := look_eq_some hk
    exact h e he
  · intro h e he
    exact h _ _ (look_of_mem he)

theorem All.mono {S T : Key → Prop} {P : Poly} (h : P.All S) (hST : ∀ k, S k → T k) : P.All T :=
  fun e he => hST _ (h e he)

/-- The keys and coefficients in iteration order. -/
def kv (P : Poly) : List (Key × Int) := P.entries.map (fun e => (e.1.key, e.2))

theorem kv_sorted (P : Poly) : P.kv.Pairwise (fun a b => a.1.Lt b.1) := by
  unfold kv
  rw [List.pairwise_map]
  exact P.sorted.imp (fun {a b} h => (Monomial.cmp_lt_key _ _).1 h)

theorem mem_kv {P : Poly} {k : Key} {c : Int} : (k, c) ∈ P.kv ↔ P.look k = some c := by
  unfold kv
  simp only [List.mem_map, Prod.mk.injEq]
  constructor
  · rintro ⟨e, he, rfl, rfl⟩; exact look_of_mem he
  · intro h
    obtain ⟨e, he, h1, h2⟩ := look_eq_some h
    exact ⟨e, he, h1, h2⟩

private theorem kv_ext_aux {l1 l2 : List (Key × Int)}
    (h1 : l1.Pairwise (fun a b => a.1.Lt b.1)) (h2 : l2.Pairwise (fun a b => a.1.Lt b.1))
    (h : ∀ e, e ∈ l1 ↔ e ∈ l2) : l1 = l2 := by
  induction l1 generalizing l2 with
  | nil =>
    cases l2 with
    | nil => rfl
    | cons b t => exact absurd ((h b).2 (by simp)) (by simp)
  | cons a s ih =>
    cases l2 with
    | nil => exact absurd ((h a).1 (by simp)) (by simp)
    | cons b t =>
      rw [List.pairwise_cons] at h1 h2
      have hab : a = b := by
        rcases List.mem_cons.1 ((h a).1 (by simp)) with h3 | h3
        · exact h3
        · rcases List.mem_cons.1 ((h b).2 (by simp)) with h4 | h4
          · exact h4.symm
          · exact absurd (h1.1 _ h4) (h2.1 _ h3).asymm
      subst hab
      refine congrArg _ (ih h1.2 h2.2 fun e => ?_)
      have := h e
      simp only [List.mem_cons] at this
      constructor
      · intro he
        rcases this.1 (Or.inr he) with rfl | h3
        · exact absurd rfl (h1.1 _ he).ne
        · exact h3
      · intro he
        rcases this.2 (Or.inr he) with rfl | h3
        · exact absurd rfl (h2.1 _ he).ne
        · exact h3

theorem kv_ext {P Q : Poly} : P.kv = Q.kv ↔ ∀ k, P.look k = Q.look k := by
  constructor
  · intro h k
    apply Option.ext; intro c
    rw [← mem_kv, ← mem_kv, h]
  · intro h
    exact kv_ext_aux P.kv_sorted Q.kv_sorted (fun ⟨k, c⟩ => by rw [mem_kv, mem_kv, h])

theorem _root_.EC.SubVar.eq_iff (a b : SubVar) : SubVar.eq a b = true ↔ a.key = b.key := by
  rcases a with ⟨ai, aj, ae⟩; rcases b with ⟨bi, bj, be⟩
  cases ae <;> cases be <;> simp [SubVar.eq, SubVar.key]

theorem _root_.EC.Monomial.eq_iff (a b : Monomial) : Monomial.eq a b = true ↔ a.key = b.key := by
  simp [Monomial.eq, Monomial.key, SubVar.eq_iff, and_assoc]

/-- `==` compares keys and coefficients in order. -/
theorem eq_iff_kv {P Q : Poly} : P.eq Q = true ↔ P.kv = Q.kv := by
  unfold eq kv len
  generalize P.entries = l1
  generalize Q.entries = l2
  induction l1 generalizing l2 with
  | nil => cases l2 <;> simp
  | cons a s ih =>
    cases l2 with
    | nil => simp
    | cons b t =>
      have := ih t
      simp only [Bool.and_eq_true, beq_iff_eq] at this
      simp only [List.length_cons, List.zip_cons_cons, List.all_cons, Bool.and_eq_true, beq_iff_eq,
        Nat.add_right_cancel_iff, List.map_cons, List.cons.injEq, Prod.mk.injEq, Monomial.eq_iff, ← this]
      tauto

theorem eq_iff_look {P Q : Poly} : P.eq Q = true ↔ ∀ k, P.look k = Q.look k := by
  rw [eq_iff_kv, kv_ext]

/-! ### Linear functionals -/

/-- The coefficients as a finitely supported function. -/
noncomputable def fs (P : Poly) : Key →₀ ℤ :=
  (P.entries.map fun e => Finsupp.single e.1.key e.2).sum

/-- The linear functional that sends each monomial key to `φ`. -/
def lin {M : Type*} [AddCommGroup M] (φ : Key → M) (P : Poly) : M :=
  (P.entries.map fun e => e.2 • φ e.1.key).sum

theorem val_eq_lin (P : Poly) : P.val = P.lin Key.val := rfl
theorem evalAt_eq_lin {R : Type*} [CommRing R] (x y q : R) (c : ℤ × ℤ → R) (P : Poly) :
    P.evalAt x y q c = P.lin (Key.evalAt x y q c) := rfl

theorem lin_eq_fs {M : Type*} [AddCommGroup M] (φ : Key → M) (P : Poly) :
    P.lin φ = Finsupp.linearCombination ℤ φ P.fs := by
  unfold lin fs
  rw [map_list_sum, List.map_map]
  congr 1
  apply List.map_congr_left
  intro e _
  simp

private theorem fs_apply_aux {l : List (Monomial × Int)} (hl : SortedEntries l) (k : Key) :
    (l.map fun e => Finsupp.single e.1.key e.2).sum k = (lookL k l).getD 0 := by
  induction l with
  | nil => simp
  | cons a t ih =>
    rw [List.map_cons, List.sum_cons, Finsupp.add_apply, ih hl.tail, lookL_cons, Finsupp.single_apply]
    split_ifs with h
    · have : lookL k t = none := by
        rw [lookL_eq_none]; intro e he h2
        exact (hl.head e he).ne (h.trans h2.symm)
      simp [this]
    · simp

theorem fs_apply (P : Poly) (k : Key) : P.fs k = (P.look k).getD 0 := fs_apply_aux P.sorted k

theorem coef_eq_fs (P : Poly) (k : Key) : P.coef k = P.fs k := by
  unfold coef fs
  generalize P.entries = l
  induction l with
  | nil => simp
  | cons a t ih => simp [Finsupp.single_apply, ih]

theorem coef_eq (P : Poly) (k : Key) : P.coef k = (P.look k).getD 0 := by
  rw [coef_eq_fs, fs_apply]

theorem fs_ext {P Q : Poly} : P.fs = Q.fs ↔ ∀ k, (P.look k).getD 0 = (Q.look k).getD 0 := by
  rw [Finsupp.ext_iff]; simp only [fs_apply]

theorem lin_congr {M : Type*} [AddCommGroup M] (φ : Key → M) {P Q : Poly} (h : P.fs = Q.fs) :
    P.lin φ = Q.lin φ := by rw [lin_eq_fs, lin_eq_fs, h]

theorem lin_congr_fun {M : Type*} [AddCommGroup M] {φ ψ : Key → M} {P : Poly}
    (h : P.All (fun k => φ k = ψ k)) : P.lin φ = P.lin ψ := by
  unfold lin; congr 1
  apply List.map_congr_left
  intro e he; rw [h e he]

theorem map_lin {M N : Type*} [AddCommGroup M] [AddCommGroup N] (f : M →+ N) (φ : Key → M)
    (P : Poly) : f (P.lin φ) = P.lin (fun k => f (φ k)) := by
  unfold lin
  rw [map_list_sum, List.map_map]
  congr 1
  apply List.map_congr_left
  intro e _
  simp [map_zsmul]

@[simp] theorem lin_new {M : Type*} [AddCommGroup M] (φ : Key → M) : new.lin φ = 0 := rfl
@[simp] theorem fs_new : new.fs = 0 := rfl

/-- Two canonical polynomials with the same coefficients are `==`. -/
theorem eq_of_fs {P Q : Poly} (hP : P.Canon) (hQ : Q.Canon) (h : P.fs = Q.fs) : P.eq Q = true := by
  rw [eq_iff_look]
  rw [fs_ext] at h
  rw [canon_iff] at hP hQ
  intro k
  have := h k; have h1 := hP k; have h2 := hQ k
  cases h3 : P.look k <;> cases h4 : Q.look k <;> simp_all

theorem fs_of_eq {P Q : Poly} (h : P.eq Q = true) : P.fs = Q.fs := by
  rw [eq_iff_look] at h
  rw [fs_ext]; intro k; rw [h]

theorem _root_.EC.Key.expo_injective : Function.Injective Key.expo := by
  rintro ⟨x, y, q, v⟩ ⟨x', y', q', v'⟩ h
  simp only [Key.expo, Prod.mk.injEq] at h
  obtain ⟨rfl, rfl, rfl, h⟩ := h
  cases v <;> cases v'
  · rfl
  · exact absurd h.symm (by simp)
  · exact absurd h (by simp)
  · simp only at h
    rw [Finsupp.single_left_inj (by norm_num)] at h
    rw [h]

theorem val_coeff (R : Poly) (k : Key) : R.val.coeff k.expo = R.fs k := by
  unfold val fs
  induction R.entries with
  | nil => simp
  | cons a t ih =>
    simp only [List.map_cons, List.sum_cons, AddMonoidAlgebra.coeff_add, Finsupp.add_apply, ih]
    congr 1
    simp only [Key.val, AddMonoidAlgebra.smul_single, AddMonoidAlgebra.coeff_single,
      Finsupp.single_apply, Key.expo_injective.eq_iff]
    split_ifs <;> simp

theorem val_injective {P Q : Poly} : P.val = Q.val ↔ P.fs = Q.fs := by
  constructor
  · intro h
    ext k
    rw [← val_coeff, ← val_coeff, h]
  · intro h; exact lin_congr _ h

/-- Congruence of values modulo an integer is congruence of all coefficients. -/
theorem dvd_val_sub {P Q : Poly} {p : ℤ} :
    (p : LRing) ∣ P.val - Q.val ↔ ∀ k, p ∣ P.coef k - Q.coef k := by
  have hcast : ∀ d : LRing, (p : LRing) * d = p • d := fun d => by simp [zsmul_eq_mul]
  constructor
  · rintro ⟨d, hd⟩ k
    refine ⟨d.coeff k.expo, ?_⟩
    rw [coef_eq_fs, coef_eq_fs, ← val_coeff, ← val_coeff]
    rw [hcast] at hd
    have := congrArg (fun z => z.coeff k.expo) hd
    simpa only [AddMonoidAlgebra.coeff_sub, AddMonoidAlgebra.coeff_smul, Finsupp.sub_apply,
      Finsupp.smul_apply, smul_eq_mul] using this
  · intro h
    let g : Key →₀ ℤ := (P.fs - Q.fs).mapRange (· / p) (by simp)
    have hg : P.fs = Q.fs + p • g := by
      ext k
      have h1 := h k
      rw [coef_eq_fs, coef_eq_fs] at h1
      simp only [g, Finsupp.add_apply, Finsupp.smul_apply, Finsupp.mapRange_apply,
        Finsupp.sub_apply, smul_eq_mul]
      rw [Int.mul_ediv_cancel' h1]; ring
    refine ⟨Finsupp.linearCombination ℤ Key.val g, ?_⟩
    rw [val_eq_lin, val_eq_lin, lin_eq_fs, lin_eq_fs, hg, map_add, map_smul, hcast]
    abel

end Poly

end EC
