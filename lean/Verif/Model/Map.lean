import Verif.Model.Term
import Mathlib.Data.List.Sort

/-! Model of the `BTreeMap<Monomial, BigInt>` inside `Polynomial` (src/polynomial.rs:14-18).

A `BTreeMap` is modelled by the list of its entries in iteration order, which the map's
contract makes strictly increasing for `Monomial`'s `Ord`.  The operations search with
`Monomial::cmp`, exactly as the map does.  `BTreeMap` itself (std) is in the trusted base. -/

namespace EC

/-- Meaning of a monomial key: exponents and the optional subscripted variable
(`none` when the variable is `empty`; then `i` and `j` are irrelevant). -/
structure Key where
  x : Int
  y : Int
  q : Int
  v : Option (Int × Int)
  deriving DecidableEq, Repr

namespace SubVar

/-- The variable proper, `none` if `empty`. -/
def key (v : SubVar) : Option (Int × Int) := if v.empty then none else some (v.i, v.j)

theorem cmp_eq_iff (a b : SubVar) : cmp a b = .eq ↔ a.key = b.key := by
  rcases a with ⟨ai, aj, ae⟩; rcases b with ⟨bi, bj, be⟩
  cases ae <;> cases be <;> simp [cmp, key]
  repeat' (first | omega | split)
  all_goals simp
  all_goals omega

theorem cmp_swap (a b : SubVar) : (cmp a b).swap = cmp b a := by
  rcases a with ⟨ai, aj, ae⟩; rcases b with ⟨bi, bj, be⟩
  cases ae <;> cases be <;> simp [cmp]
  repeat' (first | omega | rfl | split)

theorem cmp_lt_trans {a b c : SubVar} (h1 : cmp a b = .lt) (h2 : cmp b c = .lt) :
    cmp a c = .lt := by
  rcases a with ⟨ai, aj, ae⟩; rcases b with ⟨bi, bj, be⟩; rcases c with ⟨ci, cj, ce⟩
  revert h1 h2
  cases ae <;> cases be <;> cases ce <;> simp [cmp]
  repeat' (first | omega | split)
  all_goals simp
  all_goals omega

theorem cmp_congr_left {a b : SubVar} (h : a.key = b.key) (c : SubVar) : cmp a c = cmp b c := by
  rcases a with ⟨ai, aj, ae⟩; rcases b with ⟨bi, bj, be⟩; rcases c with ⟨ci, cj, ce⟩
  revert h
  cases ae <;> cases be <;> cases ce <;> simp [cmp, key]
  rintro rfl rfl; rfl

end SubVar

namespace Monomial

/-- The meaning of a monomial. -/
def key (m : Monomial) : Key := { x := m.xpow, y := m.ypow, q := m.qpow, v := m.var.key }

theorem cmp_eq_iff (a b : Monomial) : cmp a b = .eq ↔ a.key = b.key := by
  have hv := SubVar.cmp_eq_iff a.var b.var
  simp only [cmp, key, Key.mk.injEq]
  cases h : SubVar.cmp a.var b.var <;> simp only [h] at hv
  all_goals simp only [reduceCtorEq, false_iff, true_iff] at hv
  all_goals (repeat' split)
  all_goals simp_all
  all_goals omega

theorem cmp_swap (a b : Monomial) : (cmp a b).swap = cmp b a := by
  have hv := SubVar.cmp_swap a.var b.var
  simp only [cmp, ← hv]
  cases h : SubVar.cmp a.var b.var
  all_goals grind [Ordering.swap]

theorem cmp_lt_iff (a b : Monomial) : cmp a b = .lt ↔
    (a.xpow < b.xpow ∨ (a.xpow = b.xpow ∧ (a.ypow < b.ypow ∨ (a.ypow = b.ypow ∧
      (a.qpow < b.qpow ∨ (a.qpow = b.qpow ∧ SubVar.cmp a.var b.var = .lt)))))) := by
  unfold cmp; grind

theorem cmp_lt_trans {a b c : Monomial} (h1 : cmp a b = .lt) (h2 : cmp b c = .lt) :
    cmp a c = .lt := by
  rw [cmp_lt_iff] at *
  have := @SubVar.cmp_lt_trans a.var b.var c.var
  grind

theorem cmp_congr_left {a b : Monomial} (h : a.key = b.key) (c : Monomial) :
    cmp a c = cmp b c := by
  simp only [key, Key.mk.injEq] at h
  obtain ⟨h1, h2, h3, h4⟩ := h
  simp only [cmp, h1, h2, h3, SubVar.cmp_congr_left h4 c.var]

theorem cmp_congr_right {a b : Monomial} (h : a.key = b.key) (c : Monomial) :
    cmp c a = cmp c b := by
  rw [← cmp_swap a c, ← cmp_swap b c, cmp_congr_left h c]

end Monomial

/-- Entries in strictly increasing key order. -/
def SortedEntries (l : List (Monomial × Int)) : Prop :=
  l.Pairwise (fun a b => Monomial.cmp a.1 b.1 = .lt)

instance (l : List (Monomial × Int)) : Decidable (SortedEntries l) := by
  unfold SortedEntries; infer_instance

/-- `BTreeMap::get` on the entry list. -/
def getL (m : Monomial) : List (Monomial × Int) → Option Int
  | [] => none
  | (k, v) :: t => match Monomial.cmp m k with
    | .lt => none
    | .eq => some v
    | .gt => getL m t

/-- `BTreeMap::insert` on the entry list.  If an equal key is present its value is replaced and
the stored key is kept (as `BTreeMap` does). -/
def insertL (m : Monomial) (c : Int) : List (Monomial × Int) → List (Monomial × Int)
  | [] => [(m, c)]
  | (k, v) :: t => match Monomial.cmp m k with
    | .lt => (m, c) :: (k, v) :: t
    | .eq => (k, c) :: t
    | .gt => (k, v) :: insertL m c t

/-- `BTreeMap::remove` on the entry list. -/
def removeL (m : Monomial) : List (Monomial × Int) → List (Monomial × Int)
  | [] => []
  | (k, v) :: t => match Monomial.cmp m k with
    | .lt => (k, v) :: t
    | .eq => t
    | .gt => (k, v) :: removeL m t

/-- What `BTreeMap::split_off(m)` leaves in the map: the entries with key `< m`. -/
def splitOffL (m : Monomial) (l : List (Monomial × Int)) : List (Monomial × Int) :=
  l.filter (fun e => Monomial.cmp e.1 m = .lt)

theorem mem_insertL {m : Monomial} {c : Int} {l : List (Monomial × Int)} {e : Monomial × Int}
    (h : e ∈ insertL m c l) : e.1.key = m.key ∨ e ∈ l := by
  induction l with
  | nil => simp [insertL] at h; simp [h]
  | cons a t ih =>
    obtain ⟨k, v⟩ := a
    simp only [insertL] at h
    split at h
    · simp only [List.mem_cons] at h
      rcases h with h | h | h
      · simp [h]
      · simp [h]
      · simp [h]
    · rename_i hc
      simp only [List.mem_cons] at h
      rcases h with h | h
      · left; rw [h]; exact ((Monomial.cmp_eq_iff _ _).1 hc).symm
      · simp [h]
    · simp only [List.mem_cons] at h
      rcases h with h | h
      · simp [h]
      · rcases ih h with h | h <;> simp [h]

theorem sorted_insertL {l : List (Monomial × Int)} (hl : SortedEntries l) (m : Monomial) (c : Int) :
    SortedEntries (insertL m c l) := by
  induction l with
  | nil => simp [insertL, SortedEntries]
  | cons a t ih =>
    obtain ⟨k, v⟩ := a
    simp only [SortedEntries, List.pairwise_cons] at hl
    obtain ⟨h1, h2⟩ := hl
    simp only [insertL]
    split
    · rename_i hc
      refine List.pairwise_cons.2 ⟨?_, List.pairwise_cons.2 ⟨h1, h2⟩⟩
      intro e he
      simp only [List.mem_cons] at he
      rcases he with rfl | he
      · exact hc
      · exact Monomial.cmp_lt_trans hc (h1 e he)
    · exact List.pairwise_cons.2 ⟨h1, h2⟩
    · rename_i hc
      refine List.pairwise_cons.2 ⟨?_, ih h2⟩
      intro e he
      have hc' : Monomial.cmp k m = .lt := by rw [← Monomial.cmp_swap, hc]; rfl
      rcases mem_insertL he with h | h
      · simp only; rw [Monomial.cmp_congr_right h]; exact hc'
      · exact h1 e h

theorem removeL_sublist (m : Monomial) (l : List (Monomial × Int)) : (removeL m l).Sublist l := by
  induction l with
  | nil => simp [removeL]
  | cons a t ih =>
    obtain ⟨k, v⟩ := a
    simp only [removeL]
    split
    · exact List.Sublist.refl _
    · exact List.sublist_cons_self _ _
    · exact ih.cons_cons _

theorem sorted_removeL {l : List (Monomial × Int)} (hl : SortedEntries l) (m : Monomial) :
    SortedEntries (removeL m l) := hl.sublist (removeL_sublist m l)

theorem sorted_splitOffL {l : List (Monomial × Int)} (hl : SortedEntries l) (m : Monomial) :
    SortedEntries (splitOffL m l) := hl.sublist List.filter_sublist

/-- `Polynomial { terms: BTreeMap<Monomial, BigInt> }`; src/polynomial.rs:14-18. -/
structure Poly where
  /-- the entries in iteration order -/
  entries : List (Monomial × Int)
  /-- iteration order of a `BTreeMap` is strictly increasing -/
  sorted : SortedEntries entries
  deriving DecidableEq

namespace Poly

/-- `Polynomial::new()` and `Zero::zero()`; src/polynomial.rs:260-262, :308-312. -/
def new : Poly := ⟨[], List.Pairwise.nil⟩

/-- `terms.get(m)` / `terms.get_mut(m)`. -/
def get? (P : Poly) (m : Monomial) : Option Int := getL m P.entries

/-- `terms.insert(m, c)`, also the effect of `*v = c` through `get_mut`/`iter_mut`. -/
def insert (P : Poly) (m : Monomial) (c : Int) : Poly :=
  ⟨insertL m c P.entries, sorted_insertL P.sorted m c⟩

/-- `terms.remove(m)`. -/
def remove (P : Poly) (m : Monomial) : Poly := ⟨removeL m P.entries, sorted_removeL P.sorted m⟩

/-- `terms.split_off(m)`, the part that stays. -/
def splitOff (P : Poly) (m : Monomial) : Poly :=
  ⟨splitOffL m P.entries, sorted_splitOffL P.sorted m⟩

/-- `terms.len()`. -/
def len (P : Poly) : Nat := P.entries.length

end Poly

end EC
