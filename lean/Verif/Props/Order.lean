import Verif.Spec.Order
import Verif.Lemmas.Irange
import Verif.Lemmas.Res
import Verif.Model.Map
import Mathlib.Algebra.BigOperators.Intervals
import Mathlib.Tactic.NormNum.Prime

/-! Properties C07 and C08: orders and the variable converter. -/

namespace EC

/-! ### C07 -/

/-- C07: the order of variables is the order of their ranks, and `==` is equality of ranks. -/
theorem C07_variable_order (a b : SubVar) :
    SubVar.cmp a b = compare a.rank b.rank ∧ (SubVar.eq a b = true ↔ a.rank = b.rank) := by
  rcases a with ⟨ai, aj, ae⟩; rcases b with ⟨bi, bj, be⟩
  cases ae <;> cases be
  · refine ⟨?_, ?_⟩
    · simp only [SubVar.cmp, SubVar.rank, Bool.false_and, Bool.not_false, Bool.and_self, Bool.false_eq_true,
        if_false, Bool.and_false]
      symm
      split_ifs with h1 h2 h3 h4
      · rw [compare_lt_iff_lt, WithBot.coe_lt_coe, Prod.Lex.toLex_lt_toLex]; left; exact h1
      · rw [compare_gt_iff_gt, WithBot.coe_lt_coe, Prod.Lex.toLex_lt_toLex]; left; exact h2
      · rw [compare_lt_iff_lt, WithBot.coe_lt_coe, Prod.Lex.toLex_lt_toLex]; right; simp only; omega
      · rw [compare_gt_iff_gt, WithBot.coe_lt_coe, Prod.Lex.toLex_lt_toLex]; right; simp only; omega
      · rw [compare_eq_iff_eq]
        have e1 : ai = bi := by omega
        have e2 : aj = bj := by omega
        rw [e1, e2]
    · simp [SubVar.eq, SubVar.rank]
  · simp [SubVar.cmp, SubVar.eq, SubVar.rank]
    exact (compare_gt_iff_gt.2 (WithBot.bot_lt_coe _)).symm
  · simp [SubVar.cmp, SubVar.eq, SubVar.rank]
    exact (compare_lt_iff_lt.2 (WithBot.bot_lt_coe _)).symm
  · simp [SubVar.cmp, SubVar.eq, SubVar.rank]

/-- C07: the order of monomials is the lexicographic order of their ranks, and `==` is equality of ranks. -/
theorem C07_monomial_order (a b : Monomial) :
    Monomial.cmp a b = compare a.rank b.rank ∧ (Monomial.eq a b = true ↔ a.rank = b.rank) := by
  obtain ⟨hv, he⟩ := C07_variable_order a.var b.var
  refine ⟨?_, ?_⟩
  · have hlt : SubVar.cmp a.var b.var = .lt ↔ a.var.rank < b.var.rank := by rw [hv, compare_lt_iff_lt]
    have hgt : SubVar.cmp a.var b.var = .gt ↔ b.var.rank < a.var.rank := by rw [hv, compare_gt_iff_gt]
    simp only [Monomial.cmp, Monomial.rank, hlt, hgt]
    symm
    split_ifs with h1 h2 h3 h4 h5 h6 h7 h8
    all_goals first
      | rw [compare_lt_iff_lt]
      | rw [compare_gt_iff_gt]
      | rw [compare_eq_iff_eq]
    all_goals try simp only [Prod.Lex.toLex_lt_toLex]
    · exact Or.inl h1
    · exact Or.inl h2
    · exact Or.inr ⟨by omega, Or.inl h3⟩
    · exact Or.inr ⟨by omega, Or.inl h4⟩
    · exact Or.inr ⟨by omega, Or.inr ⟨by omega, Or.inl h5⟩⟩
    · exact Or.inr ⟨by omega, Or.inr ⟨by omega, Or.inl h6⟩⟩
    · exact Or.inr ⟨by omega, Or.inr ⟨by omega, Or.inr ⟨by omega, h7⟩⟩⟩
    · exact Or.inr ⟨by omega, Or.inr ⟨by omega, Or.inr ⟨by omega, h8⟩⟩⟩
    · have e1 : a.xpow = b.xpow := by omega
      have e2 : a.ypow = b.ypow := by omega
      have e3 : a.qpow = b.qpow := by omega
      have e4 : a.var.rank = b.var.rank := le_antisymm (not_lt.1 h8) (not_lt.1 h7)
      rw [e1, e2, e3, e4]
  · simp only [Monomial.eq, Monomial.rank, Bool.and_eq_true, beq_iff_eq, he, EmbeddingLike.apply_eq_iff_eq,
      Prod.mk.injEq]
    tauto

/-- C07: the order laws, for all monomials: reversal, transitivity of `<`, compatibility with equality, and
consistency of `cmp` with `==`. -/
theorem C07_monomial_laws :
    (∀ a b, Monomial.cmp a b = .eq ↔ Monomial.eq a b = true) ∧
    (∀ a b, Monomial.cmp b a = (Monomial.cmp a b).swap) ∧
    (∀ a b c, Monomial.cmp a b = .lt → Monomial.cmp b c = .lt → Monomial.cmp a c = .lt) ∧
    (∀ a b c, Monomial.eq a b = true → Monomial.cmp a c = Monomial.cmp b c) := by
  refine ⟨fun a b => ?_, fun a b => (Monomial.cmp_swap a b).symm, fun a b c => Monomial.cmp_lt_trans, ?_⟩
  · rw [(C07_monomial_order a b).1, (C07_monomial_order a b).2, compare_eq_iff_eq]
  · intro a b c h
    rw [(C07_monomial_order a c).1, (C07_monomial_order b c).1, (C07_monomial_order a b).2.1 h]

/-- C07: the same laws for subscripted variables. -/
theorem C07_variable_laws :
    (∀ a b, SubVar.cmp a b = .eq ↔ SubVar.eq a b = true) ∧
    (∀ a b, SubVar.cmp b a = (SubVar.cmp a b).swap) ∧
    (∀ a b c, SubVar.cmp a b = .lt → SubVar.cmp b c = .lt → SubVar.cmp a c = .lt) := by
  refine ⟨fun a b => ?_, fun a b => (SubVar.cmp_swap a b).symm, fun a b c => SubVar.cmp_lt_trans⟩
  rw [(C07_variable_order a b).1, (C07_variable_order a b).2, compare_eq_iff_eq]

/-- C07: terms are ordered by their monomials alone; so for terms `cmp` may say equal although `==` says no. -/
theorem C07_term_order (a b : Term) :
    Term.cmp a b = compare a.monomial.rank b.monomial.rank ∧
    (Term.eq a b = true ↔ a.coef = b.coef ∧ a.monomial.rank = b.monomial.rank) := by
  refine ⟨(C07_monomial_order _ _).1, ?_⟩
  rw [← (C07_monomial_order _ _).2]; simp [Term.eq]

example : Monomial.cmp ⟨1, 5, 0, SubVar.new⟩ ⟨2, 0, 0, SubVar.new⟩ = .lt ∧
    Monomial.cmp ⟨1, 5, -2, ⟨0, 1, false⟩⟩ ⟨1, 5, -2, SubVar.new⟩ = .gt := by decide

/-! ### C08 -/

namespace Converter

theorem mem_visits (c : Converter) (i j : Int) :
    (i, j) ∈ c.visits ↔ 0 ≤ i ∧ i ≤ j ∧ j ≤ c.p := by
  simp only [visits, List.mem_append, List.mem_flatMap, List.mem_map, mem_irange, Prod.mk.injEq]
  constructor
  · rintro (⟨a, ha, b, hb, rfl, rfl⟩ | ⟨a, ha, rfl, rfl⟩) <;> omega
  · rintro ⟨h1, h2, h3⟩
    rcases eq_or_lt_of_le h2 with rfl | h
    · exact Or.inr ⟨i, by omega, rfl, rfl⟩
    · exact Or.inl ⟨i, by omega, j, by omega, rfl, rfl⟩

theorem nodup_visits (c : Converter) : c.visits.Nodup := by
  unfold visits
  rw [List.nodup_append]
  refine ⟨?_, ?_, ?_⟩
  · rw [List.nodup_flatMap]
    refine ⟨fun i _ => (nodup_irange _ _).map (fun a b h => (Prod.mk.inj h).2), ?_⟩
    refine (nodup_irange 0 (c.p + 1)).imp ?_
    intro a b hab
    simp only [Function.onFun, List.disjoint_left, List.mem_map, not_exists, not_and]
    rintro x ⟨j, -, rfl⟩ k - h
    exact hab (Prod.mk.inj h).1.symm
  · exact (nodup_irange _ _).map (fun a b h => (Prod.mk.inj h).1)
  · simp only [List.mem_flatMap, List.mem_map, mem_irange]
    rintro x ⟨i, hi, j, hj, rfl⟩ y ⟨k, hk, rfl⟩ h
    have := Prod.mk.inj h
    omega

theorem length_visits (P : Nat) : ({ p := P } : Converter).visits.length = (P + 1) * (P + 2) / 2 := by
  simp only [visits, List.length_append, List.length_flatMap, List.length_map, length_irange]
  have h0 : ((P : Int) + 1 - 0).toNat = P + 1 := by omega
  rw [h0]
  have h1 : ((irange 0 ((P : Int) + 1)).map (fun a => ((P : Int) + 1 - (a + 1)).toNat)).sum
      = ∑ i ∈ Finset.range (P + 1), (P - i) := by
    simp only [irange, List.map_map, h0]
    change _ = ((List.range (P + 1)).map _).sum
    congr 1
    refine List.map_congr_left fun i _ => ?_
    simp only [Function.comp]; omega
  rw [h1]
  have h2 := Finset.sum_range_reflect (fun i => i) (P + 1)
  have h3 : ∑ i ∈ Finset.range (P + 1), (P - i) = ∑ i ∈ Finset.range (P + 1), i := by
    rw [← h2]
    refine Finset.sum_congr rfl fun i _ => ?_
    omega
  rw [h3]
  have h4 := Finset.sum_range_id_mul_two (P + 1)
  have h5 : (P + 1) * (P + 2) = (P + 1) * (P + 1 - 1) + (P + 1) * 2 := by
    rw [← mul_add]; congr 1
  omega

theorem findIndex_eq {i j : Int} {l : List (Int × Int)} (hl : l.Nodup) {k : Nat} (hk : k < l.length)
    (h : l[k] = (i, j)) (s : Nat) : findIndex i j l s = some (s + k) := by
  induction l generalizing k s with
  | nil => simp at hk
  | cons a t ih =>
    obtain ⟨x, y⟩ := a
    rw [List.nodup_cons] at hl
    cases k with
    | zero => simp at h; simp [findIndex, h]
    | succ k =>
      simp only [List.getElem_cons_succ] at h
      have hne : ¬ (i = x ∧ j = y) := by
        rintro ⟨rfl, rfl⟩
        exact hl.1 (h ▸ List.getElem_mem _)
      simp only [findIndex, hne, if_false]
      rw [ih hl.2 (by simpa using hk) h]; congr 1; omega

theorem findIndex_none {i j : Int} {l : List (Int × Int)} (h : (i, j) ∉ l) (s : Nat) :
    findIndex i j l s = none := by
  induction l generalizing s with
  | nil => rfl
  | cons a t ih =>
    obtain ⟨x, y⟩ := a
    simp only [List.mem_cons, Prod.mk.injEq, not_or] at h
    simp only [findIndex, h.1, if_false]
    exact ih h.2 _

theorem findVariable_eq {l : List (Int × Int)} {k : Nat} (hk : k < l.length) (s : Int) (hs : 0 ≤ s)
    (hb : s + k ≤ 2147483647) :
    findVariable (s + k) l s = .ok { i := l[k].1, j := l[k].2, empty := false } := by
  induction l generalizing k s with
  | nil => simp at hk
  | cons a t ih =>
    cases k with
    | zero => simp [findVariable]
    | succ k =>
      have hne : s ≠ s + (k + 1 : Nat) := by omega
      simp only [findVariable, hne, if_false]
      rw [chk_of ⟨by omega, by omega⟩]
      have := ih (k := k) (by simpa using hk) (s + 1) (by omega) (by push_cast at hb ⊢; omega)
      have e : s + 1 + (k : Int) = s + (k + 1 : Nat) := by push_cast; ring
      rw [e] at this
      simpa using this

theorem findVariable_panic {l : List (Int × Int)} {t s : Int} (hs : t < s ∨ s + l.length ≤ t) :
    ∃ w, findVariable t l s = .panic w := by
  induction l generalizing s with
  | nil => exact ⟨_, rfl⟩
  | cons a l ih =>
    have hne : s ≠ t := by simp at hs; omega
    simp only [findVariable, hne, if_false]
    unfold chk
    split_ifs
    · exact ih (by simp at hs; omega)
    · exact ⟨_, rfl⟩

end Converter

/-- C08: `new(p)` returns exactly for primes. -/
theorem C08_new (p : Int) :
    (Nat.Prime p.toNat → Converter.new p = .ok { p := p }) ∧
    (¬ Nat.Prime p.toNat → ∃ w, Converter.new p = .panic w) := by
  constructor
  · intro h
    have := h.two_le
    simp [Converter.new, isPrime, h, (by omega : p ≥ 2)]
  · intro h
    by_cases h2 : p ≥ 2
    · exact ⟨.explicit, by simp [Converter.new, isPrime, h, h2]⟩
    · exact ⟨.assertion, by simp [Converter.new, h2]⟩

/-- C08: `count()` is `(p+1)(p+2)/2`. -/
theorem C08_count (P : Nat) (hb : P < 2147483647) :
    Converter.count { p := P } = .ok ((P + 1) * (P + 2) / 2) := by
  unfold Converter.count
  rw [chk_of (show InI32 ((P : Int) + 1) from ⟨by omega, by omega⟩), Res.ok_bind, ← Converter.length_visits]
  have : ∀ (l : List (Int × Int)) (s : Nat), l.foldl (fun index _ => index + 1) s = s + l.length := by
    intro l; induction l with
    | nil => simp
    | cons a t ih => intro s; simp only [List.foldl_cons, ih, List.length_cons]; omega
  rw [this, zero_add]

/-- C08: for all `P` whose count fits in 31 bits (`P ≤ 65534`), every index below the count gives a variable `c_i_j`
with `0 ≤ i ≤ j ≤ P`, and `index_from_variable` maps it back to the index. -/
theorem C08_index_roundtrip (P k : Nat) (hb : (P + 1) * (P + 2) / 2 ≤ 2147483648)
    (hk : k < (P + 1) * (P + 2) / 2) :
    ∃ i j : Int, 0 ≤ i ∧ i ≤ j ∧ j ≤ P ∧
      Converter.variableFromIndex { p := P } k = .ok { i := i, j := j, empty := false } ∧
      Converter.indexFromVariable { p := P } { i := i, j := j, empty := false } = .ok (some k) := by
  have hP : (P : Int) + 1 ≤ 2147483647 := by
    by_contra hc
    have h1 : 2147483647 ≤ P := by omega
    have h2 : 2147483648 * 2147483649 ≤ (P + 1) * (P + 2) := Nat.mul_le_mul (by omega) (by omega)
    omega
  have hlen := Converter.length_visits P
  have hk' : k < ({ p := P } : Converter).visits.length := by omega
  have hmem := List.getElem_mem hk'
  rcases hv : ({ p := P } : Converter).visits[k] with ⟨i, j⟩
  rw [hv, Converter.mem_visits] at hmem
  refine ⟨i, j, hmem.1, hmem.2.1, hmem.2.2, ?_, ?_⟩
  · unfold Converter.variableFromIndex
    rw [chk_of (show InI32 ((P : Int) + 1) from ⟨by omega, by omega⟩), Res.ok_bind]
    have ha : Converter.asI32 k = 0 + (k : Int) := by
      unfold Converter.asI32; rw [Nat.mod_eq_of_lt (by omega)]; simp only; rw [if_neg (by omega)]; omega
    rw [ha, Converter.findVariable_eq hk' 0 (by omega) (by omega), hv]
  · unfold Converter.indexFromVariable
    simp only [Bool.false_eq_true, if_false]
    rw [chk_of (show InI32 ((P : Int) + 1) from ⟨by omega, by omega⟩), Res.ok_bind,
      Converter.findIndex_eq (Converter.nodup_visits _) hk' hv 0]
    simp

/-- C08, exactly what `variable_from_index` does for every `P` and every index `k`: it truncates `k` to its lowest 32
bits; if these are below both the count and `2^31` the result is the variable whose index they are, and otherwise it
panics. -/
theorem C08_variable_from_index_exact (P k : Nat) (hP : P < 2147483647) :
    (k % 4294967296 < 2147483648 ∧ k % 4294967296 < (P + 1) * (P + 2) / 2 → ∃ i j : Int, 0 ≤ i ∧ i ≤ j ∧ j ≤ P ∧
      Converter.variableFromIndex { p := P } k = .ok { i := i, j := j, empty := false } ∧
      Converter.indexFromVariable { p := P } { i := i, j := j, empty := false } = .ok (some (k % 4294967296))) ∧
    (¬ (k % 4294967296 < 2147483648 ∧ k % 4294967296 < (P + 1) * (P + 2) / 2) →
      ∃ w, Converter.variableFromIndex { p := P } k = .panic w) := by
  have hlen := Converter.length_visits P
  have hc : chk ((P : Int) + 1) = .ok ((P : Int) + 1) := chk_of ⟨by omega, by omega⟩
  constructor
  · rintro ⟨h1, h2⟩
    have hk' : k % 4294967296 < ({ p := P } : Converter).visits.length := by omega
    have hmem := List.getElem_mem hk'
    rcases hv : ({ p := P } : Converter).visits[k % 4294967296] with ⟨i, j⟩
    rw [hv, Converter.mem_visits] at hmem
    refine ⟨i, j, hmem.1, hmem.2.1, hmem.2.2, ?_, ?_⟩
    · unfold Converter.variableFromIndex
      rw [hc, Res.ok_bind]
      have ha : Converter.asI32 k = 0 + ((k % 4294967296 : Nat) : Int) := by
        unfold Converter.asI32; simp only; rw [if_neg (by omega)]; omega
      rw [ha, Converter.findVariable_eq hk' 0 (by omega) (by omega), hv]
    · unfold Converter.indexFromVariable
      simp only [Bool.false_eq_true, if_false]
      rw [hc, Res.ok_bind, Converter.findIndex_eq (Converter.nodup_visits _) hk' hv 0]
      simp
  · intro hn
    unfold Converter.variableFromIndex
    rw [hc, Res.ok_bind]
    apply Converter.findVariable_panic
    rw [Converter.length_visits]
    simp only [Converter.asI32]
    split_ifs <;> omega

/-- C08: for every `P`, `index_from_variable` accepts exactly the variables `c_i_j` with `0 ≤ i ≤ j ≤ P`, gives an
index below the count, different variables get different indices, and any other non-empty variable makes it panic. -/
theorem C08_index_from_variable (P : Nat) (hb : P < 2147483647) :
    (∀ i j : Int, 0 ≤ i → i ≤ j → j ≤ P → ∃ k, k < (P + 1) * (P + 2) / 2 ∧
      Converter.indexFromVariable { p := P } ⟨i, j, false⟩ = .ok (some k)) ∧
    (∀ i j i' j' : Int, ∀ k, Converter.indexFromVariable { p := P } ⟨i, j, false⟩ = .ok (some k) →
      Converter.indexFromVariable { p := P } ⟨i', j', false⟩ = .ok (some k) → i = i' ∧ j = j') ∧
    (∀ i j : Int, ¬ (0 ≤ i ∧ i ≤ j ∧ j ≤ P) →
      Converter.indexFromVariable { p := P } ⟨i, j, false⟩ = .panic .explicit) ∧
    (∀ i j, Converter.indexFromVariable { p := P } ⟨i, j, true⟩ = .ok none) := by
  have hc : chk ((P : Int) + 1) = .ok ((P : Int) + 1) := chk_of ⟨by omega, by omega⟩
  have hpos : ∀ i j : Int, (i, j) ∈ ({ p := P } : Converter).visits →
      ∃ k, ∃ hk : k < ({ p := P } : Converter).visits.length, ({ p := P } : Converter).visits[k] = (i, j) ∧
        Converter.indexFromVariable { p := P } ⟨i, j, false⟩ = .ok (some k) := by
    intro i j hm
    obtain ⟨k, hk, hv⟩ := List.getElem_of_mem hm
    refine ⟨k, hk, hv, ?_⟩
    unfold Converter.indexFromVariable
    simp only [Bool.false_eq_true, if_false]
    rw [hc, Res.ok_bind, Converter.findIndex_eq (Converter.nodup_visits _) hk hv 0]
    simp
  have hneg : ∀ i j : Int, (i, j) ∉ ({ p := P } : Converter).visits →
      Converter.indexFromVariable { p := P } ⟨i, j, false⟩ = .panic .explicit := by
    intro i j hm
    unfold Converter.indexFromVariable
    simp only [Bool.false_eq_true, if_false]
    rw [hc, Res.ok_bind, Converter.findIndex_none hm 0]
  refine ⟨?_, ?_, ?_, ?_⟩
  · intro i j h1 h2 h3
    obtain ⟨k, hk, -, h⟩ := hpos i j ((Converter.mem_visits _ i j).2 ⟨h1, h2, h3⟩)
    exact ⟨k, by rwa [Converter.length_visits] at hk, h⟩
  · intro i j i' j' k h h'
    have m : (i, j) ∈ ({ p := P } : Converter).visits := by
      by_contra hm; rw [hneg i j hm] at h; cases h
    have m' : (i', j') ∈ ({ p := P } : Converter).visits := by
      by_contra hm; rw [hneg i' j' hm] at h'; cases h'
    obtain ⟨k1, hk1, e1, f1⟩ := hpos i j m
    obtain ⟨k2, hk2, e2, f2⟩ := hpos i' j' m'
    have a1 : k1 = k := by simpa [h] using f1.symm
    have a2 : k2 = k := by simpa [h'] using f2.symm
    subst a1; subst a2
    exact Prod.mk.inj (e1.symm.trans e2)
  · intro i j h
    exact hneg i j (fun hm => h ((Converter.mem_visits _ i j).1 hm))
  · intro i j; rfl

/-- C08: an index between the count and `2^32` makes `variable_from_index` panic. -/
theorem C08_index_out_of_range (P k : Nat) (hP : P < 2147483647)
    (hk : (P + 1) * (P + 2) / 2 ≤ k) (hb : k < 4294967296) :
    ∃ w, Converter.variableFromIndex { p := P } k = .panic w := by
  unfold Converter.variableFromIndex
  rw [chk_of (show InI32 ((P : Int) + 1) from ⟨by omega, by omega⟩), Res.ok_bind]
  apply Converter.findVariable_panic
  rw [Converter.length_visits]
  have h1 : ((k % 4294967296 : Nat) : Int) = k := by rw [Nat.mod_eq_of_lt hb]
  simp only [Converter.asI32, h1]
  split_ifs <;> omega

/-- C08, full claim refuted: index `2^32` is far out of range for `p = 3`, yet a variable is returned (the index is
truncated to 32 bits). -/
theorem C08_index_out_of_range_refuted :
    ¬ ∀ (P k : Nat), Nat.Prime P → P < 2147483647 → (P + 1) * (P + 2) / 2 ≤ k →
      ∃ w, Converter.variableFromIndex { p := P } k = .panic w := by
  intro h
  obtain ⟨w, hw⟩ := h 3 4294967296 (by norm_num) (by norm_num) (by norm_num)
  have : Converter.variableFromIndex { p := (3 : Nat) } 4294967296 = .ok ⟨0, 1, false⟩ := by decide +kernel
  rw [this] at hw; cases hw

/-- C08, full round trip refuted for large primes: for the prime `65537` index `2^31` is below the count, but
`variable_from_index` panics. -/
theorem C08_index_roundtrip_refuted :
    ¬ ∀ (P k : Nat), Nat.Prime P → P < 2147483647 → k < (P + 1) * (P + 2) / 2 →
      ∃ v, Converter.variableFromIndex { p := P } k = .ok v := by
  intro h
  obtain ⟨v, hv⟩ := h 65537 2147483648 (by norm_num) (by norm_num) (by norm_num)
  obtain ⟨w, hw⟩ : ∃ w, Converter.variableFromIndex { p := (65537 : Nat) } 2147483648 = .panic w := by
    unfold Converter.variableFromIndex
    rw [chk_of ⟨by norm_num, by norm_num⟩, Res.ok_bind]
    apply Converter.findVariable_panic
    left
    have : Converter.asI32 2147483648 = -2147483648 := by decide +kernel
    rw [this]; norm_num
  rw [hv] at hw; cases hw

example : (Converter.variableFromIndex { p := 3 } 5 = .ok ⟨2, 3, false⟩) ∧
    Converter.indexFromVariable { p := 3 } ⟨2, 3, false⟩ = .ok (some 5) := by decide +kernel

end EC
