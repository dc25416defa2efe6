import Verif.Model.Operators
import Verif.Props.Order
import Verif.Props.PolyRing

/-! C07, the operators: `partial_cmp` and what `<`, `>`, `<=`, `>=` say about variables, monomials and terms; the
default values. -/

namespace EC

/-- C07: every two variables, monomials or terms can be compared, and the four operators on variables and monomials
are those of the linear order of ranks. -/
theorem C07_operators :
    (∀ a b : SubVar,
      SubVar.partialCmp a b ≠ none ∧
      (pcLt (SubVar.partialCmp a b) = true ↔ a.rank < b.rank) ∧
      (pcGt (SubVar.partialCmp a b) = true ↔ b.rank < a.rank) ∧
      (pcLe (SubVar.partialCmp a b) = true ↔ a.rank ≤ b.rank) ∧
      (pcGe (SubVar.partialCmp a b) = true ↔ b.rank ≤ a.rank)) ∧
    (∀ a b : Monomial,
      Monomial.partialCmp a b ≠ none ∧
      (pcLt (Monomial.partialCmp a b) = true ↔ a.rank < b.rank) ∧
      (pcGt (Monomial.partialCmp a b) = true ↔ b.rank < a.rank) ∧
      (pcLe (Monomial.partialCmp a b) = true ↔ a.rank ≤ b.rank) ∧
      (pcGe (Monomial.partialCmp a b) = true ↔ b.rank ≤ a.rank)) ∧
    (∀ a b : Term,
      Term.partialCmp a b ≠ none ∧
      (pcLt (Term.partialCmp a b) = true ↔ a.monomial.rank < b.monomial.rank) ∧
      (pcGt (Term.partialCmp a b) = true ↔ b.monomial.rank < a.monomial.rank) ∧
      (pcLe (Term.partialCmp a b) = true ↔ a.monomial.rank ≤ b.monomial.rank) ∧
      (pcGe (Term.partialCmp a b) = true ↔ b.monomial.rank ≤ a.monomial.rank)) := by
  refine ⟨fun a b => ?_, fun a b => ?_, fun a b => ?_⟩
  · unfold SubVar.partialCmp
    rw [(C07_variable_order a b).1]
    exact ops_of_compare _ _
  · unfold Monomial.partialCmp
    rw [(C07_monomial_order a b).1]
    exact ops_of_compare _ _
  · unfold Term.partialCmp
    rw [(C07_term_order a b).1]
    exact ops_of_compare _ _
where
  ops_of_compare {α : Type} [LinearOrder α] (x y : α) :
      some (compare x y) ≠ none ∧
      (pcLt (some (compare x y)) = true ↔ x < y) ∧ (pcGt (some (compare x y)) = true ↔ y < x) ∧
      (pcLe (some (compare x y)) = true ↔ x ≤ y) ∧ (pcGe (some (compare x y)) = true ↔ y ≤ x) := by
    rcases lt_trichotomy x y with h | h | h
    · rw [compare_lt_iff_lt.2 h]
      simp [pcLt, pcGt, pcLe, pcGe, h, h.le, not_lt.2 h.le]
    · subst h
      rw [compare_eq_iff_eq.2 rfl]
      simp [pcLt, pcGt, pcLe, pcGe]
    · rw [compare_gt_iff_gt.2 h]
      simp [pcLt, pcGt, pcLe, pcGe, h, h.le, not_lt.2 h.le]

/-- C07: on variables and monomials `<=` is antisymmetric up to `==`. -/
theorem C07_operators_antisymm :
    (∀ a b : SubVar, pcLe (SubVar.partialCmp a b) = true → pcGe (SubVar.partialCmp a b) = true →
      SubVar.eq a b = true) ∧
    (∀ a b : Monomial, pcLe (Monomial.partialCmp a b) = true → pcGe (Monomial.partialCmp a b) = true →
      Monomial.eq a b = true) := by
  obtain ⟨hv, hm, -⟩ := C07_operators
  refine ⟨fun a b h1 h2 => ?_, fun a b h1 h2 => ?_⟩
  · exact (C07_variable_order a b).2.2 (le_antisymm ((hv a b).2.2.2.1.1 h1) ((hv a b).2.2.2.2.1 h2))
  · exact (C07_monomial_order a b).2.2 (le_antisymm ((hm a b).2.2.2.1.1 h1) ((hm a b).2.2.2.2.1 h2))

/-- C07: on terms it is not: `2x <= 3x` and `2x >= 3x`, but `2x != 3x`.  The `Ord` of `Term` is inconsistent with its
`Eq`, so a sorted set of terms would merge terms that differ. -/
theorem C07_term_antisymm_refuted :
    ¬ ∀ a b : Term, pcLe (Term.partialCmp a b) = true → pcGe (Term.partialCmp a b) = true → Term.eq a b = true := by
  intro h
  have := h ⟨2, ⟨1, 0, 0, SubVar.new⟩⟩ ⟨3, ⟨1, 0, 0, SubVar.new⟩⟩ (by decide) (by decide)
  revert this; decide

/-- C09: the default term is the zero term, although `TermBuilder::new().build()` is 1. -/
theorem C09_default :
    SubVar.default = SubVar.new ∧ Term.default.val = 0 ∧ Term.default.toPol.val = 0 ∧
    TermBuilder.new.build.val = 1 ∧ TermBuilder.new.build.toPol.val = 1 := by
  have h0 : Term.default.val = 0 := by unfold Term.val; exact zero_smul _ _
  have h1 : TermBuilder.new.build.toPol.val = 1 := C09_zero_one.2.2
  exact ⟨rfl, h0, (C09_to_pol _).trans h0, (C09_to_pol _).symm.trans h1, h1⟩

example : pcLt (Monomial.partialCmp ⟨1, 5, 0, SubVar.new⟩ ⟨2, 0, 0, SubVar.new⟩) = true ∧
    pcGe (SubVar.partialCmp ⟨0, 1, false⟩ SubVar.new) = true ∧
    pcLe (SubVar.partialCmp ⟨0, 1, false⟩ SubVar.new) = false := by decide

end EC
