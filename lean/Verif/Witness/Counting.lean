import Verif.Witness.Out
import Verif.Props.Sea
import Verif.Props.SeaTwo
import Verif.Props.SeaThree
import Verif.Props.SeaTrace
import Verif.Props.SchoofReturns
import Verif.Props.SchoofModThree
import Verif.Props.SchoofModFive
import Verif.Props.SchoofTiny
import Verif.Props.Pipeline
import Verif.Props.Singular

/-! Witnesses for C39, C55, C62, C64, C72-C74, C78, C79, C83, C86, C87, C92, C95: each theorem with hypotheses, applied
to concrete inputs. -/

namespace EC

open EllipticCurve

private theorem prime7 : Nat.Prime (7 : ℤ).toNat := show Nat.Prime 7 by norm_num
private instance fact7 : Fact (Nat.Prime (7 : ℤ).toNat) := ⟨prime7⟩
private instance fact5 : Fact (Nat.Prime (5 : ℤ).toNat) := ⟨show Nat.Prime 5 by norm_num⟩

/-! `schoof` on `y^2 = x^3 + x` over GF(7), which has trace 0. -/

private theorem run7 : ∃ N r, schoof N 1 0 7 = .ok r ∧ (∃ e ∈ r, e.l = 3) ∧ ∃ e ∈ r, e.l = 5 := by
  obtain ⟨r, N, h⟩ := returns_7
  have h' := h N le_rfl
  refine ⟨N, r, h', ?_⟩
  have := (C54_shape 1 0 7 N r h').1
  norm_num at this
  have h3 : (3 : ℤ) ∈ r.map (·.l) := by rw [this]; simp
  have h5 : (5 : ℤ) ∈ r.map (·.l) := by rw [this]; simp
  obtain ⟨e, he, h4⟩ := List.mem_map.1 h3
  obtain ⟨e', he', h4'⟩ := List.mem_map.1 h5
  exact ⟨⟨e, he, h4⟩, e', he', h4'⟩

private noncomputable def N7 := run7.choose
private noncomputable def R7 := run7.choose_spec.choose
private theorem hR7 : schoof N7 1 0 7 = .ok R7 := run7.choose_spec.choose_spec.1
private noncomputable def e3 := run7.choose_spec.choose_spec.2.1.choose
private theorem he3 : e3 ∈ R7 := run7.choose_spec.choose_spec.2.1.choose_spec.1
private theorem l3 : e3.l = 3 := run7.choose_spec.choose_spec.2.1.choose_spec.2
private noncomputable def e5 := run7.choose_spec.choose_spec.2.2.choose
private theorem he5 : e5 ∈ R7 := run7.choose_spec.choose_spec.2.2.choose_spec.1
private theorem l5 : e5.l = 5 := run7.choose_spec.choose_spec.2.2.choose_spec.2

example := C62_large 1 0 50000 (by norm_num) 100 [⟨2, 1⟩]
example := C62_root 1 0 7 prime7 (by norm_num) _ returns_7.choose_spec
example := C62_tiny 1 0 1 (by norm_num) 5 (by norm_num)
example := C64_congruence 1 0 7 (by norm_num) N7 _ hR7 e5 he5 (by rw [l5]; norm_num)
example := C72_schoof_equation 1 0 7 (by norm_num) (by norm_num) _ rfl (ZMod (7 : ℤ).toNat) 0
example := C72_trace_up_to_sign 1 0 7 (by norm_num) (by norm_num) _ rfl N7 _ hR7 e5 he5 (by rw [l5]; norm_num)
example := C73_mod_three 1 0 7 (by norm_num) (by norm_num) N7 _ hR7 e3 he3 l3 _ rfl
example := C73_right 1 0 7 (by norm_num) (by norm_num) N7 _ hR7 e3 he3 l3 _ rfl
example := C79_mod_five 1 0 7 (by norm_num) N7 _ hR7 e5 he5 l5 _ rfl
example := C83_never_trace 1 0 7 prime7 (by norm_num) (by norm_num) N7 _ hR7 _ rfl

/-! `schoof` on `y^2 = x^3 + 1` over GF(5), which has 6 points. -/

private theorem card6 : Nat.card (shortW ((0 : ℤ) : ZMod (5 : ℤ).toNat) ((1 : ℤ) : ZMod (5 : ℤ).toNat)).toAffine.Point = 6 := by
  rw [← C45_cardinality 0 1 5 _ (new_eq (show Nat.Prime 5 by norm_num) (by norm_num)) (by norm_num) (by norm_num)]
  decide +kernel
private theorem run5 : ∃ N r, schoof N 0 1 5 = .ok r ∧ ∃ e ∈ r, e.l = 3 := by
  obtain ⟨r, N, h⟩ := C74_returns 0 1 5 (by norm_num) (by norm_num) (by norm_num)
    ⟨-1, by norm_num⟩ _ rfl
    (fun _ => .inl (by norm_num)) (fun h => absurd h (by norm_num))
  have h' := h N le_rfl
  refine ⟨N, r, h', ?_⟩
  have := (C54_shape 0 1 5 N r h').1
  norm_num at this
  have h3 : (3 : ℤ) ∈ r.map (·.l) := by rw [this]; simp
  obtain ⟨e, he, h4⟩ := List.mem_map.1 h3
  exact ⟨e, he, h4⟩
example := C64_order_divisible 0 1 5 (by norm_num) _ _ run5.choose_spec.choose_spec.1 _
  run5.choose_spec.choose_spec.2.choose_spec.1 (by rw [run5.choose_spec.choose_spec.2.choose_spec.2]) _ rfl
  (by rw [run5.choose_spec.choose_spec.2.choose_spec.2, card6]; norm_num)

/-! `sea`. -/

private noncomputable def phi2' := (C40_returns 2 Nat.prime_two (by norm_num)).choose
private theorem hphi2' : modularPolynomial (2 : ℕ) = .ok phi2' := (C40_returns 2 Nat.prime_two (by norm_num)).choose_spec
example := C39_value 2 _ hphi2'
example := C39_terms 2 _ hphi2'
example := C55_returns_iff sampleCurve prime7 (by decide) 2 _ 3 hphi2' (by decide +kernel)
example := C55_small_modulus (newRaw 1 1 1) (by decide) 3 100
example := C78_velu (K := ℚ) (a := -1) (b := 0) (e := 1) (by norm_num) (by norm_num) (by norm_num)
example := C92_velu (K := ℚ) (a := 0) (b := 1) (e := 0) (by norm_num) (by norm_num) (by norm_num [psi3At]) (by norm_num)

open Classical in
private theorem sorted_filter (P : ℕ → Prop) (n : ℕ) : ((List.range n).filter fun k => decide (P k)).Pairwise (· < ·) ∧
    ∀ k, k ∈ ((List.range n).filter fun k => decide (P k)) ↔ k < n ∧ P k := by
  refine ⟨List.Pairwise.filter _ List.pairwise_lt_range, fun k => ?_⟩
  simp
example := C78_sea_two sampleCurve sampleCurve_good (by decide) _ (sorted_filter _ _).1 (sorted_filter (fun n => IsTwoIsogenous sampleCurve n) _).2
example := C92_sea_three sampleCurve sampleCurve_good (by decide) (by decide) _ (sorted_filter _ _).1
  (sorted_filter (fun n => IsThreeIsogenous sampleCurve n) _).2

private def curve7 : EllipticCurve :=
  { newRaw 6 2 7 with points := (irange 0 7).flatMap (newRaw 6 2 7).ptsAt ++ [ECPoint.infinity] }
private theorem hnew : EllipticCurve.new 6 2 7 = .ok curve7 := new_eq prime7 (by norm_num)
private theorem card7 : curve7.cardinality = 9 := by decide +kernel
example := C95_elkies 6 2 7 _ hnew (by norm_num) (by norm_num) (by norm_num) (by norm_num) ⟨0, by rw [card7]; norm_num⟩
example := (C95_two 6 2 7 _ hnew (by norm_num) (by norm_num) (by norm_num) (by norm_num)).2 (by rw [card7]; norm_num)
private def curve5 : EllipticCurve :=
  { newRaw 2 0 5 with points := (irange 0 5).flatMap (newRaw 2 0 5).ptsAt ++ [ECPoint.infinity] }
private theorem hnew5 : EllipticCurve.new 2 0 5 = .ok curve5 := new_eq (show Nat.Prime 5 by norm_num) (by norm_num)
private theorem card5 : curve5.cardinality = 2 := by decide +kernel
private theorem div5 : Diverges (fun fuel => sea fuel curve5 3) :=
  (C95_iff 2 0 5 _ hnew5 (by norm_num) (by norm_num) (by norm_num) (by norm_num)).2 (by rw [card5]; norm_num)
example := C95_atkin 2 0 5 _ hnew5 (by norm_num) (by norm_num) (by norm_num) (by norm_num) div5

/-! The singular curve `y^2 = x^3 - 3x + 2` over GF(7), singular at `(1,0)`. -/

private abbrev sing : EllipticCurve := newRaw (-3) 2 7
private instance : Fact (Nat.Prime sing.p.toNat) := ⟨prime7⟩
private theorem fair : sing.Fair := ⟨rfl, prime7, by decide⟩
private theorem isS : sing.IsSingular ⟨1, 0, 1⟩ := ⟨by decide, by decide +kernel, by decide, by decide +kernel⟩
private theorem isS' : sing.IsSingular ⟨8, -7, 1⟩ := ⟨by decide, by decide +kernel, by decide, by decide +kernel⟩
private theorem on03 : sing.isOnCurve ⟨0, 3, 1⟩ = .ok true := by decide +kernel
private theorem rep03 : ∃ Q, sing.Rep ⟨0, 3, 1⟩ Q := (C86_singular_iff fair _ on03).2 (fun h => absurd h.2.2.1 (by decide))
example := C86_singular_unique fair ⟨1, 0, 1⟩ ⟨8, -7, 1⟩ isS isS'
example := C86_absorbs fair ⟨0, 3, 1⟩ ⟨8, -7, 1⟩ isS' on03 (by decide) (by decide)
example := C86_double fair ⟨1, 0, 1⟩ ⟨8, -7, 1⟩ isS isS'
example := C86_closure fair ⟨0, 3, 1⟩ ⟨8, -7, 1⟩ on03 isS'.2.1
example := C86_plus fair ⟨0, 3, 1⟩ ⟨0, 3, 1⟩ _ _ rep03.choose_spec rep03.choose_spec (by decide) (by decide)
example := C86_multiply_scalar fair ⟨0, 3, 1⟩ on03 (-100)
example := C86_point_order fair ⟨8, -7, 1⟩ isS'
example := C86_multiply_singular fair ⟨8, -7, 1⟩ isS' 100 (by decide)
example := C86_j_invariant fair (by decide +kernel)
private def curveS : EllipticCurve :=
  { newRaw (-3) 2 7 with points := (irange 0 7).flatMap (newRaw (-3) 2 7).ptsAt ++ [ECPoint.infinity] }
private theorem hnewS : EllipticCurve.new (-3) 2 7 = .ok curveS := new_eq prime7 (by norm_num)
private instance : Fact (Nat.Prime curveS.p.toNat) := ⟨prime7⟩
example := C87_cardinality_sum 6 2 7 _ hnew (by norm_num)
example := C87_cardinality (-3) 2 7 _ hnewS (by norm_num) (by norm_num)
example := C87_group_order (-3) 2 7 _ hnewS (by norm_num) (by norm_num)

end EC
