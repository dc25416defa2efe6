import Verif.Lemmas.Phi3
import Verif.Lemmas.Phi5
import Verif.Lemmas.Velu3
import Verif.Props.SeaTwo
import Verif.Props.Modular
import Verif.Props.ModularExists

/-! Property C92: `modular_polynomial(3)` and what `sea(ec, 3)` says about isogenies of degree 3. -/

namespace EC

open Poly

/-- **C92.**  `modular_polynomial(3)` is the classical `Φ_3`, and `Φ_3(j(q), j(q^3)) = 0`. -/
theorem C92_phi3 : ∃ f, modularPolynomial 3 = .ok f ∧ f.val = modularShape 3 phi3 ∧
    modularAt 3 phi3 jLaurent (qPow 3 Nat.prime_three.pos jLaurent) = 0 := by
  obtain ⟨f, h1, h2⟩ := C40_modular_polynomial 3 Nat.prime_three (by norm_num) phi3 phi3_lowOrder
  exact ⟨f, h1, h2, C75_low_order 3 Nat.prime_three phi3 phi3_lowOrder⟩

/-- **C92.**  `modular_polynomial(5)` is the classical `Φ_5`, and `Φ_5(j(q), j(q^5)) = 0`. -/
theorem C92_phi5 : ∃ f, modularPolynomial 5 = .ok f ∧ f.val = modularShape 5 phi5 ∧
    modularAt 5 phi5 jLaurent (qPow 5 Nat.prime_five.pos jLaurent) = 0 := by
  obtain ⟨f, h1, h2⟩ := C40_modular_polynomial 5 Nat.prime_five (by norm_num) phi5 phi5_lowOrder
  exact ⟨f, h1, h2, C75_low_order 5 Nat.prime_five phi5 phi5_lowOrder⟩

/-- **C92 (Vélu).**  For a root `e` of the 3-division polynomial, Vélu's map sends every point of
`y^2 = x^3 + a x + b` with `x ≠ e` to a point of the curve with coefficients `velu3A`, `velu3B`, and this curve is nonsingular
if the first one is. -/
theorem C92_velu {K : Type*} [Field K] {a b e : K} (h2 : (2 : K) ≠ 0) (h3 : (3 : K) ≠ 0) (he : psi3At a b e = 0)
    (hD : 4 * a ^ 3 + 27 * b ^ 2 ≠ 0) :
    4 * velu3A a e ^ 3 + 27 * velu3B a b e ^ 2 ≠ 0 ∧
    ∀ x y : K, x ≠ e → y ^ 2 = x ^ 3 + a * x + b →
      velu3Y a b e x y ^ 2 = velu3X a b e x ^ 3 + velu3A a e * velu3X a b e x + velu3B a b e :=
  ⟨velu3_nonsingular h2 h3 he hD, fun _ _ hx h => velu3_map he hx h⟩

theorem phi3_evalAt {R : Type} [CommRing R] (f : Poly) (h : f.val = modularShape 3 phi3) (x y : R) :
    f.evalAt x y 0 0 = Phi3 x y := by
  rw [evalAt_of_shape h x y 0 0]
  have e1 : Finset.Ico (0 + 1) (3 + 1) = {1, 2, 3} := rfl
  have e2 : Finset.Ico (1 + 1) (3 + 1) = {2, 3} := rfl
  have e3 : Finset.Ico (2 + 1) (3 + 1) = {3} := rfl
  have e4 : Finset.Ico (3 + 1) (3 + 1) = ∅ := rfl
  simp only [modularAt, Finset.sum_range_succ, Finset.sum_range_zero, e1, e2, e3, e4, Finset.sum_empty, Finset.sum_singleton,
    Finset.sum_pair (show 2 ≠ 3 by norm_num),
    Finset.sum_insert (show (1 : ℕ) ∉ ({2, 3} : Finset ℕ) by decide), phi3, zsmul_eq_mul, Phi3]
  push_cast
  ring

/-- `x ∈ GF(p)` is the j-invariant of a quotient of the curve by a subgroup of order 3, whose two affine points have the
`x`-coordinate `e` in an algebraic closure of GF(p). -/
def IsThreeIsogenous (ec : EllipticCurve) [Fact (Nat.Prime ec.p.toNat)] (x : ZMod ec.p.toNat) : Prop :=
  ∃ e : AlgebraicClosure (ZMod ec.p.toNat), psi3At (ec.a : AlgebraicClosure (ZMod ec.p.toNat)) ec.b e = 0 ∧
    algebraMap _ _ x = jOf (velu3A (ec.a : AlgebraicClosure (ZMod ec.p.toNat)) e)
      (velu3B (ec.a : AlgebraicClosure (ZMod ec.p.toNat)) ec.b e)

theorem prime_ne_zero_of_ne {n l : ℕ} [Fact n.Prime] (hl : l.Prime) (hn : n ≠ l) {K : Type*} [Field K] [Algebra (ZMod n) K] :
    (l : K) ≠ 0 := by
  have : CharP K n := charP_of_injective_algebraMap (algebraMap (ZMod n) K).injective n
  intro h'
  rw [CharP.cast_eq_zero_iff K n] at h'
  exact hn ((Nat.prime_dvd_prime_iff_eq (Fact.out) hl).1 h')

theorem phi3_root_aux {n : ℕ} [Fact n.Prime] (hn : n ≠ 2) (hn3 : n ≠ 3) {K : Type*} [Field K] [Algebra (ZMod n) K]
    [IsAlgClosed K] (a b j : ℤ) (hD : ((4 * a ^ 3 + 27 * b ^ 2 : ℤ) : ZMod n) ≠ 0)
    (hj : ((j * (4 * a ^ 3 + 27 * b ^ 2) - 1728 * (4 * a ^ 3) : ℤ) : ZMod n) = 0) (x : ZMod n) :
    Phi3 x (j : ZMod n) = 0 ↔ ∃ e : K, psi3At (a : K) b e = 0 ∧
      algebraMap _ _ x = jOf (velu3A (a : K) e) (velu3B (a : K) b e) := by
  have h2 : (2 : K) ≠ 0 := two_ne_zero_of_good hn
  have h3 : (3 : K) ≠ 0 := prime_ne_zero_of_ne Nat.prime_three hn3
  have hD' : 4 * (a : K) ^ 3 + 27 * (b : K) ^ 2 ≠ 0 := by
    intro h
    apply hD
    apply (algebraMap (ZMod n) K).injective
    rw [map_zero, map_intCast, ← h]
    push_cast; ring
  have hjK : (j : K) = jOf (a : K) b := by
    have := congrArg (algebraMap (ZMod n) K) hj
    rw [map_zero, map_intCast] at this
    push_cast at this
    unfold jOf
    rw [eq_div_iff hD']
    linear_combination this
  rw [← phi3_root_iff h2 h3 hD', ← hjK]
  have e1 : Phi3 (algebraMap (ZMod n) K x) (j : K) = algebraMap (ZMod n) K (Phi3 x (j : ZMod n)) := by
    unfold Phi3
    simp only [map_sub, map_add, map_mul, map_pow, map_intCast, map_ofNat]
  rw [e1, map_eq_zero_iff _ (algebraMap (ZMod n) K).injective]

/-- **C92.**  Let the curve be nonsingular over GF(p), `p ≥ 5` a prime in `i32`.  The j-invariants of the
curves 3-isogenous to it that lie in GF(p), in ascending order: if there is one, `sea(ec, 3)` returns, with their number as
degree and the two smallest ones as list; if there is none, it never returns. -/
theorem C92_sea_three (ec : EllipticCurve) (h : ec.Good) (h3 : ec.p ≠ 3) (hi : ec.p ≤ 2147483647)
    [Fact (Nat.Prime ec.p.toNat)]
    (S : List ℕ) (hS : S.Pairwise (· < ·)) (hmem : ∀ n, n ∈ S ↔ n < ec.p.toNat ∧ IsThreeIsogenous ec n) :
    (S ≠ [] → ∃ r, Returns (fun fuel => sea fuel ec 3) r ∧ r.degreeOfGcd = S.length ∧ r.isElkiesPrime = true ∧
      r.isogenyJInvariants = (S.take 2).map (fun n : ℕ => (n : ℤ))) ∧
    (S = [] → Diverges (fun fuel => sea fuel ec 3)) := by
  obtain ⟨Φ, hΦ, hv, -⟩ := C92_phi3
  obtain ⟨j, hj, -, -, hjc⟩ := EllipticCurve.C50_j_invariant h
  have hp := h.p_pos
  have hn2 : ec.p.toNat ≠ 2 := by have := h.odd; omega
  have hn3 : ec.p.toNat ≠ 3 := by omega
  have hD : ((4 * ec.a ^ 3 + 27 * ec.b ^ 2 : ℤ) : ZMod ec.p.toNat) ≠ 0 := by
    rw [ne_eq, zmod_eq_zero_iff hp.le]; exact h.disc
  have hj' : ((j * (4 * ec.a ^ 3 + 27 * ec.b ^ 2) - 1728 * (4 * ec.a ^ 3) : ℤ) : ZMod ec.p.toNat) = 0 := by
    rw [zmod_eq_zero_iff hp.le]; exact Int.dvd_of_emod_eq_zero hjc
  have key : ∀ x : ZMod ec.p.toNat, Φ.evalAt x (j : ZMod ec.p.toNat) 0 0 = 0 ↔ IsThreeIsogenous ec x := fun x => by
    rw [phi3_evalAt Φ hv]
    exact phi3_root_aux hn2 hn3 ec.a ec.b j hD hj' x
  have hSe : (List.range ec.p.toNat).filter (fun n : ℕ =>
      decide (Φ.evalAt (n : ZMod ec.p.toNat) (j : ZMod ec.p.toNat) 0 0 = 0)) = S := by
    apply List.Perm.eq_of_pairwise (le := (· < ·)) _ (List.pairwise_lt_range.filter _) hS
    · rw [List.perm_ext_iff_of_nodup (List.nodup_range.filter _) (hS.imp fun h => ne_of_lt h)]
      intro n
      rw [List.mem_filter, List.mem_range, hmem, decide_eq_true_eq, key]
    · intro x y _ _ h1 h2
      omega
  constructor
  · intro hne
    obtain ⟨n, hn⟩ := List.exists_mem_of_ne_nil S hne
    obtain ⟨r, h1, -, -, -, -, -, -, h7, h8, h9⟩ := C55_sea ec h.prime hi 3 Φ j hΦ hj ⟨n, (key n).2 ((hmem n).1 hn).2⟩
    rw [hSe] at h7 h9
    exact ⟨r, h1, h7, h8, h9⟩
  · intro he
    refine C56_atkin_refuted ec h.prime hi 3 Φ j hΦ hj fun x hx => ?_
    have : NeZero ec.p.toNat := ⟨h.prime.ne_zero⟩
    have : x.val ∈ S := (hmem _).2 ⟨ZMod.val_lt x, by rw [ZMod.natCast_zmod_val]; exact (key x).1 hx⟩
    rw [he] at this
    simp at this

/-- **C92.**  In particular `sea(ec, 3)` returns if the 3-division polynomial has a root in GF(p). -/
theorem C92_rational_kernel (ec : EllipticCurve) (h : ec.Good) (h3 : ec.p ≠ 3) (hi : ec.p ≤ 2147483647) (e : ℤ)
    (he : ec.p ∣ 3 * e ^ 4 + 6 * ec.a * e ^ 2 + 12 * ec.b * e - ec.a ^ 2) :
    ∃ r, Returns (fun fuel => sea fuel ec 3) r ∧ r.isElkiesPrime = true := by
  have : Fact (Nat.Prime ec.p.toNat) := ⟨h.prime⟩
  have hp := h.p_pos
  have : NeZero ec.p.toNat := ⟨h.prime.ne_zero⟩
  classical
  have hmem : ∀ n : ℕ, n ∈ (List.range ec.p.toNat).filter (fun n : ℕ => decide (IsThreeIsogenous ec (n : ZMod ec.p.toNat))) ↔
      n < ec.p.toNat ∧ IsThreeIsogenous ec n := fun n => by
    rw [List.mem_filter, List.mem_range, decide_eq_true_eq]
  obtain ⟨r, h1, -, h2, -⟩ := (C92_sea_three ec h h3 hi _ (List.pairwise_lt_range.filter _) hmem).1 (by
    apply List.ne_nil_of_mem (a := (jOf (velu3A (ec.a : ZMod ec.p.toNat) e) (velu3B (ec.a : ZMod ec.p.toNat) ec.b e)).val)
    rw [hmem]
    refine ⟨ZMod.val_lt _, ?_⟩
    rw [ZMod.natCast_zmod_val]
    refine ⟨((e : ℤ) : AlgebraicClosure (ZMod ec.p.toNat)), ?_, ?_⟩
    · rw [← zmod_eq_zero_iff hp.le] at he
      have := congrArg (algebraMap (ZMod ec.p.toNat) (AlgebraicClosure (ZMod ec.p.toNat))) he
      rw [map_zero, map_intCast] at this
      push_cast at this
      exact this
    · unfold jOf velu3A velu3B
      simp only [map_div₀, map_sub, map_add, map_mul, map_pow, map_intCast, map_ofNat])
  exact ⟨r, h1, h2⟩

/-- `y^2 = x^3 + x + 7` over GF(23), the curve of the repository's test. -/
def seaSample3 : EllipticCurve := ⟨1, 7, 23, curvePol 1 7, []⟩

/-- It meets the hypotheses. -/
example : seaSample3.Good ∧ ∃ r, Returns (fun fuel => sea fuel seaSample3 3) r ∧ r.isElkiesPrime = true := by
  have h : seaSample3.Good := ⟨by unfold EllipticCurve.WF; decide, by decide, by decide, by decide⟩
  exact ⟨h, C92_rational_kernel seaSample3 h (by decide) (by decide) 14 (by decide)⟩

end EC
