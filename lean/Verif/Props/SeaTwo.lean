import Verif.Lemmas.Velu
import Verif.Props.Sea
import Verif.Props.Curve
import Verif.Props.ModularDomain
import Mathlib.FieldTheory.IsAlgClosed.AlgebraicClosure

/-! C78: what `sea` says about isogenies: exactly for `l = 2`, by Kronecker's congruence for `l = p`, and the
symmetry of the relation for every `l`. -/

namespace EC

open Poly

/-- **C78 (Vélu).**  For a root `e` of `x^3 + a x + b`, `(x, y) ↦ (x + v/(x - e), y (1 - v/(x - e)^2))`,
`v = 3 e^2 + a`, maps every point of `y^2 = x^3 + a x + b` other than `(e, 0)` to a point of the curve with coefficients
`velu2A`, `velu2B`, and this curve is nonsingular if the first one is. -/
theorem C78_velu {K : Type*} [Field K] {a b e : K} (h2 : (2 : K) ≠ 0) (he : e ^ 3 + a * e + b = 0)
    (hD : 4 * a ^ 3 + 27 * b ^ 2 ≠ 0) :
    4 * velu2A a e ^ 3 + 27 * velu2B a b e ^ 2 ≠ 0 ∧
    ∀ x y : K, x ≠ e → y ^ 2 = x ^ 3 + a * x + b →
      velu2Y a e x y ^ 2 = velu2X a e x ^ 3 + velu2A a e * velu2X a e x + velu2B a b e :=
  ⟨velu2_nonsingular h2 he hD, fun _ _ hx h => velu2_map he hx h⟩

theorem phi2_evalAt {R : Type} [CommRing R] (f : Poly) (h : f.val = modularShape 2 phi2) (x y : R) :
    f.evalAt x y 0 0 = Phi2 x y := by
  rw [evalAt_of_shape h x y 0 0]
  have e1 : Finset.Ico (0 + 1) (2 + 1) = {1, 2} := rfl
  have e2 : Finset.Ico (1 + 1) (2 + 1) = {2} := rfl
  have e3 : Finset.Ico (2 + 1) (2 + 1) = ∅ := rfl
  simp only [modularAt, Finset.sum_range_succ, Finset.sum_range_zero, e1, e2, e3, Finset.sum_empty, Finset.sum_singleton,
    Finset.sum_pair (show 1 ≠ 2 by norm_num), phi2, zsmul_eq_mul, Phi2]
  push_cast
  ring

/-- `x ∈ GF(p)` is the j-invariant of a quotient of the curve by a point of order 2 with coordinates in an
algebraic closure of GF(p). -/
def IsTwoIsogenous (ec : EllipticCurve) [Fact (Nat.Prime ec.p.toNat)] (x : ZMod ec.p.toNat) : Prop :=
  ∃ e : AlgebraicClosure (ZMod ec.p.toNat), e ^ 3 + (ec.a : AlgebraicClosure (ZMod ec.p.toNat)) * e + ec.b = 0 ∧
    algebraMap _ _ x = jOf (velu2A (ec.a : AlgebraicClosure (ZMod ec.p.toNat)) e)
      (velu2B (ec.a : AlgebraicClosure (ZMod ec.p.toNat)) ec.b e)

theorem two_ne_zero_of_good {n : ℕ} [Fact n.Prime] (hn : n ≠ 2) {K : Type*} [Field K] [Algebra (ZMod n) K] : (2 : K) ≠ 0 := by
  have : CharP K n := charP_of_injective_algebraMap (algebraMap (ZMod n) K).injective n
  intro h
  have h' : ((2 : ℕ) : K) = 0 := by exact_mod_cast h
  rw [CharP.cast_eq_zero_iff K n] at h'
  exact hn ((Nat.prime_dvd_prime_iff_eq (Fact.out) Nat.prime_two).1 h')

theorem phi2_root_aux {n : ℕ} [Fact n.Prime] (hn : n ≠ 2) {K : Type*} [Field K] [Algebra (ZMod n) K] [IsAlgClosed K]
    (a b j : ℤ) (hD : ((4 * a ^ 3 + 27 * b ^ 2 : ℤ) : ZMod n) ≠ 0)
    (hj : ((j * (4 * a ^ 3 + 27 * b ^ 2) - 1728 * (4 * a ^ 3) : ℤ) : ZMod n) = 0) (x : ZMod n) :
    Phi2 x (j : ZMod n) = 0 ↔ ∃ e : K, e ^ 3 + (a : K) * e + b = 0 ∧
      algebraMap _ _ x = jOf (velu2A (a : K) e) (velu2B (a : K) b e) := by
  have h2 : (2 : K) ≠ 0 := two_ne_zero_of_good hn
  have hD' : 4 * (a : K) ^ 3 + 27 * (b : K) ^ 2 ≠ 0 := by
    intro h
    apply hD
    apply (algebraMap (ZMod n) K).injective
    rw [map_zero, map_intCast, ← h]
    push_cast; ring
  have hjK : (j : K) = jOf (a : K) b := by
    have := congrArg (algebraMap (ZMod n) K) hj
    rw [map_zero, map_intCast] at this
    push_cast at this
    unfold jOf
    rw [eq_div_iff hD']
    linear_combination this
  rw [← phi2_root_iff h2 hD', ← hjK]
  have e1 : Phi2 (algebraMap (ZMod n) K x) (j : K) = algebraMap (ZMod n) K (Phi2 x (j : ZMod n)) := by
    unfold Phi2
    simp only [map_sub, map_add, map_mul, map_pow, map_intCast, map_ofNat]
  rw [e1, map_eq_zero_iff _ (algebraMap (ZMod n) K).injective]

/-- **C78 (`l = 2`).**  Let the curve be nonsingular over GF(p), `p` an odd prime in `i32`.  The j-invariants of the
curves 2-isogenous to it that lie in GF(p), in ascending order: if there is one, `sea(ec, 2)` returns, with their number as
degree and the two smallest ones as list; if there is none, it never returns. -/
theorem C78_sea_two (ec : EllipticCurve) (h : ec.Good) (hi : ec.p ≤ 2147483647) [Fact (Nat.Prime ec.p.toNat)]
    (S : List ℕ) (hS : S.Pairwise (· < ·)) (hmem : ∀ n, n ∈ S ↔ n < ec.p.toNat ∧ IsTwoIsogenous ec n) :
    (S ≠ [] → ∃ r, Returns (fun fuel => sea fuel ec 2) r ∧ r.degreeOfGcd = S.length ∧ r.isElkiesPrime = true ∧
      r.isogenyJInvariants = (S.take 2).map (fun n : ℕ => (n : ℤ))) ∧
    (S = [] → Diverges (fun fuel => sea fuel ec 2)) := by
  obtain ⟨Φ, hΦ, hv, -⟩ := C40_phi2
  obtain ⟨j, hj, -, -, hjc⟩ := EllipticCurve.C50_j_invariant h
  have hp := h.p_pos
  have hn2 : ec.p.toNat ≠ 2 := by have := h.odd; omega
  have hD : ((4 * ec.a ^ 3 + 27 * ec.b ^ 2 : ℤ) : ZMod ec.p.toNat) ≠ 0 := by
    rw [ne_eq, zmod_eq_zero_iff hp.le]; exact h.disc
  have hj' : ((j * (4 * ec.a ^ 3 + 27 * ec.b ^ 2) - 1728 * (4 * ec.a ^ 3) : ℤ) : ZMod ec.p.toNat) = 0 := by
    rw [zmod_eq_zero_iff hp.le]; exact Int.dvd_of_emod_eq_zero hjc
  have key : ∀ x : ZMod ec.p.toNat, Φ.evalAt x (j : ZMod ec.p.toNat) 0 0 = 0 ↔ IsTwoIsogenous ec x := fun x => by
    rw [phi2_evalAt Φ hv]
    exact phi2_root_aux hn2 ec.a ec.b j hD hj' x
  have hSe : (List.range ec.p.toNat).filter (fun n : ℕ =>
      decide (Φ.evalAt (n : ZMod ec.p.toNat) (j : ZMod ec.p.toNat) 0 0 = 0)) = S := by
    apply List.Perm.eq_of_pairwise (le := (· < ·)) _ (List.pairwise_lt_range.filter _) hS
    · rw [List.perm_ext_iff_of_nodup (List.nodup_range.filter _) (hS.imp fun h => ne_of_lt h)]
      intro n
      rw [List.mem_filter, List.mem_range, hmem, decide_eq_true_eq, key]
    · intro x y _ _ h1 h2
      omega
  refine ⟨fun hne => ?_, fun he => ?_⟩
  · obtain ⟨n, hn⟩ := List.exists_mem_of_ne_nil S hne
    obtain ⟨r, hr, -, -, -, -, -, -, h7, h8, h9⟩ := C55_sea ec h.prime hi 2 Φ j hΦ hj
      ⟨(n : ZMod ec.p.toNat), (key _).2 ((hmem n).1 hn).2⟩
    rw [hSe] at h7 h9
    exact ⟨r, hr, h7, h8, h9⟩
  · refine C56_atkin_refuted ec h.prime hi 2 Φ j hΦ hj fun x hx => ?_
    have : NeZero ec.p.toNat := ⟨h.prime.ne_zero⟩
    have : x.val ∈ S := (hmem _).2 ⟨ZMod.val_lt x, by rw [ZMod.natCast_zmod_val]; exact (key x).1 hx⟩
    rw [he] at this
    simp at this

/-- **C78.**  In particular `sea(ec, 2)` returns if the curve has a point of order 2 over GF(p). -/
theorem C78_rational_torsion (ec : EllipticCurve) (h : ec.Good) (hi : ec.p ≤ 2147483647) (e : ℤ)
    (he : ec.p ∣ e ^ 3 + ec.a * e + ec.b) : ∃ r, Returns (fun fuel => sea fuel ec 2) r ∧ r.isElkiesPrime = true := by
  have : Fact (Nat.Prime ec.p.toNat) := ⟨h.prime⟩
  have hp := h.p_pos
  have : NeZero ec.p.toNat := ⟨h.prime.ne_zero⟩
  classical
  have hmem : ∀ n : ℕ, n ∈ (List.range ec.p.toNat).filter (fun n : ℕ => decide (IsTwoIsogenous ec (n : ZMod ec.p.toNat))) ↔
      n < ec.p.toNat ∧ IsTwoIsogenous ec n := fun n => by
    rw [List.mem_filter, List.mem_range, decide_eq_true_eq]
  obtain ⟨r, h1, -, h2, -⟩ := (C78_sea_two ec h hi _ (List.pairwise_lt_range.filter _) hmem).1 (by
    apply List.ne_nil_of_mem (a := (jOf (velu2A (ec.a : ZMod ec.p.toNat) e) (velu2B (ec.a : ZMod ec.p.toNat) ec.b e)).val)
    rw [hmem]
    refine ⟨ZMod.val_lt _, ?_⟩
    rw [ZMod.natCast_zmod_val]
    refine ⟨((e : ℤ) : AlgebraicClosure (ZMod ec.p.toNat)), ?_, ?_⟩
    · rw [← zmod_eq_zero_iff hp.le] at he
      have := congrArg (algebraMap (ZMod ec.p.toNat) (AlgebraicClosure (ZMod ec.p.toNat))) he
      rw [map_zero, map_intCast] at this
      push_cast at this
      exact this
    · unfold jOf velu2A velu2B
      simp only [map_div₀, map_sub, map_add, map_mul, map_pow, map_intCast, map_ofNat])
  exact ⟨r, h1, h2⟩

/-- **C78 (`l = p`).**  For a nonsingular curve over GF(p), `2 < p ≤ 214`, `sea(ec, p)` returns degree 1 and the
j-invariant of the curve itself. -/
theorem C78_sea_char (ec : EllipticCurve) (h : ec.Good) (hb : ec.p ≤ 214) (j : ℤ) (hj : ec.jInvariant = .ok j) :
    ∃ r, Returns (fun fuel => sea fuel ec ec.p) r ∧ r.degreeOfGcd = 1 ∧ r.isElkiesPrime = true ∧
      r.isogenyJInvariants = [j] := by
  have hF : Fact (Nat.Prime ec.p.toNat) := ⟨h.prime⟩
  have hp := h.p_pos
  have : NeZero ec.p.toNat := ⟨h.prime.ne_zero⟩
  have hpe : ((ec.p.toNat : ℕ) : ℤ) = ec.p := Int.toNat_of_nonneg hp.le
  obtain ⟨Φ, c, hΦ, hv, hc⟩ := C75_modular_polynomial ec.p.toNat h.prime (by omega)
  obtain ⟨j', hj', hj0, hj1, -⟩ := EllipticCurve.C50_j_invariant h
  cases hj.symm.trans hj'
  have key : ∀ x : ZMod ec.p.toNat, Φ.evalAt x (j : ZMod ec.p.toNat) 0 0 = 0 ↔ x = j := by
    intro x
    have h1 : Φ.evalAt x (j : ZMod ec.p.toNat) 0 0 = (x - j) * (x - j) := by
      rw [evalAt_of_shape hv]
      have hk : modularAt ec.p.toNat c x (j : ZMod ec.p.toNat) = modularAt ec.p.toNat (kron ec.p.toNat) x (j : ZMod ec.p.toNat) := by
        have hz : ∀ i k, i ≤ k → k ≤ ec.p.toNat → ((c i k : ℤ) : ZMod ec.p.toNat) = (kron ec.p.toNat i k : ℤ) := by
          intro i k h1 h2
          have := kron_congr ec.p.toNat h.prime c hc i k h1 h2
          rw [← sub_eq_zero, ← Int.cast_sub, ZMod.intCast_zmod_eq_zero_iff_dvd]
          exact this
        unfold modularAt
        simp only [zsmul_eq_mul]
        congr 1
        · congr 1
          refine Finset.sum_congr rfl fun i hi => ?_
          rw [hz i i le_rfl (by have := Finset.mem_range.1 hi; omega)]
        · refine Finset.sum_congr rfl fun i hi => Finset.sum_congr rfl fun k hk => ?_
          have := Finset.mem_Ico.1 hk
          rw [hz i k (by omega) (by omega)]
      rw [hk, kron_at h.prime.two_le, ZMod.pow_card, ZMod.pow_card]
    rw [h1, mul_self_eq_zero, sub_eq_zero]
  obtain ⟨r, hr, -, -, -, -, -, -, h7, h8, h9⟩ := C55_sea ec h.prime (by omega) ec.p.toNat Φ j hΦ hj ⟨(j : ZMod ec.p.toNat), (key _).2 rfl⟩
  have hS : (List.range ec.p.toNat).filter (fun n : ℕ =>
      decide (Φ.evalAt (n : ZMod ec.p.toNat) (j : ZMod ec.p.toNat) 0 0 = 0)) = [j.toNat] := by
    apply List.Perm.eq_of_pairwise (le := (· < ·)) _ (List.pairwise_lt_range.filter _) (List.pairwise_singleton _ _)
    · rw [List.perm_ext_iff_of_nodup (List.nodup_range.filter _) (List.nodup_singleton _)]
      intro n
      rw [List.mem_filter, List.mem_range, decide_eq_true_eq, key, List.mem_singleton]
      constructor
      · rintro ⟨h1, h2⟩
        have h3 : ((n : ℤ) : ZMod ec.p.toNat) = (j : ZMod ec.p.toNat) := by rw [← h2]; simp
        rw [ZMod.intCast_eq_intCast_iff] at h3
        have := h3.eq
        rw [Int.emod_eq_of_lt (by omega) (by omega), Int.emod_eq_of_lt hj0 (by omega)] at this
        omega
      · rintro rfl
        refine ⟨by omega, ?_⟩
        have : ((j.toNat : ℕ) : ℤ) = j := Int.toNat_of_nonneg hj0
        rw [← this]; simp
    · intro x y _ _ h1 h2
      omega
  rw [hS] at h7 h9
  refine ⟨r, ?_, by rw [h7]; rfl, h8, ?_⟩
  · rw [hpe] at hr; exact hr
  · rw [h9]
    simp [Int.toNat_of_nonneg hj0]

/-- **C78 (symmetry).**  For two nonsingular curves over the same GF(p): if the j-invariant of the second one is a
root found from the first one, i.e. `Φ_l(j₂, j₁) = 0`, then `sea` of the second one returns, and the j-invariant of the first
is a root found from the second one. -/
theorem C78_symmetric (ec ec' : EllipticCurve) (h : ec.Good) (h' : ec'.Good) (hpp : ec'.p = ec.p) (hi : ec.p ≤ 2147483647)
    (l : ℕ) (j j' : ℤ) (hj : ec.jInvariant = .ok j) (hj' : ec'.jInvariant = .ok j') (r : SEAResult)
    (hr : Returns (fun fuel => sea fuel ec l) r) (hin : j' ∈ r.isogenyJInvariants) :
    ∃ r', Returns (fun fuel => sea fuel ec' l) r' ∧
      (r'.gcd.polyX (ZMod ec.p.toNat)).IsRoot (j : ZMod ec.p.toNat) ∧
      (r'.degreeOfGcd ≤ 2 → j ∈ r'.isogenyJInvariants) := by
  have hF : Fact (Nat.Prime ec.p.toNat) := ⟨h.prime⟩
  have hp := h.p_pos
  obtain ⟨Φ, hΦ⟩ : ∃ Φ, modularPolynomial l = .ok Φ := by
    obtain ⟨N, hN⟩ := hr
    have := hN N le_rfl
    unfold sea at this
    obtain ⟨Φ, h1, -⟩ := Res.bind_eq_ok.1 this
    exact ⟨Φ, h1⟩
  obtain ⟨hl, c, hc⟩ := C39_shape l Φ hΦ
  have hsym : ∀ x y : ZMod ec.p.toNat, Φ.evalAt x y 0 0 = Φ.evalAt y x 0 0 := by
    intro x y
    rw [evalAt_of_shape hc, evalAt_of_shape hc]
    unfold modularAt
    congr 1
    · rw [add_comm (x ^ (l + 1))]
      congr 1
      exact Finset.sum_congr rfl fun i _ => by rw [mul_comm]
    · exact Finset.sum_congr rfl fun i _ => Finset.sum_congr rfl fun k _ => by
        rw [add_comm, mul_comm, mul_comm (x ^ i)]
  have hroot := (C55_returns_iff ec h.prime hi l Φ j hΦ hj).1 ⟨r, hr⟩
  obtain ⟨r2, hr2, -, -, -, -, -, -, -, -, h9⟩ := C55_sea ec h.prime hi l Φ j hΦ hj hroot
  have hrr : r = r2 := by
    obtain ⟨N, hN⟩ := hr
    obtain ⟨M, hM⟩ := hr2
    have h1 := hN (max N M) (le_max_left _ _)
    have h2 := hM (max N M) (le_max_right _ _)
    exact Res.ok.inj (h1.symm.trans h2)
  subst hrr
  rw [h9] at hin
  obtain ⟨n, hn, rfl⟩ := List.mem_map.1 hin
  have hn' := List.mem_of_mem_take hn
  rw [List.mem_filter, decide_eq_true_eq] at hn'
  have hz : Φ.evalAt (j : ZMod ec'.p.toNat) (((n : ℕ) : ℤ) : ZMod ec'.p.toNat) 0 0 = 0 := by
    rw [hpp, hsym]
    have := hn'.2
    simpa using this
  obtain ⟨r', hr', -, hg, -, -, -, -, h7, -, h10⟩ := C55_sea ec' h'.prime (by omega) l Φ n hΦ hj' ⟨_, hz⟩
  refine ⟨r', hr', ?_, ?_⟩
  · rw [hpp] at hg hz
    rw [← Polynomial.dvd_iff_isRoot, hg]
    refine ⟨Polynomial.dvd_iff_isRoot.2 ?_, Polynomial.dvd_iff_isRoot.2 ?_⟩
    · simp [Polynomial.IsRoot.def, ZMod.pow_card]
    · rw [Polynomial.IsRoot.def, eval_phi]; exact hz
  · intro hd
    obtain ⟨j2, hj2, hj0, hj1, -⟩ := EllipticCurve.C50_j_invariant h
    cases hj.symm.trans hj2
    rw [h7] at hd
    rw [h10, List.take_of_length_le (by exact_mod_cast hd), List.mem_map]
    refine ⟨j.toNat, ?_, Int.toNat_of_nonneg hj0⟩
    rw [List.mem_filter, List.mem_range, decide_eq_true_eq]
    refine ⟨by omega, ?_⟩
    have : ((j.toNat : ℕ) : ZMod ec'.p.toNat) = (j : ZMod ec'.p.toNat) := by
      have e := congrArg (Int.cast : ℤ → ZMod ec'.p.toNat) (Int.toNat_of_nonneg hj0)
      rwa [Int.cast_natCast] at e
    rw [this]; exact hz

/-- `y^2 = x^3 + x` over GF(5) meets the hypotheses of all of them. -/
example : seaSample1.Good ∧ (∃ r, Returns (fun fuel => sea fuel seaSample1 2) r ∧ r.isElkiesPrime = true) ∧
    ∃ r, Returns (fun fuel => sea fuel seaSample1 5) r ∧ r.isogenyJInvariants = [3] := by
  have h : seaSample1.Good := ⟨by unfold EllipticCurve.WF; decide, by decide, by decide, by decide⟩
  refine ⟨h, C78_rational_torsion seaSample1 h (by decide) 0 (by decide), ?_⟩
  obtain ⟨r, h1, -, -, h2⟩ := C78_sea_char seaSample1 h (by decide) 3 (by decide +kernel)
  exact ⟨r, h1, h2⟩

end EC
