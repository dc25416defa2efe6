import Verif.Lemmas.InvDiff
import Verif.Lemmas.FrobCharAll
import Verif.Lemmas.TorsUpper

/-! Pure mathematics: the number of points with `F P = -v P`, for `p ∤ v` and `p ∤ v + t`. -/

namespace EC
open WeierstrassCurve EDS Polynomial

section
variable {F : Type} [Field F] [DecidableEq F] [Fintype F] {a b : F}
variable (h2 : (2 : F) ≠ 0) (hd : 4 * a ^ 3 + 27 * b ^ 2 ≠ 0)
variable {K : Type} [Field K] [DecidableEq K] [Algebra F K]

local notation "q" => Fintype.card F

theorem xc_evalHom {R : EPt a b K} (hR : R ≠ 0) (hs : Transcendental F (xc R)) {Q : TPt a b} (hQ : Q ≠ 0) :
    evalHom h2 hd hR hs Q ≠ 0 ∧ xc (evalHom h2 hd hR hs Q) = substX hs (Xc Q) := by
  obtain ⟨p1, p2, -⟩ := evalHom_ne h2 hd hR hs hQ
  refine ⟨p1, ?_⟩
  rw [p2, xc_eq_Xc, map_mul, eval_fL hR hs, ← mul_assoc, ← mul_pow, inv_mul_cancel₀ (yc_ne_transc hR hs), one_pow, one_mul]

/-- At least `v^2 + v t + q` points satisfy `F P + v P = 0`, if `v ≠ 0` in the field. -/
theorem frob_add_ker_ge [IsAlgClosed K] {c : K} (hc : Transcendental F c) (v : ℤ) (hv : (v : F) ≠ 0) :
    ∃ s : Finset (EPt a b K), (s.card : ℤ) = v ^ 2 + v * trc a b + q ∧ ∀ P ∈ s, frobK h2 hd K P + v • P = 0 := by
  set Z := frobT h2 hd (gen h2 hd) + v • gen h2 hd with hZ
  have hv' : (v : RatFunc F) ≠ 0 := by
    rw [← map_intCast (RatFunc.C : F →+* RatFunc F)]
    exact (_root_.map_ne_zero _).2 hv
  have hne : Z ≠ 0 := by
    intro h0
    have h := (isDiff_frob h2 hd).add h2 hd ((isDiff_gen h2 hd).zsmul h2 hd v)
    rw [zero_add, mul_one] at h
    exact hv' (h.1 h0)
  have hD := rD_frob_add_ne h2 hd v hv hne
  have hht : (ht (Xc Z) : ℤ) = v ^ 2 + v * trc a b + q := by
    have := hgt_lin h2 hd v 1
    rw [one_zsmul, add_comm (v • _)] at this
    rw [← hZ] at this
    unfold hgt at this
    rw [this]; ring
  rw [← hht]
  clear hht
  set r := Xc Z with hr
  have hW := wronskian_of_rD hD
  set N := r.num with hN
  set E := r.denom with hE
  have hE0 : E ≠ 0 := r.denom_ne_zero
  have hcop : IsCoprime N E := r.isCoprime_num_denom
  have hr' : r = algebraMap F[X] (RatFunc F) N / algebraMap F[X] (RatFunc F) E := (RatFunc.num_div_denom r).symm
  have hinj := (algebraMap F K).injective
  set G : K[X] := N.map (algebraMap F K) - C c * E.map (algebraMap F K) with hG
  have hc0 : ∀ u w : F, algebraMap F K u = c * algebraMap F K w → w = 0 := fun u w h => by
    by_contra hw
    apply hc
    have : c = algebraMap F K (u / w) := by
      rw [map_div₀, h, mul_div_cancel_right₀ _ ((_root_.map_ne_zero _).2 hw)]
    rw [this]
    exact isAlgebraic_algebraMap _
  have hcoef : ∀ i, G.coeff i = algebraMap F K (N.coeff i) - c * algebraMap F K (E.coeff i) := fun i => by
    rw [hG, coeff_sub, coeff_C_mul, coeff_map, coeff_map]
  have hGd : G.natDegree = max N.natDegree E.natDegree := by
    apply le_antisymm
    · refine (natDegree_sub_le _ _).trans ?_
      rw [natDegree_map]
      exact max_le_max le_rfl ((natDegree_C_mul_le _ _).trans (natDegree_map _).le)
    · have key : ∀ i, G.coeff i = 0 → N.coeff i = 0 ∧ E.coeff i = 0 := fun i h => by
        rw [hcoef, sub_eq_zero] at h
        have e0 := hc0 _ _ h
        rw [e0, map_zero, mul_zero] at h
        exact ⟨(map_eq_zero _).1 h, e0⟩
      refine max_le ?_ ?_
      · by_cases hN0 : N = 0
        · rw [hN0, natDegree_zero]; exact Nat.zero_le _
        · apply le_natDegree_of_ne_zero
          intro h
          exact hN0 (leadingCoeff_eq_zero.1 (key _ h).1)
      · apply le_natDegree_of_ne_zero
        intro h
        exact hE0 (leadingCoeff_eq_zero.1 (key _ h).2)
  have hG0 : G ≠ 0 := by
    intro h0
    have := hc0 (N.coeff E.natDegree) (E.coeff E.natDegree) (by
      have := hcoef E.natDegree
      rw [h0, coeff_zero] at this
      exact (sub_eq_zero.1 this.symm))
    exact hE0 (leadingCoeff_eq_zero.1 this)
  have hev : ∀ x, G.eval x = aeval x N - c * aeval x E := fun x => by
    rw [hG, eval_sub, eval_mul, eval_C, aeval_def, aeval_def, eval₂_eq_eval_map, eval₂_eq_eval_map]
  have hroot : ∀ x, G.eval x = 0 → aeval x N = c * aeval x E ∧ aeval x E ≠ 0 := by
    intro x hx
    rw [hev, sub_eq_zero] at hx
    refine ⟨hx, fun h0 => ?_⟩
    obtain ⟨s, t, hst⟩ := hcop
    have := congrArg (aeval x) hst
    rw [map_add, map_mul, map_mul, hx, h0, mul_zero, mul_zero, mul_zero, add_zero, map_one] at this
    exact zero_ne_one this
  have htr : ∀ x, G.eval x = 0 → Transcendental F x := by
    intro x hx hal
    obtain ⟨e1, e2⟩ := hroot x hx
    apply hc
    have : c = aeval x N / aeval x E := by rw [e1, mul_div_cancel_right₀ _ e2]
    rw [this]
    have hal' : ∀ u : F[X], IsAlgebraic F (aeval x u) := fun u => by
      have := (aeval (⟨x, mem_algebraicClosure_iff.2 hal⟩ : algebraicClosure F K) u).2
      rw [← IntermediateField.aeval_coe] at this
      exact mem_algebraicClosure_iff.1 this
    rw [div_eq_mul_inv]
    exact IsAlgebraic.mul (hal' N) (hal' E).inv
  have hsep : G.roots.Nodup := by
    rw [Multiset.nodup_iff_count_le_one]
    intro x
    rw [count_roots]
    by_contra hlt
    obtain ⟨g1, g2⟩ := (one_lt_rootMultiplicity_iff_isRoot hG0).1 (not_le.1 hlt)
    obtain ⟨e1, e2⟩ := hroot x g1
    have e3 : aeval x (derivative N) = c * aeval x (derivative E) := by
      rw [IsRoot.def, hG, derivative_sub, derivative_C_mul, derivative_map, derivative_map, eval_sub, eval_mul, eval_C,
        ← eval₂_eq_eval_map, ← eval₂_eq_eval_map] at g2
      exact sub_eq_zero.1 g2
    apply htr x g1
    refine ⟨_, hW, ?_⟩
    rw [map_sub, map_mul, map_mul, e1, e3]
    ring
  have hcard : G.roots.toFinset.card = ht r := by
    rw [Multiset.toFinset_card_of_nodup hsep, ht, ← hN, ← hE, ← hGd]
    exact splits_iff_card_roots.1 (IsAlgClosed.splits G)
  obtain ⟨R, hR, hRc⟩ := exists_point (a := algebraMap F K a) (b := algebraMap F K b) (two_ne_ext h2 K) (disc_ext hd K) c
  have hpt : ∀ x, G.eval x = 0 → ∃ P : EPt a b K, xc P = x ∧ frobK h2 hd K P + v • P = R := by
    intro x hx
    obtain ⟨e1, e2⟩ := hroot x hx
    obtain ⟨P, hP, hPx⟩ := exists_point (a := algebraMap F K a) (b := algebraMap F K b) (two_ne_ext h2 K) (disc_ext hd K) x
    have hs : Transcendental F (xc P) := by rw [hPx]; exact htr x hx
    obtain ⟨k1, k2⟩ := xc_evalHom h2 hd hP hs hne
    have k3 : evalHom h2 hd hP hs Z = frobK h2 hd K P + v • P := by
      rw [hZ, map_add, map_zsmul, evalHom_frob h2 hd hP hs (gen_ne h2 hd), evalHom_gen]
    rw [k3] at k1 k2
    have e4 : xc (frobK h2 hd K P + v • P) = xc R := by
      rw [hRc, k2, ← hr, hr', map_div₀, substX_poly, substX_poly, hPx, e1, mul_div_cancel_right₀ _ e2]
    rcases (xc_eq_iff k1 hR).1 e4 with h | h
    · exact ⟨P, hPx, h⟩
    · exact ⟨-P, (xc_neg P).trans hPx, by rw [map_neg, zsmul_neg, ← neg_add, h, neg_neg]⟩
  choose! f hf using hpt
  have hmem : ∀ x ∈ G.roots.toFinset, G.eval x = 0 := fun x hx => by
    rw [Multiset.mem_toFinset, mem_roots hG0] at hx; exact hx
  have hinj : Set.InjOn f G.roots.toFinset := by
    intro x hx y hy hxy
    rw [← (hf x (hmem x hx)).1, ← (hf y (hmem y hy)).1, hxy]
  rcases (G.roots.toFinset).eq_empty_or_nonempty with hemp | ⟨x0, hx0⟩
  · refine ⟨∅, ?_, by simp⟩
    rw [← hcard, hemp]; rfl
  · refine ⟨(G.roots.toFinset.image f).image (fun P => P - f x0), ?_, ?_⟩
    · rw [Finset.card_image_of_injective _ (fun P Q h => sub_left_injective h), Finset.card_image_of_injOn hinj, hcard]
    · intro P hP
      simp only [Finset.mem_image] at hP
      obtain ⟨_, ⟨x, hx, rfl⟩, rfl⟩ := hP
      have g1 := (hf x (hmem x hx)).2
      have g2 := (hf x0 (hmem x0 hx0)).2
      rw [map_sub, zsmul_sub]
      rw [show frobK h2 hd K (f x) - frobK h2 hd K (f x0) + (v • f x - v • f x0) =
        (frobK h2 hd K (f x) + v • f x) - (frobK h2 hd K (f x0) + v • f x0) by abel, g1, g2, sub_self]

end

section group
variable {M : Type*} [AddCommGroup M]

theorem tors_mul_surj {d : ℕ} (hd0 : 0 < d) (c1 : Nat.card (tors M d) = d ^ 2) (c2 : Nat.card (tors M (d * d)) = d ^ 4)
    (S : M) (hS : d • S = 0) : ∃ R : M, d • R = S := by
  have f1 : Finite (tors M d) := Nat.finite_of_card_ne_zero (by rw [c1]; positivity)
  have f2 : Finite (tors M (d * d)) := Nat.finite_of_card_ne_zero (by rw [c2]; positivity)
  let g : tors M (d * d) →+ tors M d :=
    ((nsmulAddMonoidHom d : M →+ M).comp (tors M (d * d)).subtype).codRestrict (tors M d) fun x => by
      rw [mem_tors]
      have := mem_tors.1 x.2
      rw [mul_nsmul] at this
      exact this
  have hk : Nat.card g.ker = d ^ 2 := by
    rw [← c1]
    refine Nat.card_congr
      { toFun := fun x => ⟨x.1.1, ?_⟩
        invFun := fun y => ⟨⟨y.1, ?_⟩, ?_⟩
        left_inv := fun x => rfl
        right_inv := fun y => rfl }
    · have := (AddMonoidHom.mem_ker).1 x.2
      exact mem_tors.2 (congrArg Subtype.val this)
    · rw [mem_tors, mul_nsmul, mem_tors.1 y.2, nsmul_zero]
    · rw [AddMonoidHom.mem_ker]
      exact Subtype.ext (mem_tors.1 y.2)
  have h1 := AddSubgroup.card_mul_index g.ker
  rw [AddSubgroup.index_ker, hk, c2] at h1
  have h3 : Nat.card g.range = Nat.card (tors M d) := by
    rw [c1]
    have : d ^ 2 * Nat.card g.range = d ^ 2 * d ^ 2 := by rw [h1]; ring
    exact Nat.eq_of_mul_eq_mul_left (by positivity) this
  have h4 : g.range = ⊤ := AddSubgroup.eq_top_of_card_eq _ h3
  obtain ⟨R, hR⟩ := (AddMonoidHom.range_eq_top.1 h4) ⟨S, mem_tors.2 hS⟩
  exact ⟨R.1, congrArg Subtype.val hR⟩

/-- If `α β = β α = d` and both kernels have at least `d` elements, they have exactly `d`. -/
theorem card_ker_eq {d : ℕ} (hd0 : 0 < d) (c1 : Nat.card (tors M d) = d ^ 2) (c2 : Nat.card (tors M (d * d)) = d ^ 4)
    (α β : M →+ M) (h1 : ∀ P, α (β P) = d • P) (h2 : ∀ P, β (α P) = d • P) (k1 : d ≤ Nat.card α.ker) (k2 : d ≤ Nat.card β.ker) :
    Nat.card α.ker = d := by
  have f1 : Finite (tors M d) := Nat.finite_of_card_ne_zero (by rw [c1]; positivity)
  let f : tors M d →+ M := α.comp (tors M d).subtype
  have hk : Nat.card f.ker = Nat.card α.ker := by
    refine Nat.card_congr
      { toFun := fun x => ⟨x.1.1, x.2⟩
        invFun := fun y => ⟨⟨y.1, ?_⟩, y.2⟩
        left_inv := fun x => rfl
        right_inv := fun y => rfl }
    rw [mem_tors, ← h2, (AddMonoidHom.mem_ker).1 y.2, map_zero]
  have hr : β.ker ≤ f.range := by
    intro S hS
    have hS' := (AddMonoidHom.mem_ker).1 hS
    have hdS : d • S = 0 := by rw [← h1, hS', map_zero]
    obtain ⟨R, hR⟩ := tors_mul_surj hd0 c1 c2 S hdS
    refine ⟨⟨β R, ?_⟩, ?_⟩
    · rw [mem_tors, ← map_nsmul, hR, hS']
    · show α (β R) = S
      rw [h1, hR]
  have hfin : Finite f.range := Set.finite_range f
  have h3 := AddSubgroup.card_mul_index f.ker
  rw [AddSubgroup.index_ker, hk, c1] at h3
  have h4 : d ≤ Nat.card f.range := k2.trans (Nat.card_le_card_of_injective _ (AddSubgroup.inclusion_injective hr))
  nlinarith

end group
end EC
