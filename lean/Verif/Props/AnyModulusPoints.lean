import Verif.Props.AnyModulus
import Verif.Lemmas.CurvePoints

/-! C45 for every modulus: what `create_points` lists on a curve made by `new_raw` with any integer `p`. -/

namespace EC

open EllipticCurve

variable {ec : EllipticCurve}

theorem mem_ptsAt_any (hp : 0 < ec.p) (x : ℤ) (P : ECPoint) :
    P ∈ ec.ptsAt x ↔ P.x = x ∧ (0 ≤ P.y ∧ P.y < ec.p) ∧ P.z = 1 ∧
      P.y ^ 2 ≡ x ^ 3 + ec.a * x + ec.b [ZMOD ec.p] ∧
      ((∀ z, 0 ≤ z → z < ec.p → z ^ 2 ≡ P.y ^ 2 [ZMOD ec.p] → P.y ≤ z) ∨
        ∀ z, 0 ≤ z → z < ec.p → z ^ 2 ≡ P.y ^ 2 [ZMOD ec.p] → (-P.y) % ec.p ≤ z) := by
  have hsq : ∀ y : ℤ, ((-y) % ec.p) ^ 2 ≡ y ^ 2 [ZMOD ec.p] := fun y => by
    have := (Int.mod_modEq (-y) ec.p).pow 2
    rwa [neg_sq] at this
  have hnn : ∀ y : ℤ, 0 ≤ y → y < ec.p → (-((-y) % ec.p)) % ec.p = y := fun y h0 h1 => by
    have h2 : -((-y) % ec.p) ≡ y [ZMOD ec.p] := by
      have := (Int.mod_modEq (-y) ec.p).neg
      rwa [neg_neg] at this
    rw [show (-((-y) % ec.p)) % ec.p = y % ec.p from h2, Int.emod_eq_of_lt h0 h1]
  have hrange : ∀ y : ℤ, 0 ≤ y % ec.p ∧ y % ec.p < ec.p := fun y => ⟨Int.emod_nonneg _ hp.ne', Int.emod_lt_of_pos _ hp⟩
  have hmin : ∀ (q : ℤ → Bool) (y : ℤ), (irange 0 ec.p).find? q = some y → ∀ z, 0 ≤ z → z < ec.p → q z = true → y ≤ z := by
    intro q y hy z h0 h1 hz
    by_contra hlt
    push Not at hlt
    obtain ⟨i, hi, hyi, hbefore⟩ := List.find?_eq_some_iff_getElem.1 hy |>.2
    have hlen : (irange 0 ec.p).length = ec.p.toNat := by simp [irange]
    have hval : ∀ (j : ℕ) (hj : j < (irange 0 ec.p).length), (irange 0 ec.p)[j] = j := by
      intro j hj; simp [irange]
    have hzi : z.toNat < i := by
      have := hval i hi
      rw [hyi] at this
      omega
    have := hbefore z.toNat hzi
    rw [hval _ (by omega), Int.toNat_of_nonneg h0, hz] at this
    simp at this
  unfold ptsAt
  split
  · rename_i hf
    rw [List.find?_eq_none] at hf
    simp only [List.not_mem_nil, false_iff]
    rintro ⟨-, h1, -, h2, -⟩
    have := hf P.y (mem_irange.2 h1)
    simp only [decide_eq_true_eq] at this
    exact this h2
  · rename_i y hf
    have hy := mem_irange.1 (List.mem_of_find?_eq_some hf)
    have hy2 := List.find?_some hf
    simp only [decide_eq_true_eq] at hy2
    have hy2' : y ^ 2 ≡ x ^ 3 + ec.a * x + ec.b [ZMOD ec.p] := hy2
    have hle : ∀ z, 0 ≤ z → z < ec.p → z ^ 2 ≡ x ^ 3 + ec.a * x + ec.b [ZMOD ec.p] → y ≤ z :=
      fun z h0 h1 hz => hmin _ y hf z h0 h1 (decide_eq_true hz)
    have key : P ∈ (if (-y) % ec.p ≠ y then [ECPoint.mk x y 1, ⟨x, (-y) % ec.p, 1⟩] else [⟨x, y, 1⟩]) ↔
        P.x = x ∧ (P.y = y ∨ P.y = (-y) % ec.p) ∧ P.z = 1 := by
      rcases P with ⟨px, py, pz⟩
      split_ifs with hne
      · simp only [List.mem_cons, ECPoint.mk.injEq, List.not_mem_nil, or_false]
        tauto
      · simp only [List.mem_cons, ECPoint.mk.injEq, List.not_mem_nil, or_false]
        push Not at hne
        rw [hne]
        tauto
    rw [key]
    constructor
    · rintro ⟨h1, h2 | h2, h3⟩
      · refine ⟨h1, h2 ▸ hy, h3, h2 ▸ hy2', .inl fun z h0 hz hs => ?_⟩
        rw [h2] at hs ⊢
        exact hle z h0 hz (hs.trans hy2')
      · refine ⟨h1, h2 ▸ hrange _, h3, h2 ▸ (hsq y).trans hy2', .inr fun z h0 hz hs => ?_⟩
        rw [h2] at hs ⊢
        rw [hnn y hy.1 hy.2]
        exact hle z h0 hz (hs.trans ((hsq y).trans hy2'))
    · rintro ⟨h1, h2, h3, h4, h5 | h5⟩
      · refine ⟨h1, .inl ?_, h3⟩
        exact le_antisymm (h5 y hy.1 hy.2 (hy2'.trans h4.symm)) (hle _ h2.1 h2.2 h4)
      · refine ⟨h1, .inr ?_, h3⟩
        have := le_antisymm (h5 y hy.1 hy.2 (hy2'.trans h4.symm))
          (hle _ (hrange _).1 (hrange _).2 ((hsq P.y).trans h4))
        rw [← this, hnn _ h2.1 h2.2]

/-- **C45.**  `create_points` returns for every modulus `p`, prime or not, positive or not.  It appends a list `L` without
duplicates that ends in `O` and in which `x` does not decrease; its affine points are exactly the reduced points `(x, y)` of the
curve such that `y` or `-y mod p` is the least square root of `x³ + ax + b` in `[0, p)`. -/
theorem C45_any_modulus (ec : EllipticCurve) :
    ∃ L, ec.createPoints = .ok { ec with points := ec.points ++ L ++ [⟨0, 1, 0⟩] } ∧ L.Nodup ∧
      L.Pairwise (fun P Q => P.x ≤ Q.x) ∧
      ∀ P : ECPoint, P ∈ L ↔ (0 ≤ P.x ∧ P.x < ec.p) ∧ (0 ≤ P.y ∧ P.y < ec.p) ∧ P.z = 1 ∧
        P.y ^ 2 ≡ P.x ^ 3 + ec.a * P.x + ec.b [ZMOD ec.p] ∧
        ((∀ z, 0 ≤ z → z < ec.p → z ^ 2 ≡ P.y ^ 2 [ZMOD ec.p] → P.y ≤ z) ∨
          ∀ z, 0 ≤ z → z < ec.p → z ^ 2 ≡ P.y ^ 2 [ZMOD ec.p] → (-P.y) % ec.p ≤ z) := by
  by_cases hp : 0 < ec.p
  · refine ⟨(irange 0 ec.p).flatMap ec.ptsAt, createPoints_eq hp, ?_, ?_, fun P => ?_⟩
    · rw [List.nodup_flatMap]
      refine ⟨fun x _ => nodup_ptsAt ec x, (nodup_irange 0 ec.p).imp ?_⟩
      intro x x' hne P h1 h2
      exact hne (((mem_ptsAt_any hp x P).1 h1).1.symm.trans ((mem_ptsAt_any hp x' P).1 h2).1)
    · rw [List.pairwise_flatMap]
      constructor
      · intro x _
        refine List.pairwise_of_forall_mem_list fun P h1 Q h2 => ?_
        rw [((mem_ptsAt_any hp x P).1 h1).1, ((mem_ptsAt_any hp x Q).1 h2).1]
      · have hs : (irange 0 ec.p).Pairwise (· < ·) := by
          unfold irange
          rw [List.pairwise_map]
          exact List.pairwise_lt_range.imp (fun h => by omega)
        refine hs.imp fun {x x'} hlt P h1 Q h2 => ?_
        rw [((mem_ptsAt_any hp x P).1 h1).1, ((mem_ptsAt_any hp x' Q).1 h2).1]
        exact hlt.le
    · simp only [List.mem_flatMap, mem_irange, mem_ptsAt_any hp]
      constructor
      · rintro ⟨x, hx, rfl, h⟩
        exact ⟨hx, h⟩
      · rintro ⟨hx, h⟩
        exact ⟨P.x, hx, rfl, h⟩
  · refine ⟨[], ?_, by simp, by simp, fun P => ?_⟩
    · unfold createPoints
      rw [irange_of_le (by omega)]
      simp [ECPoint.infinity]
    · simp only [List.not_mem_nil, false_iff]
      rintro ⟨⟨h1, h2⟩, -⟩
      omega

/-- **C45.**  With a composite modulus points are missing: on `y² = x³ + 1` modulo 8 the point `(0, 3)` is on the curve and
reduced, and `create_points` does not list it. -/
theorem C45_composite_modulus_refuted : ∃ ec : EllipticCurve, (newRaw 0 1 8).createPoints = .ok ec ∧
    ec.isOnCurve ⟨0, 3, 1⟩ = .ok true ∧ (⟨0, 3, 1⟩ : ECPoint) ∉ ec.points := by
  obtain ⟨L, h, -, -, hm⟩ := C45_any_modulus (newRaw 0 1 8)
  have ho : (newRaw 0 1 8).isOnCurve ⟨0, 3, 1⟩ = .ok true := by decide +kernel
  refine ⟨_, h, ho, ?_⟩
  simp only [List.mem_append, List.mem_singleton]
  rintro ((h | h) | h)
  · simp [newRaw] at h
  · rcases ((hm _).1 h).2.2.2.2 with h | h
    · have := h 1 (by decide) (by decide) (by decide); norm_num at this
    · have := h 1 (by decide) (by decide) (by decide); revert this; decide
  · simp at h

example : (do let ec ← (newRaw 0 1 8).createPoints; Res.ok (ec.points.take 2)) = Res.ok [⟨0, 1, 1⟩, ⟨0, 7, 1⟩] := by decide +kernel
example : (do let ec ← (newRaw 3 4 (-7)).createPoints; Res.ok ec.points) = Res.ok [⟨0, 1, 0⟩] := by decide +kernel

end EC
