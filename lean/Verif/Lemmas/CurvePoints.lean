import Verif.Lemmas.CurveMul

/-! Lemmas about `create_points` (`/repo/src/elliptic_curve.rs`). -/

namespace EC
open Poly WeierstrassCurve

namespace EllipticCurve

variable {ec : EllipticCurve}

theorem negate_affine (hp : 0 < ec.p) {P : ECPoint} (hz : P.z ≠ 0) :
    ec.negate P = .ok ⟨P.x, (-P.y) % ec.p, P.z⟩ := by
  have i1 : P.isInfinity = false := by simp [ECPoint.isInfinity, hz]
  unfold negate
  simp only [i1, Bool.false_eq_true, if_false, modFloor_of hp.ne', fmod_pos_eq hp, Res.ok_bind]

theorem negate_inf {P : ECPoint} (hz : P.z = 0) : ec.negate P = .ok P := by
  have i1 : P.isInfinity = true := by simp [ECPoint.isInfinity, hz]
  unfold negate
  simp only [i1, if_true]

theorem findY_eq (hp : 0 < ec.p) (c : ℤ) (l : List ℤ) :
    ec.findY c l = .ok (l.find? (fun y => decide (y ^ 2 % ec.p = c))) := by
  induction l with
  | nil => rfl
  | cons y t ih =>
    have h2 : power y 2 = y ^ 2 := power_eq_pow y 2 (by norm_num)
    simp only [findY, modFloor_of hp.ne', fmod_pos_eq hp, Res.ok_bind, h2, ih]
    by_cases h : y ^ 2 % ec.p = c <;> simp [h]

/-- The points `create_points` pushes for one `x`. -/
def ptsAt (ec : EllipticCurve) (x : ℤ) : List ECPoint :=
  match (irange 0 ec.p).find? (fun y => decide (y ^ 2 % ec.p = (x ^ 3 + ec.a * x + ec.b) % ec.p)) with
  | none => []
  | some y => if (-y) % ec.p ≠ y then [⟨x, y, 1⟩, ⟨x, (-y) % ec.p, 1⟩] else [⟨x, y, 1⟩]

theorem pointsAt_eq (hp : 0 < ec.p) (x : ℤ) : ec.pointsAt x = .ok (ec.ptsAt x) := by
  unfold pointsAt ptsAt
  have h3 : power x 3 = x ^ 3 := power_eq_pow x 3 (by norm_num)
  simp only [modFloor_of hp.ne', fmod_pos_eq hp, Res.ok_bind, h3, findY_eq hp]
  generalize (irange 0 ec.p).find? (fun y => decide (y ^ 2 % ec.p = (x ^ 3 + ec.a * x + ec.b) % ec.p)) = o
  cases o with
  | none => rfl
  | some y =>
    simp only
    rw [negate_affine hp (by norm_num)]
    simp only [Res.ok_bind, ne_eq, ECPoint.mk.injEq, true_and, and_true]

theorem createPoints_eq (hp : 0 < ec.p) :
    ec.createPoints = .ok { ec with
      points := ec.points ++ (irange 0 ec.p).flatMap ec.ptsAt ++ [ECPoint.infinity] } := by
  unfold createPoints
  have : ∀ (l : List ℤ) (acc : List ECPoint),
      l.foldlM (fun acc x => do .ok (acc ++ (← ec.pointsAt x))) acc = Res.ok (acc ++ l.flatMap ec.ptsAt) := by
    intro l
    induction l with
    | nil => intro acc; simp
    | cons x t ih =>
      intro acc
      rw [List.foldlM_cons, pointsAt_eq hp]
      simp only [Res.ok_bind]
      rw [ih]
      simp
  rw [this]
  rfl

theorem sq_eq_iff {p : ℤ} (hp : Nat.Prime p.toNat) {y z : ℤ} (hy : 0 ≤ y ∧ y < p) (hz : 0 ≤ z ∧ z < p) :
    z ^ 2 % p = y ^ 2 % p ↔ z = y ∨ z = (-y) % p := by
  have hp0 : 0 < p := by have := hp.two_le; omega
  have : Fact (Nat.Prime p.toNat) := ⟨hp⟩
  have e1 : z ^ 2 % p = y ^ 2 % p ↔ (z : ZMod p.toNat) ^ 2 = (y : ZMod p.toNat) ^ 2 := by
    have := (zmod_eq_iff hp0.le (z ^ 2) (y ^ 2)); push_cast at this; exact this.symm
  have e2 : z = y ↔ (z : ZMod p.toNat) = y := by
    rw [zmod_eq_iff hp0.le, Int.ModEq, Int.emod_eq_of_lt hy.1 hy.2, Int.emod_eq_of_lt hz.1 hz.2]
  have e3 : z = (-y) % p ↔ (z : ZMod p.toNat) = -y := by
    have := (zmod_eq_iff hp0.le z (-y)); push_cast at this
    rw [this, Int.ModEq, Int.emod_eq_of_lt hz.1 hz.2]
  rw [e1, e2, e3]
  exact sq_eq_sq_iff_eq_or_eq_neg

theorem mem_ptsAt (hp : Nat.Prime ec.p.toNat) (x : ℤ) (P : ECPoint) :
    P ∈ ec.ptsAt x ↔ P.x = x ∧ (0 ≤ P.y ∧ P.y < ec.p) ∧ P.z = 1 ∧
      P.y ^ 2 ≡ x ^ 3 + ec.a * x + ec.b [ZMOD ec.p] := by
  have hp0 : 0 < ec.p := by have := hp.two_le; omega
  unfold ptsAt
  split
  · rename_i hf
    rw [List.find?_eq_none] at hf
    simp only [List.not_mem_nil, false_iff]
    rintro ⟨-, h1, -, h2⟩
    have := hf P.y (mem_irange.2 h1)
    simp only [decide_eq_true_eq] at this
    exact this h2
  · rename_i y hf
    have hy := mem_irange.1 (List.mem_of_find?_eq_some hf)
    have hy2 := List.find?_some hf
    simp only [decide_eq_true_eq] at hy2
    have key : P ∈ (if (-y) % ec.p ≠ y then [ECPoint.mk x y 1, ⟨x, (-y) % ec.p, 1⟩] else [⟨x, y, 1⟩]) ↔
        P.x = x ∧ (P.y = y ∨ P.y = (-y) % ec.p) ∧ P.z = 1 := by
      rcases P with ⟨px, py, pz⟩
      split_ifs with hne
      · simp only [List.mem_cons, ECPoint.mk.injEq, List.not_mem_nil, or_false]
        tauto
      · simp only [List.mem_cons, ECPoint.mk.injEq, List.not_mem_nil, or_false]
        push Not at hne
        rw [hne]
        tauto
    rw [key]
    have hn : 0 ≤ (-y) % ec.p ∧ (-y) % ec.p < ec.p := ⟨Int.emod_nonneg _ hp0.ne', Int.emod_lt_of_pos _ hp0⟩
    constructor
    · rintro ⟨h1, h2, h3⟩
      have hr : 0 ≤ P.y ∧ P.y < ec.p := by rcases h2 with h2 | h2 <;> rw [h2] <;> assumption
      refine ⟨h1, hr, h3, ?_⟩
      have := (sq_eq_iff hp hy hr).2 h2
      rw [hy2] at this
      exact this
    · rintro ⟨h1, h2, h3, h4⟩
      refine ⟨h1, (sq_eq_iff hp hy h2).1 ?_, h3⟩
      rw [hy2]; exact h4

theorem nodup_ptsAt (ec : EllipticCurve) (x : ℤ) : (ec.ptsAt x).Nodup := by
  unfold ptsAt
  split
  · simp
  · split_ifs with h
    · simp [Ne.symm h]
    · simp

theorem mem_points (hp : Nat.Prime ec.p.toNat) (P : ECPoint) :
    P ∈ (irange 0 ec.p).flatMap ec.ptsAt ++ [ECPoint.infinity] ↔
      P = ECPoint.infinity ∨ (0 ≤ P.x ∧ P.x < ec.p) ∧ (0 ≤ P.y ∧ P.y < ec.p) ∧ P.z = 1 ∧
      P.y ^ 2 ≡ P.x ^ 3 + ec.a * P.x + ec.b [ZMOD ec.p] := by
  simp only [List.mem_append, List.mem_flatMap, List.mem_singleton, mem_irange, mem_ptsAt hp]
  constructor
  · rintro (⟨x, h1, rfl, h2, h3, h4⟩ | h)
    · exact .inr ⟨h1, h2, h3, h4⟩
    · exact .inl h
  · rintro (h | ⟨h1, h2, h3, h4⟩)
    · exact .inr h
    · exact .inl ⟨P.x, h1, rfl, h2, h3, h4⟩

theorem nodup_points (hp : Nat.Prime ec.p.toNat) :
    ((irange 0 ec.p).flatMap ec.ptsAt ++ [ECPoint.infinity]).Nodup := by
  rw [List.nodup_append]
  refine ⟨?_, by simp, ?_⟩
  · rw [List.nodup_flatMap]
    refine ⟨fun x _ => nodup_ptsAt ec x, ?_⟩
    refine (nodup_irange 0 ec.p).imp ?_
    intro x x' hne P h1 h2
    exact hne (((mem_ptsAt hp x P).1 h1).1.symm.trans ((mem_ptsAt hp x' P).1 h2).1)
  · intro P h1 Q h2 hPQ
    simp only [List.mem_singleton] at h2
    simp only [List.mem_flatMap] at h1
    obtain ⟨x, -, h1⟩ := h1
    have := ((mem_ptsAt hp x P).1 h1).2.2.1
    rw [hPQ, h2] at this
    simp [ECPoint.infinity] at this

theorem points_rep (h : ec.Good) {P : ECPoint} :
    P ∈ (irange 0 ec.p).flatMap ec.ptsAt ++ [ECPoint.infinity] ↔
      P.Canonical ec.p ∧ ∃ Q, ec.Rep P Q := by
  rw [mem_points h.prime, ← isOnCurve_iff_rep h, isOnCurve_eq h.wf h.p_pos, Res.ok.injEq, decide_eq_true_iff]
  unfold ECPoint.Canonical ECPoint.infinity
  constructor
  · rintro (rfl | ⟨h1, h2, h3, h4⟩)
    · exact ⟨.inl rfl, .inl rfl⟩
    · exact ⟨.inr ⟨h1, h2, h3⟩, .inr h4⟩
  · rintro ⟨rfl | ⟨h1, h2, h3⟩, h4⟩
    · exact .inl rfl
    · exact .inr ⟨h1, h2, h3, h4.resolve_left (by omega)⟩

theorem exists_canonical (h : ec.Fair) (Q : ec.W.Point) : ∃ P : ECPoint, P.Canonical ec.p ∧ ec.Rep P Q := by
  have hp := h.p_pos
  have : NeZero ec.p.toNat := ⟨by omega⟩
  have hl : ∀ z : ZMod ec.p.toNat, (0 : ℤ) ≤ z.val ∧ (z.val : ℤ) < ec.p := by
    intro z; have := ZMod.val_lt z; omega
  cases Q with
  | zero => exact ⟨_, .inl rfl, rfl⟩
  | some x y hxy =>
    refine ⟨⟨x.val, y.val, 1⟩, .inr ⟨hl x, hl y, rfl⟩, by norm_num, ?_, ?_⟩
    · simp
    · simp

/-- The listed points are in bijection with the group of rational points. -/
theorem length_points (h : ec.Good) :
    ((irange 0 ec.p).flatMap ec.ptsAt ++ [ECPoint.infinity]).length = Nat.card ec.W.Point := by
  set l := (irange 0 ec.p).flatMap ec.ptsAt ++ [ECPoint.infinity] with hl
  let f : {P // P ∈ l} → ec.W.Point := fun P => ((points_rep h).1 P.2).2.choose
  have hf : ∀ P, ec.Rep P.1 (f P) := fun P => ((points_rep h).1 P.2).2.choose_spec
  have hb : Function.Bijective f := by
    constructor
    · intro P P' hPP
      apply Subtype.ext
      exact canonical_unique h.p_pos (hf P) (hPP ▸ hf P') ((points_rep h).1 P.2).1 ((points_rep h).1 P'.2).1
    · intro Q
      obtain ⟨P, hc, hr⟩ := exists_canonical h Q
      have hm : P ∈ l := (points_rep h).2 ⟨hc, Q, hr⟩
      exact ⟨⟨P, hm⟩, (hf ⟨P, hm⟩).unique hr⟩
  rw [← Nat.card_congr (Equiv.ofBijective f hb), ← Nat.card_congr (nodup_points h.prime).getEquiv, Nat.card_fin]

end EllipticCurve
end EC
