import Verif.Props.AnyModulus
import Mathlib.Data.ZMod.Basic

/-! C86 for `p = 2`: exactly which curves over GF(2) are closed under `plus`. -/

namespace EC

open EllipticCurve

variable {ec : EllipticCurve}

theorem fmod_two (x : ℤ) : ((Int.fmod x 2 : ℤ) : ZMod 2) = x :=
  (ZMod.intCast_eq_intCast_iff _ _ 2).2 (fmod_modEq x 2)

theorem inverse_two (x : ℤ) : inverse x 2 = .ok 1 := by
  rw [inverse_eq x 2 (by norm_num)]
  simp

theorem on_two (hw : ec.WF) (hp : ec.p = 2) (P : ECPoint) (hz : P.z ≠ 0) :
    ec.isOnCurve P = .ok true ↔ (P.y : ZMod 2) ^ 2 = (P.x : ZMod 2) ^ 3 + ec.a * P.x + ec.b := by
  rw [isOnCurve_any hw (by rw [hp]; norm_num), Res.ok.injEq, decide_eq_true_iff, hp]
  have := (ZMod.intCast_eq_intCast_iff (P.y ^ 2) (P.x ^ 3 + ec.a * P.x + ec.b) 2)
  push_cast at this
  rw [this]
  simp [hz]

set_option synthInstance.maxSize 4096 in
set_option synthInstance.maxHeartbeats 400000 in
/-- **C86.**  Over GF(2) `plus` of two points of the curve always returns, and the curve is closed under it exactly if `a` and `b`
are not both odd; if they are, twice a point with even `x` is off the curve and nothing else is. -/
theorem C86_two (hw : ec.WF) (hp : ec.p = 2) :
    (∀ P Q, ec.isOnCurve P = .ok true → ec.isOnCurve Q = .ok true → ∃ R, ec.plus P Q = .ok R ∧
      (ec.isOnCurve R = .ok true ↔ ¬ (P.z ≠ 0 ∧ Q.z ≠ 0 ∧ ec.a % 2 = 1 ∧ ec.b % 2 = 1 ∧ P.x % 2 = 0 ∧ Q.x % 2 = 0))) ∧
    ((∀ P Q R, ec.isOnCurve P = .ok true → ec.isOnCurve Q = .ok true → ec.plus P Q = .ok R → ec.isOnCurve R = .ok true) ↔
      ¬ (ec.a % 2 = 1 ∧ ec.b % 2 = 1)) := by
  have hp0 : ec.p ≠ 0 := by rw [hp]; norm_num
  have odd2 : ∀ n : ℤ, n % 2 = 1 ↔ (n : ZMod 2) = 1 := fun n => by
    have := ZMod.intCast_eq_intCast_iff n 1 2
    push_cast at this
    rw [this, Int.ModEq]
    simp
  have even2 : ∀ n : ℤ, n % 2 = 0 ↔ (n : ZMod 2) = 0 := fun n => by
    have := ZMod.intCast_eq_intCast_iff n 0 2
    push_cast at this
    rw [this, Int.ModEq]
    simp
  have key : ∀ P Q, ec.isOnCurve P = .ok true → ec.isOnCurve Q = .ok true → ∃ R, ec.plus P Q = .ok R ∧
      (ec.isOnCurve R = .ok true ↔ ¬ (P.z ≠ 0 ∧ Q.z ≠ 0 ∧ ec.a % 2 = 1 ∧ ec.b % 2 = 1 ∧ P.x % 2 = 0 ∧ Q.x % 2 = 0)) := by
    intro P Q oP oQ
    by_cases zP : P.z = 0
    · refine ⟨⟨Q.x, Q.y, Q.z⟩, ?_, ?_⟩
      · unfold EllipticCurve.plus
        simp [oP, oQ, rassert_true, ECPoint.isInfinity, zP]
      · simp [zP, oQ]
    by_cases zQ : Q.z = 0
    · refine ⟨⟨P.x, Q.y, Q.z⟩, ?_, ?_⟩
      · unfold EllipticCurve.plus
        simp [oP, oQ, rassert_true, ECPoint.isInfinity, zP, zQ]
      · simp [zQ, isOnCurve, ECPoint.isInfinity]
    have hP := (on_two hw hp P zP).1 oP
    have hQ := (on_two hw hp Q zQ).1 oQ
    rw [plus_formula hp0 zP zQ oP oQ, hp]
    have ex : Int.fmod P.x 2 = Int.fmod Q.x 2 ↔ (P.x : ZMod 2) = Q.x := by
      rw [fmod_eq_iff]; exact (ZMod.intCast_eq_intCast_iff _ _ 2).symm
    have ey : Int.fmod P.y 2 = Int.fmod Q.y 2 ↔ (P.y : ZMod 2) = Q.y := by
      rw [fmod_eq_iff]; exact (ZMod.intCast_eq_intCast_iff _ _ 2).symm
    have ey0 : Int.fmod P.y 2 = 0 ↔ (P.y : ZMod 2) = 0 := by
      rw [fmod_eq_zero_iff, ZMod.intCast_zmod_eq_zero_iff_dvd]; rfl
    simp only [ne_eq, zP, zQ, not_false_eq_true, true_and, odd2, even2, ex, ey, ey0, inverse_two, Res.ok_bind, mul_one]
    by_cases hx : (P.x : ZMod 2) = Q.x
    · rw [if_neg (by simpa using hx)]
      by_cases hy : ¬ (P.y : ZMod 2) = Q.y ∨ (P.y : ZMod 2) = 0
      · rw [if_pos hy]
        refine ⟨_, rfl, ?_⟩
        have h1 : ec.isOnCurve ECPoint.infinity = .ok true := by simp [isOnCurve, ECPoint.isInfinity, ECPoint.infinity]
        rw [h1]
        simp only [true_iff]
        revert hy hx hP hQ
        generalize (P.x : ZMod 2) = x1
        generalize (Q.x : ZMod 2) = x2
        generalize (P.y : ZMod 2) = y1
        generalize (Q.y : ZMod 2) = y2
        generalize (ec.a : ZMod 2) = a
        generalize (ec.b : ZMod 2) = b
        revert x1 x2 y1 y2 a b
        decide
      · rw [if_neg hy]
        refine ⟨_, rfl, ?_⟩
        rw [on_two hw hp _ (by simp), power_eq_pow _ 2 (by norm_num), power_eq_pow _ 2 (by norm_num)]
        simp only [fmod_two]
        push_cast
        simp only [fmod_two]
        revert hy hx hP hQ
        generalize (P.x : ZMod 2) = x1
        generalize (Q.x : ZMod 2) = x2
        generalize (P.y : ZMod 2) = y1
        generalize (Q.y : ZMod 2) = y2
        generalize (ec.a : ZMod 2) = a
        generalize (ec.b : ZMod 2) = b
        revert x1 x2 y1 y2 a b
        decide
    · rw [if_pos hx]
      refine ⟨_, rfl, ?_⟩
      rw [on_two hw hp _ (by simp), power_eq_pow _ 2 (by norm_num)]
      simp only [fmod_two]
      push_cast
      simp only [fmod_two]
      revert hx hP hQ
      generalize (P.x : ZMod 2) = x1
      generalize (Q.x : ZMod 2) = x2
      generalize (P.y : ZMod 2) = y1
      generalize (Q.y : ZMod 2) = y2
      generalize (ec.a : ZMod 2) = a
      generalize (ec.b : ZMod 2) = b
      revert x1 x2 y1 y2 a b
      decide
  refine ⟨key, ?_, ?_⟩
  · rintro h ⟨ha, hb⟩
    have o : ec.isOnCurve ⟨0, 1, 1⟩ = .ok true := by
      rw [on_two hw hp _ (by simp)]
      rw [odd2] at ha hb
      simp [hb]
    obtain ⟨R, hR, hiff⟩ := key _ _ o o
    exact hiff.1 (h _ _ _ o o hR) ⟨by simp, by simp, ha, hb, rfl, rfl⟩
  · intro hn P Q R oP oQ hR
    obtain ⟨R', hR', hiff⟩ := key P Q oP oQ
    rw [hR, Res.ok.injEq] at hR'
    subst hR'
    exact hiff.2 (fun h => hn ⟨h.2.2.1, h.2.2.2.1⟩)

example : (newRaw 1 0 2).plus ⟨0, 0, 1⟩ ⟨1, 0, 1⟩ = .ok ⟨1, 0, 1⟩ := by decide +kernel
example := C86_two (wf_newRaw 3 4 2) rfl

end EC
