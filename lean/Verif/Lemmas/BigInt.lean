import Verif.Model.BigInt
import Verif.Lemmas.Res
import Mathlib.Data.Int.ModEq
import Mathlib.Data.ZMod.Basic
import Mathlib.FieldTheory.Finite.Basic
import Mathlib.Tactic.Ring
import Mathlib.Tactic.LinearCombination

/-! Helper lemmas about `Verif.Model.BigInt`. -/

namespace EC

theorem powLoop_eq (e b r : Int) (he : 1 ≤ e) : powLoop e b r = r * b ^ e.toNat := by
  fun_induction powLoop e b r with
  | case1 e b r h ih =>
    have h2 : e.tdiv 2 = e / 2 := Int.tdiv_eq_ediv_of_nonneg (by omega)
    simp only [h2, dite_eq_ite] at ih ⊢
    rw [ih (by omega)]
    split_ifs with ho
    · have : e.toNat = 2 * (e / 2).toNat + 1 := by omega
      rw [this]; ring
    · have : e.toNat = 2 * (e / 2).toNat := by omega
      rw [this]; ring
  | case2 e b r h =>
    have : e = 1 := by omega
    subst this; simp

theorem powLoop_neg (e b r : Int) (he : e ≤ 1) : powLoop e b r = r * b := by
  rw [powLoop]; simp; omega

theorem power_eq_pow (x n : Int) (hn : 0 ≤ n) : power x n = x ^ n.toNat := by
  unfold power
  split_ifs with h
  · simp [h]
  · rw [powLoop_eq _ _ _ (by omega)]; simp

theorem power_neg (x n : Int) (hn : n < 0) : power x n = x := by
  unfold power
  rw [if_neg (by omega), powLoop_neg _ _ _ (by omega)]; simp

@[simp] theorem power_two (x : Int) : power x 2 = x ^ 2 := power_eq_pow x 2 (by norm_num)
@[simp] theorem power_three (x : Int) : power x 3 = x ^ 3 := power_eq_pow x 3 (by norm_num)

theorem zmod_eq_iff {p : Int} (hp : 0 ≤ p) (a b : Int) :
    (a : ZMod p.toNat) = b ↔ a ≡ b [ZMOD p] := by
  rw [ZMod.intCast_eq_intCast_iff, Int.toNat_of_nonneg hp]

theorem zmod_eq_zero_iff {p : Int} (hp : 0 ≤ p) (a : Int) :
    (a : ZMod p.toNat) = 0 ↔ p ∣ a := by
  rw [ZMod.intCast_zmod_eq_zero_iff_dvd, Int.toNat_of_nonneg hp]

theorem zmod_emod {p : Int} (hp : 0 ≤ p) (a : Int) : ((a % p : Int) : ZMod p.toNat) = a :=
  (zmod_eq_iff hp _ _).2 (Int.mod_modEq a p)

theorem powModLoop_eq (p e b r : Int) (hp : 0 < p) (he : 1 ≤ e) :
    powModLoop p e b r = .ok ((r * b ^ e.toNat) % p) := by
  induction hn : e.toNat using Nat.strong_induction_on generalizing e b r with
  | _ n ih =>
    subst hn
    rw [powModLoop]
    by_cases h : e > 1
    · have h2 : e.tdiv 2 = e / 2 := Int.tdiv_eq_ediv_of_nonneg (by omega)
      simp only [modFloor_of hp.ne', fmod_pos_eq hp, h2, h, if_true]
      have ih' := fun b r => ih (e / 2).toNat (by omega) (e / 2) b r (by omega) rfl
      split_ifs with ho
      · have hh : e.toNat = 2 * (e / 2).toNat + 1 := by omega
        simp only [Res.ok_bind]
        rw [ih', hh]
        congr 1
        have e1 : (r * b % p) * (b * b % p) ^ (e / 2).toNat ≡ (r * b) * (b * b) ^ (e / 2).toNat [ZMOD p] :=
          (Int.mod_modEq _ _).mul ((Int.mod_modEq _ _).pow _)
        rw [e1.eq]; ring_nf
      · have hh : e.toNat = 2 * (e / 2).toNat := by omega
        simp only [Res.ok_bind]
        rw [ih', hh]
        congr 1
        have e1 : r * (b * b % p) ^ (e / 2).toNat ≡ r * (b * b) ^ (e / 2).toNat [ZMOD p] :=
          (Int.ModEq.refl _).mul ((Int.mod_modEq _ _).pow _)
        rw [e1.eq]; ring_nf
    · have : e = 1 := by omega
      subst this; simp [modFloor_of hp.ne', fmod_pos_eq hp]

theorem powModLoop_zero (e b r : Int) : powModLoop 0 e b r = .panic .divByZero := by
  rw [powModLoop]
  by_cases h : e > 1
  · simp only [h, if_true]
    split_ifs <;> simp [modFloor]
  · simp [h, modFloor]

theorem powerModulo_pos (x n p : Int) (hp : 0 < p) (hn : 1 ≤ n) :
    powerModulo x n p = .ok (x ^ n.toNat % p) := by
  unfold powerModulo
  rw [if_neg (by omega), powModLoop_eq _ _ _ _ hp hn]; simp

/-- `inverse` on a modulus at least 2: an explicit power. -/
theorem inverse_eq (x p : Int) (hp : 2 ≤ p) :
    inverse x p = .ok (x ^ (p - 2).toNat % p) := by
  unfold inverse
  simp only [ge_iff_le, hp, decide_true, rassert_true, Res.ok_bind]
  by_cases h2 : p = 2
  · subst h2; simp [powerModulo]
  · exact powerModulo_pos _ _ _ (by omega) (by omega)

theorem inverse_lt_two (x p : Int) (hp : p < 2) : inverse x p = .panic .assertion := by
  unfold inverse
  have : decide (p ≥ 2) = false := by simp; omega
  rw [this]; rfl

/-- Existence of the residue computed by `inverse`, its range and its image in `ZMod p`. -/
theorem inverse_spec (x p : Int) (hp : Nat.Prime p.toNat) :
    ∃ r, inverse x p = .ok r ∧ 0 ≤ r ∧ r < p ∧
      (p = 2 → r = 1) ∧ ((x : ZMod p.toNat) ≠ 0 ∨ p ≠ 2 → (r : ZMod p.toNat) = (x : ZMod p.toNat)⁻¹) := by
  have hp2 : 2 ≤ p := by have := hp.two_le; omega
  refine ⟨_, inverse_eq x p hp2, Int.emod_nonneg _ (by omega), Int.emod_lt_of_pos _ (by omega), ?_, ?_⟩
  · rintro rfl; simp
  · intro hx
    have : Fact (Nat.Prime p.toNat) := ⟨hp⟩
    have hpc : ((p.toNat : ℕ) : Int) = p := by omega
    have h1 : ((x ^ (p - 2).toNat % p : Int) : ZMod p.toNat) = (x : ZMod p.toNat) ^ (p - 2).toNat := by
      have := ZMod.intCast_mod (x ^ (p - 2).toNat) p.toNat
      rw [hpc] at this
      rw [this]; push_cast; rfl
    rw [h1]
    by_cases h0 : (x : ZMod p.toNat) = 0
    · have : p ≠ 2 := by simpa [h0] using hx
      rw [h0, inv_zero, zero_pow]; omega
    · rw [eq_comm, inv_eq_iff_eq_inv, eq_comm, inv_eq_of_mul_eq_one_left]; rw [mul_comm, ← pow_succ]
      have : (p - 2).toNat + 1 = p.toNat - 1 := by omega
      rw [this]; exact ZMod.pow_card_sub_one_eq_one h0

theorem extendedGcd_spec (a b : Int) :
    let r := extendedGcd a b
    a * r.2.1 + b * r.2.2 = r.1 ∧ r.1.natAbs = Int.gcd a b ∧ (0 ≤ a → 0 ≤ b → 0 ≤ r.1) := by
  fun_induction extendedGcd a b with
  | case1 b => simp
  | case2 a b h r q g x y heq ih =>
    simp only [heq] at ih
    obtain ⟨h1, h2, h3⟩ := ih
    refine ⟨?_, ?_, ?_⟩
    · have : b = a * q + r := by simp only [q, r]; exact (Int.mul_tdiv_add_tmod b a).symm
      simp only
      rw [this]; linear_combination h1
    · simp only
      rw [h2]
      simp only [r]
      rw [Int.gcd_eq_natAbs_gcd_natAbs, Int.natAbs_tmod, Int.gcd_eq_natAbs_gcd_natAbs,
        ← Nat.gcd_rec]
    · intro ha hb
      exact h3 (Int.tmod_nonneg _ hb) ha

theorem crtStep_l (acc res : ModResult) : (crtStep acc res).l = acc.l * res.l := rfl

theorem foldl_crtStep (rs : List ModResult) (acc : ModResult)
    (hpw : rs.Pairwise (fun s t => IsCoprime s.l t.l)) (hc : ∀ s ∈ rs, IsCoprime acc.l s.l)
    (hpos : ∀ s ∈ rs, 0 < s.l) (hl : 0 < acc.l) :
    (rs.foldl crtStep acc).l = acc.l * (rs.map (·.l)).prod ∧
    (rs.foldl crtStep acc).r ≡ acc.r [ZMOD acc.l] ∧
    ∀ s ∈ rs, (rs.foldl crtStep acc).r ≡ s.r [ZMOD s.l] := by
  induction rs generalizing acc with
  | nil => simp [Int.ModEq.refl]
  | cons s t ih =>
    rw [List.pairwise_cons] at hpw
    have hc' : ∀ u ∈ t, IsCoprime (crtStep acc s).l u.l := by
      intro u hu
      rw [crtStep_l]
      exact (hc u (by simp [hu])).mul_left (hpw.1 u hu)
    obtain ⟨h1, h2, h3⟩ := ih (crtStep acc s) hpw.2 hc' (fun u hu => hpos u (by simp [hu]))
      (by rw [crtStep_l]; exact mul_pos hl (hpos s (by simp)))
    rw [crtStep_l] at h1 h2
    have hr1 : (crtStep acc s).r ≡ acc.r [ZMOD acc.l] := by
      simp only [crtStep]
      exact (Int.modEq_iff_dvd.2 ⟨-((s.r - acc.r) * (extendedGcd acc.l s.l).2.1), by ring⟩)
    have hr2 : (crtStep acc s).r ≡ s.r [ZMOD s.l] := by
      obtain ⟨e1, e2, e3⟩ := extendedGcd_spec acc.l s.l
      have hg : IsCoprime acc.l s.l := hc s (by simp)
      have hgc : Int.gcd acc.l s.l = 1 := Int.isCoprime_iff_gcd_eq_one.1 hg
      rw [hgc] at e2
      have hg1 : (extendedGcd acc.l s.l).1 = 1 := by
        have := e3 hl.le (hpos s (by simp)).le
        omega
      rw [hg1] at e1
      simp only [crtStep]
      refine (Int.modEq_iff_dvd.2 ⟨(s.r - acc.r) * (extendedGcd acc.l s.l).2.2, ?_⟩)
      linear_combination (-(s.r - acc.r)) * e1
    refine ⟨by simp [h1, mul_assoc], ?_, ?_⟩
    · exact (h2.of_mul_right _).trans hr1
    · intro u hu
      rcases List.mem_cons.1 hu with rfl | hu
      · exact (h2.of_mul_left _).trans hr2
      · exact h3 u hu

end EC
