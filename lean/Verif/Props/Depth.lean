import Verif.Model.Depth
import Verif.Lemmas.Psi
import Mathlib.Data.Nat.Size

/-! Properties C04 and C32: how deeply `extended_gcd` and `psi` nest. -/

namespace EC

private theorem depth_step (a b : ℤ) (ha : a ≠ 0) (d : ℕ) : extendedGcdDepth d (b.tmod a) a = some (extendedGcd (b.tmod a) a) →
    extendedGcdDepth (d + 1) a b = some (extendedGcd a b) := by
  intro h
  rw [extendedGcdDepth, if_neg ha, h]
  conv_rhs => rw [extendedGcd, if_neg ha]
  rfl

/-- C04: `extended_gcd(a, b)` nests at most twice as deep as `a` has binary digits, plus one. -/
theorem C04_depth (a b : ℤ) (d : ℕ) (hd : 2 * a.natAbs.size + 1 ≤ d) :
    extendedGcdDepth d a b = some (extendedGcd a b) := by
  induction hm : a.natAbs using Nat.strong_induction_on generalizing a b d with
  | _ m ih =>
    subst hm
    obtain ⟨d, rfl⟩ : ∃ k, d = k + 1 := ⟨d - 1, by omega⟩
    by_cases ha : a = 0
    · subst ha; rw [extendedGcdDepth, if_pos rfl, extendedGcd, if_pos rfl]
    apply depth_step a b ha
    have hs : 1 ≤ a.natAbs.size := Nat.size_pos.2 (by omega)
    obtain ⟨d, rfl⟩ : ∃ k, d = k + 1 := ⟨d - 1, by omega⟩
    by_cases hr : b.tmod a = 0
    · rw [hr, extendedGcdDepth, if_pos rfl, extendedGcd, if_pos rfl]
    apply depth_step _ _ hr
    have h1 : (b.tmod a).natAbs < a.natAbs := by
      rw [Int.natAbs_tmod]; exact Nat.mod_lt _ (by omega)
    have h2 : (a.tmod (b.tmod a)).natAbs < (b.tmod a).natAbs := by
      rw [Int.natAbs_tmod]; exact Nat.mod_lt _ (by omega)
    have h3 : 2 * (a.tmod (b.tmod a)).natAbs < a.natAbs := by
      rw [Int.natAbs_tmod] at h2 ⊢
      have := Nat.mod_add_div a.natAbs (b.tmod a).natAbs
      have hq : 1 ≤ a.natAbs / (b.tmod a).natAbs := Nat.div_pos h1.le (by omega)
      nlinarith
    have h4 : (a.tmod (b.tmod a)).natAbs.size + 1 ≤ a.natAbs.size := by
      obtain ⟨k, hk⟩ : ∃ k, a.natAbs.size = k + 1 := ⟨a.natAbs.size - 1, by omega⟩
      have h5 := Nat.size_le.1 hk.le
      rw [pow_succ] at h5
      have : (a.tmod (b.tmod a)).natAbs.size ≤ k := Nat.size_le.2 (by omega)
      omega
    exact ih _ (by omega) _ _ d (by omega) rfl

example : extendedGcdDepth 9 46 240 = some (2, 47, -9) ∧ extendedGcdDepth 4 46 240 = none := by decide +kernel
example := C04_depth 46 240 13 (by decide +kernel)

private theorem psiDepth_small (a b n : ℤ) (d : ℕ) (hn : n ≤ 4) : psiDepth a b (d + 1) n = psi a b n := by
  rw [psiDepth, psi]
  by_cases h0 : 0 ≤ n
  swap
  · rw [show decide (n ≥ 0) = false by simpa using h0]
    rfl
  obtain rfl | rfl | rfl | rfl | rfl : n = 0 ∨ n = 1 ∨ n = 2 ∨ n = 3 ∨ n = 4 := by omega
  all_goals rfl

private theorem psiDepth_odd (a b m : ℤ) (d : ℕ) (hm : 2 ≤ m) : psiDepth a b (d + 1) (2 * m + 1) = (do
    let e ← psiDepth a b d (m + 2)
    let f ← (← psiDepth a b d m).power 3
    let g ← psiDepth a b d (m - 1)
    let h ← (← psiDepth a b d (m + 1)).power 3
    ((← e.mul f).sub (← g.mul h)).reduction a b) := by
  rw [psiDepth]
  have h1 : decide (2 * m + 1 ≥ 0) = true := by simp; omega
  have h2 : Int.fmod (2 * m + 1) 2 = 1 := by rw [Int.fmod_eq_emod_of_nonneg _ (by norm_num)]; omega
  have h3 : Int.fdiv (2 * m + 1 - 1) 2 = m := by rw [Int.fdiv_eq_ediv_of_nonneg _ (by norm_num)]; omega
  have h4 : decide (m < 2 * m + 1) = true := by simp; omega
  rw [h1, if_neg (by omega), if_neg (by omega), if_neg (by omega), if_neg (by omega), if_neg (by omega),
    if_neg (by omega), if_pos h2, h3]
  simp only [h4, rassert_true, Res.ok_bind]

private theorem psiDepth_even (a b m : ℤ) (d : ℕ) (hm : 3 ≤ m) : psiDepth a b (d + 1) (2 * m) = (do
    let e ← psiDepth a b d (m + 2)
    let f ← (← psiDepth a b d (m - 1)).power 2
    let g ← psiDepth a b d (m - 2)
    let h ← (← psiDepth a b d (m + 1)).power 2
    let i ← (← psiDepth a b d m).mul ((← e.mul f).sub (← g.mul h))
    let j ← i.divTerm ((TermBuilder.new.coef 2).ypow 1).build
    j.reduction a b) := by
  rw [psiDepth]
  have h1 : decide (2 * m ≥ 0) = true := by simp; omega
  have h2 : ¬ Int.fmod (2 * m) 2 = 1 := by rw [Int.fmod_eq_emod_of_nonneg _ (by norm_num)]; omega
  have h3 : Int.fdiv (2 * m) 2 = m := by rw [Int.fdiv_eq_ediv_of_nonneg _ (by norm_num)]; omega
  have h4 : decide (m < 2 * m) = true := by simp; omega
  rw [h1, if_neg (by omega), if_neg (by omega), if_neg (by omega), if_neg (by omega), if_neg (by omega),
    if_neg (by omega), if_neg h2, h3]
  simp only [h4, rassert_true, Res.ok_bind]

/-- C32: for `n ≤ 2^k + 4`, `psi(a, b, n)` nests at most `k + 2` deep (so at most 18 deep for any `n` for which it
returns, as C32 shows that these are at most 65536). -/
theorem C32_psi_depth (a b n : ℤ) (k d : ℕ) (hn : n ≤ 2 ^ k + 4) (hd : k + 2 ≤ d) : psiDepth a b d n = psi a b n := by
  induction k generalizing n d with
  | zero =>
    obtain ⟨d, rfl⟩ : ∃ e, d = e + 2 := ⟨d - 2, by omega⟩
    rw [pow_zero] at hn
    rcases (by omega : n ≤ 4 ∨ n = 2 * 2 + 1) with h | rfl
    · exact psiDepth_small a b n _ h
    · rw [psiDepth_odd _ _ _ _ (by norm_num), psi_odd _ _ _ (by norm_num), psiDepth_small _ _ _ _ (by norm_num),
        psiDepth_small _ _ _ _ (by norm_num), psiDepth_small _ _ _ _ (by norm_num), psiDepth_small _ _ _ _ (by norm_num)]
  | succ k ih =>
    obtain ⟨d, rfl⟩ : ∃ e, d = e + 1 := ⟨d - 1, by omega⟩
    rw [pow_succ] at hn
    by_cases h4 : n ≤ 4
    · exact psiDepth_small a b n _ h4
    rcases Int.even_or_odd' n with ⟨m, rfl | rfl⟩
    swap
    · have hm : 2 ≤ m := by omega
      rw [psiDepth_odd _ _ _ _ hm, psi_odd _ _ _ hm, ih (m + 2) d (by omega) (by omega), ih m d (by omega) (by omega),
        ih (m - 1) d (by omega) (by omega), ih (m + 1) d (by omega) (by omega)]
    · have hm : 3 ≤ m := by omega
      rw [psiDepth_even _ _ _ _ hm, psi_even _ _ _ hm, ih (m + 2) d (by omega) (by omega), ih m d (by omega) (by omega),
        ih (m - 1) d (by omega) (by omega), ih (m + 1) d (by omega) (by omega), ih (m - 2) d (by omega) (by omega)]

example := C32_psi_depth 6 2 65536 16 18 (by norm_num) (by norm_num)
example : psiDepth 6 2 1 5 = .timeout := by decide +kernel

end EC
