import Verif.Props.Order
import Verif.Props.Release
import Mathlib.NumberTheory.LucasLehmer

/-! C08 in the release build: the counter of `variable_from_index` wraps, which gives the right answer for indices from `2^31`
to `2^32` too; for `p = i32::MAX` (a prime) the converter has no variables. -/

namespace EC
namespace Converter

private theorem findW {l : List (ℤ × ℤ)} (k m : ℕ) (hk : k < 4294967296) :
    findVariableW (wrap32 ((m : ℤ) + k)) l (wrap32 m) =
      if h : k < l.length then .ok { i := l[k].1, j := l[k].2, empty := false } else .panic .explicit := by
  induction l generalizing k m with
  | nil => simp [findVariableW]
  | cons a t ih =>
    obtain ⟨x, y⟩ := a
    rw [findVariableW]
    cases k with
    | zero => rw [if_pos (by simp)]; simp
    | succ k =>
      rw [if_neg (by unfold wrap32; omega), wrp, Res.ok_bind]
      have h1 : wrap32 (wrap32 (m : ℤ) + 1) = wrap32 ((m + 1 : ℕ) : ℤ) := by unfold wrap32; push_cast; omega
      have h2 : (m : ℤ) + ((k + 1 : ℕ) : ℤ) = ((m + 1 : ℕ) : ℤ) + (k : ℕ) := by push_cast; ring
      rw [h1, h2, ih k (m + 1) (by omega)]
      by_cases h : k < t.length
      · rw [dif_pos h, dif_pos (by simpa using h)]; simp
      · rw [dif_neg h, dif_neg (by simpa using h)]

private theorem findW' {l : List (ℤ × ℤ)} (k : ℕ) (hk : k < 4294967296) (t : ℤ) (ht : t = wrap32 (((0 : ℕ) : ℤ) + k)) :
    findVariableW t l 0 =
      if h : k < l.length then .ok { i := l[k].1, j := l[k].2, empty := false } else .panic .explicit := by
  have h0 : (0 : ℤ) = wrap32 ((0 : ℕ) : ℤ) := by decide
  rw [← findW k 0 hk, ht]
  exact congrArg _ h0

end Converter

/-- C08, release build, exactly what `variable_from_index` does for every `P` and every index `k`: it truncates `k` to its
lowest 32 bits and returns the variable with that index, or panics if there is none.  (A dev build panics already from
`2^31` on.) -/
theorem C08_release_exact (P k : ℕ) (hP : P < 2147483647) :
    (k % 4294967296 < (P + 1) * (P + 2) / 2 → ∃ i j : ℤ, 0 ≤ i ∧ i ≤ j ∧ j ≤ P ∧
      Converter.variableFromIndexW { p := P } k = .ok { i := i, j := j, empty := false } ∧
      Converter.indexFromVariableW { p := P } { i := i, j := j, empty := false } = .ok (some (k % 4294967296))) ∧
    (¬ k % 4294967296 < (P + 1) * (P + 2) / 2 → Converter.variableFromIndexW { p := P } k = .panic .explicit) := by
  have hlen := Converter.length_visits P
  have hv : ({ p := P } : Converter).visitsW = ({ p := P } : Converter).visits :=
    Converter.visitsW_of ⟨by show _ ≤ (P : ℤ) + 1; omega, by show (P : ℤ) + 1 ≤ _; omega⟩
  have ha : Converter.asI32 k = wrap32 (((0 : ℕ) : ℤ) + (k % 4294967296 : ℕ)) := by
    unfold Converter.asI32 wrap32; simp only; split_ifs <;> omega
  have hK : k % 4294967296 < 4294967296 := by omega
  generalize k % 4294967296 = K at ha hK ⊢
  have hf := Converter.findW' (l := ({ p := P } : Converter).visits) K hK (Converter.asI32 k) ha
  have hfw : Converter.variableFromIndexW { p := P } k =
      Converter.findVariableW (Converter.asI32 k) ({ p := P } : Converter).visits 0 := by
    unfold Converter.variableFromIndexW; rw [hv]
  rw [hfw, hf]
  constructor
  · intro h
    have hk' : K < ({ p := P } : Converter).visits.length := by omega
    have hmem := List.getElem_mem hk'
    obtain ⟨i, j, hw⟩ : ∃ i j, ({ p := P } : Converter).visits[K] = (i, j) := ⟨_, _, rfl⟩
    rw [hw, Converter.mem_visits] at hmem
    refine ⟨i, j, hmem.1, hmem.2.1, hmem.2.2, ?_, ?_⟩
    · rw [dif_pos hk', hw]
    · have h3 := Converter.findIndex_eq (Converter.nodup_visits _) hk' hw 0
      rw [Nat.zero_add] at h3
      generalize ({ p := P } : Converter) = c at hv h3 ⊢
      unfold Converter.indexFromVariableW
      rw [if_neg (by simp), hv]
      simp only [h3]
  · intro h
    exact dif_neg (by rw [hlen]; exact h)

/-- C08, release build: every index below the count and below `2^32` gives a variable that `index_from_variable` maps back to
it; so the round trip that a dev build fails (`C08_index_roundtrip_refuted`) holds up to `2^32`. -/
theorem C08_release_roundtrip (P k : ℕ) (hP : P < 2147483647) (hk : k < (P + 1) * (P + 2) / 2) (hk' : k < 4294967296) :
    ∃ v, Converter.variableFromIndexW { p := P } k = .ok v ∧
      Converter.indexFromVariableW { p := P } v = .ok (some k) := by
  have h := (C08_release_exact P k hP).1
  rw [Nat.mod_eq_of_lt hk'] at h
  obtain ⟨i, j, -, -, -, h1, h2⟩ := h hk
  exact ⟨_, h1, h2⟩

example : ∃ v, Converter.variableFromIndexW { p := (65537 : ℕ) } 2147483648 = .ok v ∧
    Converter.indexFromVariableW { p := (65537 : ℕ) } v = .ok (some 2147483648) :=
  C08_release_roundtrip 65537 2147483648 (by norm_num) (by norm_num) (by norm_num)

/-- C08 is false of the release build for the prime `i32::MAX`: `p + 1` wraps, so the converter counts no variables, finds
no index and no variable. -/
theorem C08_release_refuted :
    Converter.new 2147483647 = .ok { p := 2147483647 } ∧
    Converter.countW { p := 2147483647 } = .ok 0 ∧
    (∀ i j, Converter.indexFromVariableW { p := 2147483647 } { i := i, j := j, empty := false } = .panic .explicit) ∧
    ∀ k, Converter.variableFromIndexW { p := 2147483647 } k = .panic .explicit := by
  have hv : ({ p := 2147483647 } : Converter).visitsW = [] := by
    unfold Converter.visitsW
    simp only
    rw [show wrap32 (2147483647 + 1) = -2147483648 by decide, irange_of_le (by norm_num)]
    rfl
  have hpr : Nat.Prime (2147483647 : ℤ).toNat := by
    have h : Nat.Prime (mersenne 31) := lucas_lehmer_sufficiency 31 (by norm_num) (by norm_num)
    have h31 : mersenne 31 = 2147483647 := by norm_num [mersenne]
    rw [h31] at h
    exact h
  refine ⟨(C08_new _).1 hpr, ?_, fun i j => ?_, fun k => ?_⟩
  · unfold Converter.countW; rw [hv]; rfl
  · unfold Converter.indexFromVariableW
    simp only [Bool.false_eq_true, if_false]
    rw [hv]; rfl
  · unfold Converter.variableFromIndexW; rw [hv]; rfl

end EC
