import Verif.Props.QSeries
import Verif.Props.BigInt
import Verif.Props.Release

/-! C06, C33–C36 in the release build: `order + 1` wraps for the largest `i32`, the loops are empty, and the functions return
wrong answers where a dev build panics. -/

namespace EC
open Poly PowerSeries

/-- C06, release build: the exact result for every argument that is an `i32`; the largest is treated like 0. -/
theorem C06_release (n k : ℕ) (hn : 1 ≤ n) (hb : n ≤ 2147483647) :
    sigmaDivisorW n k = .ok (if n = 2147483647 then 0 else (ArithmeticFunction.sigma k n : ℕ)) := by
  by_cases h : n = 2147483647
  · subst h
    rw [if_pos rfl]
    unfold sigmaDivisorW
    rw [if_neg (by omega), if_neg (by omega)]
    show Res.ok _ = Res.ok _
    rw [show wrap32 (((2147483647 : ℕ) : ℤ) + 1) = -2147483648 by decide, irange_of_le (by norm_num)]
    rfl
  · have h1 := C06_sigma_divisor n k hn (by omega)
    rw [if_neg h, (C36_release n k).1 (by rw [h1]; exact (nomatch ·)), h1]

/-- C06 is false of the release build: the divisor sum of `i32::MAX` (a prime) is not 0. -/
theorem C06_release_refuted (k : ℕ) :
    sigmaDivisorW 2147483647 k = .ok 0 ∧ ArithmeticFunction.sigma k 2147483647 ≠ 0 := by
  refine ⟨by simpa using C06_release 2147483647 k (by norm_num) le_rfl, ?_⟩
  rw [ArithmeticFunction.sigma_apply]
  have : 0 < ∑ d ∈ Nat.divisors 2147483647, d ^ k :=
    Finset.sum_pos (fun d hd => Nat.pow_pos (Nat.pos_of_mem_divisors hd)) ⟨1, by simp⟩
  omega

/-- C33, release build: truncation of the Eisenstein series for every order below the largest `i32`; for that one the result
is 1, which is not the truncation. -/
theorem C33_release (N : ℤ) (hN : 0 ≤ N) (hN' : N ≤ 2147483647) :
    ∃ f, eisenstein4W N = .ok f ∧ (IsTrunc N seriesE4 f ↔ N ≠ 2147483647) := by
  by_cases h : N = 2147483647
  · subst h
    refine ⟨Poly.one, ?_, fun h => ?_, fun h => absurd rfl h⟩
    · unfold eisenstein4W
      rw [wrp, show wrap32 (2147483647 + 1) = -2147483648 by decide, Res.ok_bind, irange_of_le (by norm_num)]
      rfl
    · have h1 := h.2 1
      rw [if_pos (by norm_num), seriesE4, coeff_mk] at h1
      revert h1
      rw [show Poly.one.coef { x := 0, y := 0, q := ((1 : ℕ) : ℤ), v := none } = 0 by decide +kernel]
      simp
  · obtain ⟨f, hf, ht⟩ := C33_eisenstein4 N hN (by omega)
    exact ⟨f, by rw [(C36_release N 0).2.1 (by rw [hf]; exact (nomatch ·)), hf], fun _ => h, fun _ => ht⟩

/-- C34, C35, release build: for the largest `i32` both functions return 1, which is neither the truncated product nor its
inverse. -/
theorem C34_release_refuted :
    delta1W 2147483647 = .ok Poly.one ∧ ¬ IsTrunc 2147483647 seriesDelta Poly.one ∧
    delta1InverseW 2147483647 = .ok Poly.one ∧ ¬ IsTrunc 2147483647 (invOfUnit seriesDelta 1) Poly.one := by
  have hw : wrap32 (2147483647 + 1) = -2147483648 := by decide
  have hd : delta1W 2147483647 = .ok Poly.one := by
    unfold delta1W
    rw [wrp, hw, Res.ok_bind, irange_of_le (by norm_num)]
    rfl
  have h0 : Poly.one.coef { x := 0, y := 0, q := ((1 : ℕ) : ℤ), v := none } = 0 := by decide +kernel
  refine ⟨hd, fun h => ?_, ?_, fun h => ?_⟩
  · obtain ⟨f, hf, ht⟩ := C34_delta1 1 (by norm_num) (by norm_num)
    have e : (delta1 1 >>= fun f => .ok (f.coef { x := 0, y := 0, q := ((1 : ℕ) : ℤ), v := none })) = .ok (-24) := by
      decide +kernel
    rw [hf, Res.ok_bind] at e
    have h1 := h.2 1
    have h2 := ht.2 1
    rw [if_pos (by norm_num), h0] at h1
    rw [if_pos (by norm_num), Res.ok.inj e, ← h1] at h2
    norm_num at h2
  · unfold delta1InverseW
    rw [hd, Res.ok_bind, wrp, hw, Res.ok_bind, irange_of_le (by norm_num)]
    rfl
  · obtain ⟨f, hf, ht, -⟩ := C35_delta1_inverse 1 (by norm_num) (by norm_num)
    have e : (delta1Inverse 1 >>= fun f => .ok (f.coef { x := 0, y := 0, q := ((1 : ℕ) : ℤ), v := none })) = .ok 24 := by
      decide +kernel
    rw [hf, Res.ok_bind] at e
    have h1 := h.2 1
    have h2 := ht.2 1
    rw [if_pos (by norm_num), h0] at h1
    rw [if_pos (by norm_num), Res.ok.inj e, ← h1] at h2
    norm_num at h2

/-- C36, release build: for the largest `i32` as order, `j_invariant1` and `j_invariant` return 0: even the pole of `j` is lost. -/
theorem C36_release_refuted :
    (∃ f, jInvariant1W 2147483647 = .ok f ∧ f.entries = [] ∧ ¬ IsTrunc 2147483647 seriesJ1 f) ∧
    ∃ f, jInvariantQW 2147483647 = .ok f ∧ f.entries = [] := by
  have hw : wrap32 (2147483647 + 1) = -2147483648 := by decide
  have he : eisenstein4W 2147483647 = .ok Poly.one := by
    unfold eisenstein4W
    rw [wrp, hw, Res.ok_bind, irange_of_le (by norm_num)]
    rfl
  have e1 : (do
      let e4 ← Poly.one.powerW 3
      let e4 ← e4.omitHighOrderQW 2147483647
      let j ← Poly.one.mulW e4
      j.omitHighOrderQW 2147483647) = .ok Poly.new := by decide +kernel
  have hj : jInvariant1W 2147483647 = .ok Poly.new := by
    unfold jInvariant1W
    rw [C34_release_refuted.2.2.1, he]
    exact e1
  refine ⟨⟨_, hj, rfl, fun h => ?_⟩, ?_⟩
  · obtain ⟨f, hf, ht, -⟩ := C36_j_invariant1 0 (by norm_num) (by norm_num)
    have e : (jInvariant1 0 >>= fun f => .ok (f.coef { x := 0, y := 0, q := ((0 : ℕ) : ℤ), v := none })) = .ok 1 := by
      decide +kernel
    rw [hf, Res.ok_bind] at e
    have h1 := h.2 0
    have h2 := ht.2 0
    rw [if_pos (by norm_num)] at h1
    rw [if_pos (by norm_num), Res.ok.inj e, ← h1] at h2
    exact absurd h2 (by decide +kernel)
  · have hw2 : wrap32 (-2147483648 + 1) = -2147483647 := by decide
    have hd : delta1InverseW (-2147483648) = .ok Poly.one := by
      unfold delta1InverseW delta1W
      rw [wrp, hw2, Res.ok_bind, irange_of_le (by norm_num)]
      rfl
    have he' : eisenstein4W (-2147483648) = .ok Poly.one := by
      unfold eisenstein4W
      rw [wrp, hw2, Res.ok_bind, irange_of_le (by norm_num)]
      rfl
    have e2 : (do
      let e4 ← Poly.one.powerW 3
      let e4 ← e4.omitHighOrderQW (-2147483648)
      let j ← Poly.one.mulW e4
      j.omitHighOrderQW (-2147483648)) = .ok Poly.new := by decide +kernel
    have hj' : jInvariant1W (-2147483648) = .ok Poly.new := by
      unfold jInvariant1W
      rw [hd, he']
      exact e2
    refine ⟨Poly.new, ?_, rfl⟩
    unfold jInvariantQW
    rw [wrp, hw, Res.ok_bind, hj']
    rfl

end EC
