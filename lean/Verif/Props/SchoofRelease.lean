import Verif.Props.Schoof
import Verif.Props.SchoofReturns
import Verif.Props.SchoofTiny
import Verif.Props.Release

/-! C53, C54, C62, C74 for the release build (`Model/Release.lean`), where nothing panics because of an overflow, so that more
calls may return than in a dev build. -/

namespace EC
open Poly Polynomial WeierstrassCurve

theorem schoofFindJW_mem {fuel : ℕ} {a b q : ℤ} {n d p : Poly} {l : List ℤ} {j : ℤ}
    (h : schoofFindJW fuel a b q n d p l = .ok (some j)) : j ∈ l := by
  induction l with
  | nil => simp [schoofFindJW] at h
  | cons x t ih =>
    unfold schoofFindJW at h
    obtain ⟨c, -, h⟩ := Res.bind_eq_ok.1 h
    split_ifs at h
    · simp only [Res.ok.injEq, Option.some.injEq] at h; simp [h]
    · exact List.mem_cons_of_mem _ (ih h)

theorem schoofYW_shape {fuel : ℕ} {a b q l ql jj : ℤ} {psiL : Poly} {r : ModResult} (hj : 1 ≤ jj)
    (h : schoofYW fuel a b q l ql jj psiL = .ok r) : r.l = l ∧ (r.r = jj ∨ r.r = l - jj) := by
  unfold schoofYW at h
  repeat
    obtain ⟨_, -, h⟩ := Res.bind_eq_ok.1 h
  dsimp only at h
  have key : ∀ p9 : Poly, (do
      let p9 ← p9.modularAssign q
      let p9 ← polynomialModularW fuel p9 psiL q
      Res.ok (ModResult.mk l (if (if (!p9.isZero) = true then -jj else jj) < 0 then
        (if (!p9.isZero) = true then -jj else jj) + l else (if (!p9.isZero) = true then -jj else jj)))) = .ok r →
      r.l = l ∧ (r.r = jj ∨ r.r = l - jj) := by
    intro p9 h
    obtain ⟨_, -, h⟩ := Res.bind_eq_ok.1 h
    obtain ⟨p, -, h⟩ := Res.bind_eq_ok.1 h
    simp only [Res.ok.injEq] at h
    subst h
    refine ⟨rfl, ?_⟩
    dsimp only
    split_ifs <;> omega
  split_ifs at h
  · obtain ⟨_, -, h⟩ := Res.bind_eq_ok.1 h
    exact key _ h
  · exact key _ h

theorem schoofDEW_shape {fuel : ℕ} {a b q l : ℤ} {r : ModResult} (hl : 0 < l)
    (h : schoofDEW fuel a b q l (q % l) = .ok r) : r.l = l ∧ (r.r = 0 ∨
      ∃ w, 1 ≤ w ∧ w < l ∧ w ^ 2 % l = q % l ∧ (∀ i, 1 ≤ i → i < w → i ^ 2 % l ≠ q % l) ∧
        (r.r = 2 * w ∨ r.r = l - 2 * w)) := by
  unfold schoofDEW at h
  split at h
  · simp only [Res.ok.injEq] at h; subst h; exact ⟨rfl, .inl rfl⟩
  · rename_i w hw
    have hw1 := List.find?_some hw
    have hw2 := List.mem_of_find?_eq_some hw
    rw [mem_irange] at hw2
    simp only [decide_eq_true_eq, fmod_pos_eq hl] at hw1
    have hmin : ∀ i, 1 ≤ i → i < w → i ^ 2 % l ≠ q % l := by
      intro i h1 h2 h3
      have := find_irange_min _ 1 rfl hw i h1 h2
      simp [fmod_pos_eq hl, h3] at this
    repeat
      obtain ⟨_, -, h⟩ := Res.bind_eq_ok.1 h
    split_ifs at h
    · simp only [Res.ok.injEq] at h; subst h; exact ⟨rfl, .inl rfl⟩
    · repeat
        obtain ⟨_, -, h⟩ := Res.bind_eq_ok.1 h
      simp only [Res.ok.injEq] at h; subst h
      refine ⟨rfl, .inr ⟨w, hw2.1, hw2.2, hw1, hmin, ?_⟩⟩
      dsimp only
      split_ifs <;> omega

theorem schoofLW_shape {fuel : ℕ} {a b q l : ℤ} (hl : 0 < l) {r : ModResult} (h : schoofLW fuel a b q l = .ok r) :
    r.l = l ∧ ((1 ≤ r.r ∧ 2 * r.r < l) ∨ (1 ≤ l - r.r ∧ 2 * (l - r.r) < l) ∨ r.r = 0 ∨
      ∃ w, 1 ≤ w ∧ w < l ∧ w ^ 2 % l = q % l ∧ (∀ i, 1 ≤ i → i < w → i ^ 2 % l ≠ q % l) ∧
        (r.r = 2 * w ∨ r.r = l - 2 * w)) := by
  unfold schoofLW at h
  obtain ⟨nd, -, h⟩ := Res.bind_eq_ok.1 h
  obtain ⟨_, -, h⟩ := Res.bind_eq_ok.1 h
  obtain ⟨_, -, h⟩ := Res.bind_eq_ok.1 h
  obtain ⟨o, ho, h⟩ := Res.bind_eq_ok.1 h
  rw [fmod_pos_eq hl] at h
  cases o with
  | none =>
    obtain ⟨h1, h2⟩ := schoofDEW_shape hl h
    exact ⟨h1, .inr (.inr h2)⟩
  | some jj =>
    have hj := schoofFindJW_mem ho
    rw [mem_irange, Int.tdiv_eq_ediv_of_nonneg (by omega)] at hj
    obtain ⟨h1, h2⟩ := schoofYW_shape hj.1 h
    refine ⟨h1, ?_⟩
    rcases h2 with h2 | h2 <;> omega

/-- The moduli of `schoof` in the release build: 2, then 3 if `3 < q`, then 5 if `5 < q`. -/
theorem schoofW_eq_ok {fuel : ℕ} {a b q : ℤ} {r : List ModResult} (h : schoofW fuel a b q = .ok r) :
    ∃ r2, schoof2W fuel a b q = .ok r2 ∧
    ((q ≤ 3 ∧ r = [r2]) ∨
     (3 < q ∧ q ≤ 5 ∧ ∃ r3, schoofLW fuel a b q 3 = .ok r3 ∧ r = [r2, r3]) ∨
     (5 < q ∧ ∃ r3 r5, schoofLW fuel a b q 3 = .ok r3 ∧ schoofLW fuel a b q 5 = .ok r5 ∧ r = [r2, r3, r5])) := by
  unfold schoofW at h
  obtain ⟨r2, h2, h⟩ := Res.bind_eq_ok.1 h
  refine ⟨r2, h2, ?_⟩
  unfold schoofLoopW at h
  split_ifs at h with h3
  · left; exact ⟨by omega, by simpa using h.symm⟩
  · right
    obtain ⟨r3, e3, h⟩ := Res.bind_eq_ok.1 h
    unfold schoofLoopW at h
    split_ifs at h with h5
    · left; exact ⟨by omega, by omega, r3, e3, by simpa using h.symm⟩
    · right
      obtain ⟨r5, e5, h⟩ := Res.bind_eq_ok.1 h
      unfold schoofLoopW at h
      exact ⟨by omega, r3, r5, e3, e5, by simpa using h.symm⟩

/-- **C54.**  In the release build, too, the entries that `schoof` returns have the moduli 2, 3, 5 (those below `q`, and 2) in this
order and residues in `[0, l)`, whatever overflowed on the way. -/
theorem C54_release_shape (a b q : ℤ) (fuel : ℕ) (r : List ModResult) (h : schoofW fuel a b q = .ok r) :
    r.map (·.l) = (if q ≤ 3 then [2] else if q ≤ 5 then [2, 3] else [2, 3, 5]) ∧
    ∀ e ∈ r, 0 ≤ e.r ∧ e.r < e.l := by
  obtain ⟨r2, e2, hr⟩ := schoofW_eq_ok h
  have h2 : r2.l = 2 ∧ 0 ≤ r2.r ∧ r2.r < 2 := by
    unfold schoof2W at e2
    obtain ⟨c, -, e2⟩ := Res.bind_eq_ok.1 e2
    simp only [Res.ok.injEq] at e2; subst e2
    cases c <;> simp
  have h3 : ∀ r3, schoofLW fuel a b q 3 = .ok r3 → r3.l = 3 ∧ 0 ≤ r3.r ∧ r3.r < 3 := by
    intro r3 e3
    obtain ⟨h1, h2⟩ := schoofLW_shape (by norm_num) e3
    refine ⟨h1, ?_⟩
    rcases h2 with h2 | h2 | h2 | ⟨w, hw1, hw2, hw3, hw4, hw5⟩
    · omega
    · omega
    · omega
    · have : w = 1 := by
        by_contra hne
        have h4 := hw4 1 le_rfl (by omega)
        interval_cases w
        · exact hne rfl
        · omega
      subst this; omega
  have h5 : ∀ r5, schoofLW fuel a b q 5 = .ok r5 → r5.l = 5 ∧ 0 ≤ r5.r ∧ r5.r < 5 := by
    intro r5 e5
    obtain ⟨h1, h2⟩ := schoofLW_shape (by norm_num) e5
    refine ⟨h1, ?_⟩
    rcases h2 with h2 | h2 | h2 | ⟨w, hw1, hw2, hw3, hw4, hw5⟩
    · omega
    · omega
    · omega
    · have : w ≤ 2 := by
        by_contra hne
        have h4 := hw4 1 le_rfl (by omega)
        have h5 := hw4 2 (by norm_num) (by omega)
        interval_cases w <;> omega
      omega
  rcases hr with ⟨hq, rfl⟩ | ⟨hq, hq5, r3, e3, rfl⟩ | ⟨hq, r3, r5, e3, e5, rfl⟩
  · simp [hq, h2]
  · have := h3 r3 e3
    simp [h2, this, not_le.2 hq, hq5]
  · have := h3 r3 e3
    have h5' := h5 r5 e5
    simp [h2, this, h5', not_le.2 hq, not_le.2 (show 3 < q by omega)]

/-! ### The entry for 2 -/

theorem schoof2W_root (a b q : ℤ) [Fact (Nat.Prime q.toNat)] (hi : q ≤ 2147483647) (x : ZMod q.toNat)
    (hx : x ^ 3 + a * x + b = 0) : Returns (fun fuel => schoof2W fuel a b q) { l := 2, r := 1 } := by
  obtain ⟨N, h⟩ := schoof2_root a b q hi x hx
  refine ⟨N, fun fuel hf => ?_⟩
  have h' := h fuel hf
  dsimp only at h' ⊢
  rw [(same_schoof2 fuel a b q).1 (by rw [h']; exact nofun), h']

theorem schoof2W_noroot (a b q : ℤ) [Fact (Nat.Prime q.toNat)] (hi : q ≤ 2147483647)
    (hx : ∀ x : ZMod q.toNat, x ^ 3 + a * x + b ≠ 0) (fuel : ℕ) : schoof2W fuel a b q = .timeout := by
  have h := schoof2_noroot a b q hi hx fuel
  rw [(same_schoof2 fuel a b q).1 (by rw [h]; exact nofun), h]

/-- **C53.**  In the release build, too, `schoof` never returns for a curve without a point of order 2. -/
theorem C53_release_odd_trace_diverges (a b q : ℤ) (hq : Nat.Prime q.toNat) (hi : q ≤ 2147483647)
    (hx : ∀ x : ZMod q.toNat, x ^ 3 + a * x + b ≠ 0) : Diverges (fun fuel => schoofW fuel a b q) := by
  have : Fact (Nat.Prime q.toNat) := ⟨hq⟩
  intro fuel
  dsimp only
  unfold schoofW
  rw [schoof2W_noroot a b q hi hx]; rfl

/-- **C53** is false in the release build, too: whenever `schoof` returns for a nonsingular curve over an odd prime field, its first
entry is `1 mod 2` although the trace of Frobenius `q + 1 - #E(GF(q))` is even. -/
theorem C53_release_parity_refuted (a b q : ℤ) (hq : Nat.Prime q.toNat) (hi : q ≤ 2147483647) (h2 : q ≠ 2)
    (hd : ¬ q ∣ 4 * a ^ 3 + 27 * b ^ 2) (fuel : ℕ) (r : List ModResult) (h : schoofW fuel a b q = .ok r) :
    r[0]? = some { l := 2, r := 1 } ∧
      Even (q + 1 - Nat.card (shortW (a : ZMod q.toNat) (b : ZMod q.toNat)).toAffine.Point) := by
  have : Fact (Nat.Prime q.toNat) := ⟨hq⟩
  obtain ⟨r2, e2, hr⟩ := schoofW_eq_ok h
  rw [trace_even_iff a b q hq h2 hd]
  by_cases hx : ∃ x : ZMod q.toNat, x ^ 3 + a * x + b = 0
  · refine ⟨?_, hx⟩
    obtain ⟨x, hx⟩ := hx
    have h1 : schoof2 fuel a b q ≠ .panic .overflow := by
      intro h1
      obtain ⟨N, hN⟩ := schoof2_root a b q hi x hx
      have := mono_schoof2 a b q fuel (by dsimp only; rw [h1]; exact nofun) N
      have hN' := hN (fuel + N) (by omega)
      dsimp only at hN' this
      rw [h1, hN'] at this
      exact (nomatch this)
    rw [(same_schoof2 fuel a b q).1 h1] at e2
    have h1 := (mono_schoof2 a b q).unique e2 (schoof2_root a b q hi x hx)
    subst h1
    rcases hr with ⟨-, rfl⟩ | ⟨-, -, r3, -, rfl⟩ | ⟨-, r3, r5, -, -, rfl⟩ <;> rfl
  · push Not at hx
    rw [schoof2W_noroot a b q hi hx] at e2
    exact absurd e2 (by simp)

/-! ### Where it returns -/

/-- **C62.**  For `q = 2` and `q = 3` the release build returns exactly when `x^3 + a x + b` has a root, and then the result is the
single entry `1 mod 2`. -/
theorem C62_release_small (a b q : ℤ) (hq : Nat.Prime q.toNat) (h3 : q ≤ 3) :
    ((∃ x : ZMod q.toNat, x ^ 3 + a * x + b = 0) →
      Returns (fun fuel => schoofW fuel a b q) [{ l := 2, r := 1 }]) ∧
    ((¬ ∃ x : ZMod q.toNat, x ^ 3 + a * x + b = 0) → Diverges (fun fuel => schoofW fuel a b q)) := by
  obtain ⟨h1, h2⟩ := C62_small a b q hq h3
  constructor
  · intro hx
    obtain ⟨N, h⟩ := h1 hx
    refine ⟨N, fun fuel hf => ?_⟩
    have h' := h fuel hf
    dsimp only at h' ⊢
    rw [C54_release fuel a b q (by rw [h']; exact nofun), h']
  · intro hx fuel
    have h' := h2 hx fuel
    dsimp only at h' ⊢
    rw [C54_release fuel a b q (by rw [h']; exact nofun), h']

/-- **C62.**  In the release build, too, `schoof` does not return unless `x^3 + a x + b` has a root. -/
theorem C62_release_root (a b q : ℤ) (hq : Nat.Prime q.toNat) (hi : q ≤ 2147483647) (r : List ModResult)
    (h : Returns (fun fuel => schoofW fuel a b q) r) : ∃ x : ZMod q.toNat, x ^ 3 + a * x + b = 0 := by
  by_contra hx
  push Not at hx
  obtain ⟨N, h⟩ := h
  have h1 := h N le_rfl
  rw [C53_release_odd_trace_diverges a b q hq hi hx N] at h1
  exact (nomatch h1)

/-- **C62.**  For every `q < 2` the release build panics, too. -/
theorem C62_release_tiny (a b q : ℤ) (hq : q < 2) (fuel : ℕ) (hf : 2 ≤ fuel) :
    schoofW fuel a b q = .panic .assertion := by
  have h := C62_tiny a b q hq fuel hf
  rw [C54_release fuel a b q (by rw [h]; exact nofun), h]

/-- **C74.**  For `3 < q ≤ 21841` the calls of C74 return in the release build, with the same result. -/
theorem C74_release (a b q : ℤ) (r : List ModResult) (h : Returns (fun fuel => schoof fuel a b q) r) :
    Returns (fun fuel => schoofW fuel a b q) r := by
  obtain ⟨N, h⟩ := h
  refine ⟨N, fun fuel hf => ?_⟩
  have h' := h fuel hf
  dsimp only at h' ⊢
  rw [C54_release fuel a b q (by rw [h']; exact nofun), h']

/-! ### Concrete cases -/

-- the release build returns for `y^2 = x^3 + x` over GF(7), and the theorems apply to what it returns
example : ∃ fuel r, schoofW fuel 1 0 7 = .ok r ∧ r[0]? = some { l := 2, r := 1 } ∧ r.map (·.l) = [2, 3, 5] := by
  obtain ⟨r, h⟩ := returns_7
  obtain ⟨N, h⟩ := C74_release 1 0 7 r h
  have h' := h N le_rfl
  exact ⟨N, r, h', (C53_release_parity_refuted 1 0 7 (show Nat.Prime 7 by norm_num) (by norm_num) (by norm_num) (by decide) N r h').1,
    (C54_release_shape 1 0 7 N r h').1⟩

-- `y^2 = x^3 + x + 1` over GF(5) has no point of order 2
example : Diverges (fun fuel => schoofW fuel 1 1 5) :=
  C53_release_odd_trace_diverges 1 1 5 (show Nat.Prime 5 by norm_num) (by norm_num) (by decide)

end EC
