import Verif.Lemmas.QSeries
import Verif.Lemmas.PolyMap

/-! Properties C33-C36: the q-expansions.  `Verif.Spec.QSeries` has the power series they are compared
with. -/

namespace EC
open Poly PowerSeries

/-- The polynomial `f` is the truncation of the power series `s` after `q^N`: it has only terms `q^n`
with `0 ≤ n ≤ N`, and they have the coefficients of `s`. -/
def IsTrunc (N : ℤ) (s : PowerSeries ℤ) (f : Poly) : Prop :=
  (∀ e ∈ f.entries, e.1.xpow = 0 ∧ e.1.ypow = 0 ∧ e.1.var.empty = true ∧ 0 ≤ e.1.qpow ∧ e.1.qpow ≤ N) ∧
  ∀ n : ℕ, f.coef { x := 0, y := 0, q := n, v := none } = if (n : ℤ) ≤ N then coeff n s else 0

theorem isTrunc_of {N : ℤ} {s : PowerSeries ℤ} {f : Poly} (h : f.All (QT N)) (hs : ModX N f.series s) :
    IsTrunc N s f := by
  constructor
  · intro e he
    obtain ⟨h1, h2, h3, h4, h5⟩ := h e he
    exact ⟨h1, h2, SubVar.key_eq_none.1 h5, h3, h4⟩
  · intro n
    rw [← coeff_series (h.mono fun _ h => h.isQ)]
    split_ifs with hn
    · exact modX_iff.1 hs n hn
    · exact coeff_series_of_gt h (by omega)

/-- A truncation is determined by the series, as a ring element. -/
theorem IsTrunc.val_unique {N : ℤ} {s : PowerSeries ℤ} {f g : Poly} (hf : IsTrunc N s f) (hg : IsTrunc N s g) :
    f.val = g.val := by
  rw [Poly.val_injective]
  ext k
  rw [← coef_eq_fs, ← coef_eq_fs]
  have key : ∀ f : Poly, IsTrunc N s f → (¬ ∃ n : ℕ, k = { x := 0, y := 0, q := n, v := none }) →
      f.coef k = 0 := by
    intro f hf hk
    unfold coef
    apply List.sum_eq_zero
    intro x hx
    obtain ⟨e, he, rfl⟩ := List.mem_map.1 hx
    rw [if_neg]
    rintro rfl
    obtain ⟨h1, h2, h3, h4, h5⟩ := hf.1 e he
    refine hk ⟨e.1.qpow.toNat, ?_⟩
    simp only [Monomial.key, Key.mk.injEq, h1, h2, true_and]
    exact ⟨by omega, SubVar.key_eq_none.2 h3⟩
  by_cases hk : ∃ n : ℕ, k = { x := 0, y := 0, q := n, v := none }
  · obtain ⟨n, rfl⟩ := hk
    rw [hf.2, hg.2]
  · rw [key f hf hk, key g hg hk]

/-! ### C33 -/

/-- C33: `eisenstein4(N)` returns for every `N ≥ 0` (below the largest `i32`) and is `E_4` truncated
after `q^N`. -/
theorem C33_eisenstein4 (N : ℤ) (hN : 0 ≤ N) (hN' : N < 2147483647) :
    ∃ f, eisenstein4 N = .ok f ∧ IsTrunc N seriesE4 f := by
  obtain ⟨f, hf, hA, hS⟩ := eisenstein4_spec hN hN'
  exact ⟨f, hf, isTrunc_of hA hS⟩

/-- C33: for a negative order the result is 1, for the largest `i32` the call panics. -/
theorem C33_eisenstein4_edge (N : ℤ) :
    (-2147483648 ≤ N → N < 0 → eisenstein4 N = .ok Poly.one) ∧
    eisenstein4 2147483647 = .panic .overflow := by
  constructor
  · intro h1 h2
    unfold eisenstein4
    rw [chk_of ⟨by omega, by omega⟩, Res.ok_bind, irange_of_le (by omega)]
    rfl
  · rfl

example : (eisenstein4 3 >>= fun f => .ok (f.entries.map (·.2))) = .ok [1, 240, 2160, 6720] := by
  decide +kernel

/-! ### C34 -/

/-- C34: `delta1(N)` returns for every `N ≥ 0` with `2N` in `i32` and is the infinite product
`∏_{k ≥ 1} (1 - q^k)^24` truncated after `q^N`. -/
theorem C34_delta1 (N : ℤ) (hN : 0 ≤ N) (hN' : 2 * N ≤ 2147483647) :
    ∃ f, delta1 N = .ok f ∧ IsTrunc N seriesDelta f := by
  obtain ⟨f, hf, hA, hS⟩ := delta1_spec hN hN'
  exact ⟨f, hf, isTrunc_of hA hS⟩

/-- C34: the same in terms of finite products: the coefficients up to `q^N` are those of
`∏_{1 ≤ k ≤ M} (1 - q^k)^24` for every `M ≥ N`. -/
theorem C34_delta1_finite (N : ℤ) (M : ℕ) (hN : 0 ≤ N) (hN' : 2 * N ≤ 2147483647) (hM : N ≤ M) :
    ∃ f, delta1 N = .ok f ∧ IsTrunc N (∏ k ∈ Finset.Icc 1 M, (1 - (X : PowerSeries ℤ) ^ k) ^ 24) f := by
  obtain ⟨f, hf, hA, hS⟩ := delta1_spec hN hN'
  exact ⟨f, hf, isTrunc_of hA (hS.trans (modX_prodDelta hM).symm)⟩

example : (delta1 3 >>= fun f => .ok (f.entries.map (·.2))) = .ok [1, -24, 252, -1472] := by decide +kernel

/-! ### C35 -/

/-- C35: `delta1_inverse(N)` times the infinite product is 1 modulo `q^(N+1)`, and it has only
terms up to `q^N`. -/
theorem C35_delta1_inverse (N : ℤ) (hN : 0 ≤ N) (hN' : 2 * N ≤ 2147483647) :
    ∃ f, delta1Inverse N = .ok f ∧ IsTrunc N (invOfUnit seriesDelta 1) f ∧
      seriesDelta * invOfUnit seriesDelta 1 = 1 := by
  obtain ⟨f, hf, hA, hS⟩ := delta1Inverse_spec hN hN'
  have hinv := mul_invOfUnit seriesDelta 1 (by simp [constantCoeff_seriesDelta])
  refine ⟨f, hf, isTrunc_of hA ?_, hinv⟩
  have h3 := hS.mul (ModX.refl (invOfUnit seriesDelta 1))
  rw [mul_assoc, hinv, mul_one, one_mul] at h3
  exact h3

/-- C35: the product of the two printed polynomials is 1 modulo `q^(N+1)`: the coefficient of `q^n` in
`delta1(N) * delta1_inverse(N)` is 1 for `n = 0` and 0 for `0 < n ≤ N`. -/
theorem C35_delta1_mul_inverse (N : ℤ) (hN : 0 ≤ N) (hN' : 2 * N ≤ 2147483647) :
    ∃ d f c, delta1 N = .ok d ∧ delta1Inverse N = .ok f ∧ d.mul f = .ok c ∧
      ∀ n : ℕ, (n : ℤ) ≤ N → c.coef { x := 0, y := 0, q := n, v := none } = if n = 0 then 1 else 0 := by
  obtain ⟨d, hd, hdA, hdS⟩ := delta1_spec hN hN'
  obtain ⟨f, hf, hA, hS⟩ := delta1Inverse_spec hN hN'
  obtain ⟨c, hc, hcA, hcS⟩ := mulSeries hdA hA (by omega)
  refine ⟨d, f, c, hd, hf, hc, ?_⟩
  intro n hn
  rw [← coeff_series (hcA.mono fun _ h => h.isQ), hcS, ← coeff_one]
  refine modX_iff.1 ?_ n hn
  refine ((hdS.mul (ModX.refl _)).trans ?_)
  rw [mul_comm]; exact hS

example : (delta1Inverse 3 >>= fun f => .ok (f.entries.map (·.2))) = .ok [1, 24, 324, 3200] := by
  decide +kernel

/-! ### C36 -/

/-- C36: `j_invariant1(N)` returns for every `N ≥ 0` with `3N` in `i32` and is
`q j(q) = E_4^3 / ∏_{k ≥ 1} (1 - q^k)^24` truncated after `q^N`. -/
theorem C36_j_invariant1 (N : ℤ) (hN : 0 ≤ N) (hN' : 3 * N ≤ 2147483647) :
    ∃ f, jInvariant1 N = .ok f ∧ IsTrunc N seriesJ1 f ∧ seriesJ1 * seriesDelta = seriesE4 ^ 3 := by
  obtain ⟨f, hf, hA, hS⟩ := jInvariant1_spec hN hN'
  exact ⟨f, hf, isTrunc_of hA hS, seriesJ1_mul⟩

/-- C36: `j_invariant(N)` is `q^-1` times `j_invariant1(N+1)`: it has only terms `q^n` with
`-1 ≤ n ≤ N`, and the coefficient of `q^n` is the one of `q^(n+1)` in `q j(q)`. -/
theorem C36_j_invariant (N : ℤ) (hN : -1 ≤ N) (hN' : 3 * (N + 1) ≤ 2147483647) :
    ∃ f, jInvariantQ N = .ok f ∧
      (∀ e ∈ f.entries, e.1.xpow = 0 ∧ e.1.ypow = 0 ∧ e.1.var.empty = true ∧ -1 ≤ e.1.qpow ∧ e.1.qpow ≤ N) ∧
      ∀ n : ℤ, -1 ≤ n → f.coef { x := 0, y := 0, q := n, v := none } =
        if n ≤ N then coeff (n + 1).toNat seriesJ1 else 0 := by
  obtain ⟨g, hg, hA, hS⟩ := jInvariant1_spec (N := N + 1) (by omega) hN'
  have hk : (TermBuilder.new.qpow (-1)).build.toPol.All
      (fun k => k.x = 0 ∧ k.y = 0 ∧ k.q = -1 ∧ k.v = none) := all_toPol (fun _ => ⟨rfl, rfl, rfl, rfl⟩)
  obtain ⟨f, hf⟩ := mul_ok (a := g) (b := (TermBuilder.new.qpow (-1)).build.toPol) (fun ie hi je hj => by
    obtain ⟨h1, h2, h3, h4, h5⟩ := hA ie hi
    obtain ⟨g1, g2, g3, g4⟩ := hk je hj
    refine ⟨Or.inl h5, ?_, ?_, ?_⟩ <;> constructor <;> omega)
  have hfA : f.All (fun k => k.x = 0 ∧ k.y = 0 ∧ k.v = none ∧ -1 ≤ k.q ∧ k.q ≤ N) := by
    refine all_mul hA hk ?_ hf
    rintro k k' ⟨h1, h2, h3, h4, h5⟩ ⟨g1, g2, g3, g4⟩ _
    refine ⟨?_, ?_, ?_, ?_, ?_⟩ <;> simp only [Key.mul]
    · omega
    · omega
    · simp [h5, g4]
    · omega
    · omega
  refine ⟨f, ?_, ?_, ?_⟩
  · unfold jInvariantQ
    rw [chk_of ⟨by omega, by omega⟩]
    simp only [Res.ok_bind, hg, hf]
  · intro e he
    obtain ⟨h1, h2, h3, h4, h5⟩ := hfA e he
    exact ⟨h1, h2, SubVar.key_eq_none.1 h3, h4, h5⟩
  · intro n hn
    have hlin : f.lin (fun k => if k = ⟨0, 0, n, none⟩ then (1 : ℤ) else 0) =
        g.lin (fun k => if k = ⟨0, 0, n + 1, none⟩ then (1 : ℤ) else 0) := by
      rw [lin_mul (φ := fun k => if k = ⟨0, 0, n + 1, none⟩ then (1 : ℤ) else 0) (ψ := fun _ => 1) hf,
        lin_toPol]
      · change _ * ((1 : ℤ) • (1 : ℤ)) = _
        simp
      · intro ie hi je hj _
        obtain ⟨h1, h2, h3, h4, h5⟩ := hA ie hi
        obtain ⟨g1, g2, g3, g4⟩ := hk je hj
        rcases hik : ie.1.key with ⟨x, y, q, v⟩
        rcases hjk : je.1.key with ⟨x', y', q', v'⟩
        rw [hik] at h1 h2 h5
        rw [hjk] at g1 g2 g3 g4
        simp only at h1 h2 h5 g1 g2 g3 g4
        subst h1 h2 h5 g1 g2 g3 g4
        simp only [Key.mul, Key.mk.injEq, add_zero, true_and, mul_one]
        have : (q + -1 = n) ↔ q = n + 1 := by omega
        simp [this]
    have hc : ∀ (P : Poly) (k0 : Key), P.coef k0 = P.lin (fun k => if k = k0 then (1 : ℤ) else 0) := by
      intro P k0
      unfold coef lin
      congr 1
      refine List.map_congr_left fun e _ => ?_
      by_cases h : e.1.key = k0 <;> simp [h]
    rw [hc, hlin, ← hc]
    have := (isTrunc_of hA hS).2 (n + 1).toNat
    have e1 : (((n + 1).toNat : ℕ) : ℤ) = n + 1 := by omega
    rw [e1] at this
    rw [this]
    by_cases h : n ≤ N
    · rw [if_pos (by omega), if_pos h]
    · rw [if_neg (by omega), if_neg h]

/-- C36: a larger order extends the result of a smaller one: the coefficients of the common terms
agree. -/
theorem C36_prefix (N M : ℤ) (hN : -1 ≤ N) (hNM : N ≤ M) (hM : 3 * (M + 1) ≤ 2147483647) :
    ∃ f g, jInvariantQ N = .ok f ∧ jInvariantQ M = .ok g ∧ ∀ n : ℤ, -1 ≤ n → n ≤ N →
      f.coef { x := 0, y := 0, q := n, v := none } = g.coef { x := 0, y := 0, q := n, v := none } := by
  obtain ⟨f, hf, _, h1⟩ := C36_j_invariant N hN (by omega)
  obtain ⟨g, hg, _, h2⟩ := C36_j_invariant M (by omega) hM
  refine ⟨f, g, hf, hg, fun n hn hnN => ?_⟩
  rw [h1 n hn, h2 n hn, if_pos hnN, if_pos (by omega)]

example : (jInvariantQ 2 >>= fun f => .ok (f.entries.map fun e => (e.1.qpow, e.2))) =
    .ok [(-1, 1), (0, 744), (1, 196884), (2, 21493760)] := by decide +kernel

end EC
