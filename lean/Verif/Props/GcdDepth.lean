import Verif.Model.Depth
import Verif.Props.PolyDiv

/-! Properties C15 and C16: how many turns `polynomial_modular` takes, how deeply the recursion of `gcd` nests. -/

namespace EC
open Poly Polynomial

variable {p : ℤ} [Fact (Nat.Prime p.toNat)]

omit [Fact (Nat.Prime p.toNat)] in
private theorem depth_swap {f g : Poly} (hf : f.All Key.IsX) (hg : g.All Key.IsX) (h : f.deg < g.deg)
    (fuel d : ℕ) : gcdDepth fuel (d + 1) f g p = gcdDepth fuel d g f p := by
  rw [gcdDepth]
  rw [if_pos (by rw [highest_xpow hf, highest_xpow hg]; omega)]

omit [Fact (Nat.Prime p.toNat)] in
private theorem depth_noswap {f g : Poly} (hf : f.All Key.IsX) (hg : g.All Key.IsX) (h : g.deg ≤ f.deg)
    (fuel d : ℕ) : gcdDepth fuel (d + 1) f g p = match polynomialModular fuel f g p with
      | .ok r => if r.isZero then some (g.toMonic p) else gcdDepth fuel d g r p
      | .panic w => some (.panic w)
      | .timeout => some .timeout := by
  rw [gcdDepth]
  rw [if_neg (by rw [highest_xpow hf, highest_xpow hg]; omega)]
  rfl

/-- C15: over a prime `p` the loop of `polynomial_modular` takes at most `deg f + 2` turns (counting the one that leaves
it). -/
theorem C15_turns (p : ℤ) [Fact (Nat.Prime p.toNat)] (f g : Poly)
    (hf : f.All Key.IsX) (hfi : ∀ e ∈ f.entries, e.1.xpow ≤ 2147483647) (hg : g.All Key.IsX)
    (hgl : ¬ p ∣ g.highestTermX.coef) (hgd : 0 < g.highestTermX.xpow) :
    ∃ r, Returns (fun fuel => f.polynomialModular fuel g p) r ∧
      ∀ fuel : ℕ, f.highestTermX.xpow + 2 ≤ fuel → f.polynomialModular fuel g p = .ok r := by
  obtain ⟨v, h1, -⟩ := polynomialModular_spec (two_le_of_prime (p := p) Fact.out) hf
    (deg_le_i32 hfi) hg (lead_ne Fact.out hgl) (by unfold deg; omega)
  rw [highest_xpow hf]
  exact ⟨v, ⟨f.deg + 2, fun fuel hfu => h1 fuel (by omega)⟩, fun fuel hfu => h1 fuel (by omega)⟩

example := C15_turns 5 sampleX3 sampleX1 isX_sampleX3 (by decide +kernel) isX_sampleX1 (by decide +kernel)
  (by decide +kernel)

/-- Smaller second degree: at most `deg g + 1` calls are nested. -/
private theorem depth_aux (hp : 2 ≤ p) : ∀ (n : ℕ) (f g : Poly), UniOK p f → UniOK p g → g.deg ≤ f.deg → g.deg ≤ n →
    ∀ fuel d : ℕ, n + 1 ≤ d → ∃ x, gcdDepth fuel d f g p = some x ∧
      (x = .timeout ∨ ∃ v, x = .ok v ∧ Returns (fun F => Poly.gcd F f g p) v) ∧
      (¬ IsCoprime (f.polyX (ZMod p.toNat)) (g.polyX (ZMod p.toNat)) → f.deg + 1 < fuel → x ≠ .timeout) := by
  intro n
  induction n with
  | zero =>
    intro f g hf hg hle hn fuel d hd
    obtain ⟨d, rfl⟩ : ∃ e, d = e + 1 := ⟨d - 1, by omega⟩
    refine ⟨.timeout, ?_, .inl rfl, fun hco => absurd ?_ hco⟩
    · rw [depth_noswap hf.isX hg.isX hle, polynomialModular_const hp hf.isX hg.isX (by omega) hf.i32]
    · have hG := polyX_natDegree hg.isX hg.lead
      have h1 : IsUnit (g.polyX (ZMod p.toNat)) := by
        rw [Polynomial.isUnit_iff_degree_eq_zero, degree_eq_natDegree hG.2.2, hG.1, show g.deg = 0 by omega]; rfl
      obtain ⟨u, hu⟩ := h1.exists_left_inv
      exact ⟨0, u, by rw [hu]; simp⟩
  | succ n ih =>
    intro f g hf hg hle hn fuel d hd
    by_cases hg0 : g.deg ≤ n
    · exact ih f g hf hg hle hg0 fuel d (by omega)
    obtain ⟨d, rfl⟩ : ∃ e, d = e + 1 := ⟨d - 1, by omega⟩
    rw [depth_noswap hf.isX hg.isX hle]
    obtain ⟨r, hr1, hr2, hr3, hr4, hr5, hr6⟩ :=
      polynomialModular_spec hp hf.isX hf.i32 hg.isX hg.lead (show 0 < g.deg by omega)
    by_cases ht : polynomialModular fuel f g p = .timeout
    · rw [ht]
      refine ⟨.timeout, rfl, .inl rfl, fun _ hfu => ?_⟩
      rw [hr1 fuel hfu] at ht; exact (nomatch ht)
    have he : polynomialModular fuel f g p = .ok r := by
      rw [← polynomialModular_mono ht (f.deg + 2)]; exact hr1 _ (by omega)
    rw [he]
    simp only
    by_cases hz : r.entries = []
    · rw [if_pos (isZero_iff.2 hz)]
      obtain ⟨v, hv1, -⟩ := toMonic_spec hp hg.isX hg.i32 hg.lead
      refine ⟨.ok v, by rw [hv1], .inr ⟨v, rfl, f.deg + 3, fun F hF => ?_⟩, fun _ _ h => (nomatch h)⟩
      obtain ⟨F, rfl⟩ : ∃ e, F = e + 1 := ⟨F - 1, by omega⟩
      show Poly.gcd (F + 1) f g p = .ok v
      rw [gcd_noswap hf.isX hg.isX hle, hr1 F (by omega), Res.ok_bind, if_pos (isZero_iff.2 hz), hv1]
    · rw [if_neg (by rw [isZero_iff]; exact hz)]
      have hr : UniOK p r := UniOK.of_mod hp hr2 hr3 hr4 hr5 hg.i32 hz
      obtain ⟨x, hx1, hx2, hx3⟩ := ih g r hg hr (by omega) (by omega) fuel d (by omega)
      refine ⟨x, hx1, ?_, ?_⟩
      · rcases hx2 with h | ⟨v, h, N, hN⟩
        · exact .inl h
        · refine .inr ⟨v, h, max N (f.deg + 2) + 1, fun F hF => ?_⟩
          obtain ⟨F, rfl⟩ : ∃ e, F = e + 1 := ⟨F - 1, by omega⟩
          show Poly.gcd (F + 1) f g p = .ok v
          rw [gcd_noswap hf.isX hg.isX hle, hr1 F (by omega), Res.ok_bind,
            if_neg (by rw [isZero_iff]; exact hz)]
          exact hN F (by omega)
      · intro hco hfu
        refine hx3 (fun h => hco ?_) (by omega)
        rw [hr6] at h
        have hmod := EuclideanDomain.mod_add_div (f.polyX (ZMod p.toNat)) (g.polyX (ZMod p.toNat))
        rw [← hmod]
        exact (IsCoprime.add_mul_left_right h _).symm

/-- C16: for univariate `f`, `g` with leading coefficients prime to `p`, the recursion of `gcd` nests at most
`min (deg f) (deg g) + 2` calls deep, however many turns the loops inside it are allowed.  If `f` and `g` are not coprime
the call with this depth is complete and has the result of `gcd` as soon as the loops may take `max (deg f) (deg g) + 2`
turns; if they are coprime it hangs in a loop, and never because of the depth. -/
theorem C16_depth (p : ℤ) [Fact (Nat.Prime p.toNat)] (f g : Poly)
    (hf : f.All Key.IsX) (hfi : ∀ e ∈ f.entries, e.1.xpow ≤ 2147483647) (hfl : ¬ p ∣ f.highestTermX.coef)
    (hg : g.All Key.IsX) (hgi : ∀ e ∈ g.entries, e.1.xpow ≤ 2147483647) (hgl : ¬ p ∣ g.highestTermX.coef)
    (d : ℕ) (hd : min f.highestTermX.xpow g.highestTermX.xpow + 2 ≤ d) :
    (¬ IsCoprime (f.polyX (ZMod p.toNat)) (g.polyX (ZMod p.toNat)) →
      ∃ v, Returns (fun F => Poly.gcd F f g p) v ∧
        ∀ fuel : ℕ, max f.highestTermX.xpow g.highestTermX.xpow + 2 ≤ fuel → gcdDepth fuel d f g p = some (.ok v)) ∧
    (IsCoprime (f.polyX (ZMod p.toNat)) (g.polyX (ZMod p.toNat)) →
      ∀ fuel : ℕ, gcdDepth fuel d f g p = some .timeout) := by
  have hp := two_le_of_prime (p := p) Fact.out
  have hF : UniOK p f := ⟨hf, lead_ne Fact.out hfl, deg_le_i32 hfi⟩
  have hG : UniOK p g := ⟨hg, lead_ne Fact.out hgl, deg_le_i32 hgi⟩
  rw [highest_xpow hf, highest_xpow hg] at hd ⊢
  have key : ∀ fuel : ℕ, ∃ x, gcdDepth fuel d f g p = some x ∧
      (x = .timeout ∨ ∃ v, x = .ok v ∧ Returns (fun F => Poly.gcd F f g p) v) ∧
      (¬ IsCoprime (f.polyX (ZMod p.toNat)) (g.polyX (ZMod p.toNat)) →
        max (f.deg : ℤ) g.deg + 2 ≤ fuel → x ≠ .timeout) := by
    intro fuel
    by_cases hlt : f.deg < g.deg
    · obtain ⟨d, rfl⟩ : ∃ e, d = e + 1 := ⟨d - 1, by omega⟩
      rw [depth_swap hf hg hlt]
      obtain ⟨x, hx1, hx2, hx3⟩ := depth_aux hp _ g f hG hF hlt.le le_rfl fuel d (by omega)
      refine ⟨x, hx1, ?_, fun h1 h2 => hx3 (fun h => h1 h.symm) (by omega)⟩
      rcases hx2 with h | ⟨v, h, N, hN⟩
      · exact .inl h
      · refine .inr ⟨v, h, N + 1, fun F hF' => ?_⟩
        obtain ⟨F, rfl⟩ : ∃ e, F = e + 1 := ⟨F - 1, by omega⟩
        show Poly.gcd (F + 1) f g p = .ok v
        rw [gcd_swap hf hg hlt]; exact hN F (by omega)
    · obtain ⟨x, hx1, hx2, hx3⟩ := depth_aux hp _ f g hF hG (by omega) le_rfl fuel d (by omega)
      exact ⟨x, hx1, hx2, fun h1 h2 => hx3 h1 (by omega)⟩
  constructor
  · intro hco
    obtain ⟨v, ⟨N, hv⟩, -⟩ := C16_gcd p f g hf hfi hfl hg hgi hgl hco
    refine ⟨v, ⟨N, hv⟩, fun fuel hfu => ?_⟩
    obtain ⟨x, hx1, hx2, hx3⟩ := key fuel
    rcases hx2 with h | ⟨w, rfl, N', hw⟩
    · exact absurd h (hx3 hco hfu)
    · have h1 := hv (max N N') (le_max_left _ _)
      rw [hw (max N N') (le_max_right _ _)] at h1
      rw [hx1, h1]
  · intro hco fuel
    obtain ⟨x, hx1, hx2, -⟩ := key fuel
    rcases hx2 with rfl | ⟨w, rfl, N', hw⟩
    · exact hx1
    · have h1 := C16_diverges p f g hf hfi hfl hg hgi hgl hco N'
      rw [hw N' le_rfl] at h1
      exact (nomatch h1)

-- `x^3 + 2` and `x + 3` over GF(5) need one call, `x + 3` and `x^3 + 2` two
example : ((gcdDepth 20 1 sampleX3 sampleX3' 5).map fun r => r >>= fun c => .ok (c.entries.map (·.2))) =
    some (.ok [3, 1]) := by decide +kernel
example : (gcdDepth 20 1 sampleX3' sampleX3 5).isNone := by decide +kernel
example : ((gcdDepth 20 2 sampleX3' sampleX3 5).map fun r => r >>= fun c => .ok (c.entries.map (·.2))) =
    some (.ok [3, 1]) := by decide +kernel
theorem isX_sampleX3' : sampleX3'.All Key.IsX := by
  have : ∀ e ∈ sampleX3'.entries, 0 ≤ e.1.key.x ∧ e.1.key.y = 0 ∧ e.1.key.q = 0 ∧ e.1.key.v = none := by
    decide +kernel
  exact this
example := C16_depth 5 sampleX3 sampleX3' isX_sampleX3 (by decide +kernel) (by decide +kernel)
  isX_sampleX3' (by decide +kernel) (by decide +kernel) 3 (by decide +kernel)

end EC
