import Verif.Witness.Out
import Verif.Props.BigInt
import Verif.Props.Crt
import Verif.Props.Order
import Verif.Props.PolyRing

/-! Witnesses for C01-C14 and C97: each theorem with hypotheses, applied to concrete inputs. -/

namespace EC

private theorem prime19 : Nat.Prime (19 : ℤ).toNat := by show Nat.Prime 19; norm_num

private theorem canonX1 : sampleX1.Canon := by unfold Poly.Canon; decide +kernel
private theorem canonXYQ : sampleXYQ.Canon := by unfold Poly.Canon; decide +kernel
private theorem smallX1 : ∀ e ∈ sampleX1.entries,
    e.1.var.empty = true ∧ |e.1.xpow| ≤ 1 ∧ |e.1.ypow| ≤ 1 ∧ |e.1.qpow| ≤ 1 := by decide +kernel
private theorem coprime357 : [ModResult.mk 3 2, ⟨5, 3⟩, ⟨7, 2⟩].Pairwise (fun s t => IsCoprime s.l t.l) := by
  simp [Int.isCoprime_iff_gcd_eq_one]; decide

example : power (-3) (-5) = -3 := C01_power_neg (-3) (-5) (by decide)
example := C02_power_modulo 3 100 7 (by decide) (by decide)
example := C03_inverse 3 19 prime19 (by decide)
example := C03_inverse_of_dvd 38 19 prime19 (by decide)
example := C04_extended_gcd 240 46 2 (-9) 47 (by decide +kernel)
example := C05_chinese_remainder [⟨3, 2⟩, ⟨5, 3⟩, ⟨7, 2⟩] (by decide) coprime357
example := C06_sigma_divisor 12 3 (by decide) (by decide)
example := C06_sigma_divisor_max 3 (by decide)
example : sigmaDivisor 12 (-1) = .ok 0 := C06_sigma_divisor_nonpos 12 (-1) (by decide)
example := C97_bezout_bound 240 46 2 (-9) 47 (by decide +kernel)
example := C97_pair ⟨4, 3⟩ ⟨6, 5⟩ (by decide) (by decide)
example := C97_order [⟨3, 2⟩, ⟨5, 3⟩, ⟨7, 2⟩] [⟨5, 3⟩, ⟨3, 2⟩, ⟨7, 2⟩] (by decide) (by decide) coprime357
example := C08_count 5 (by decide)
example := C08_index_roundtrip 5 17 (by decide) (by decide)
example := C08_variable_from_index_exact 5 17 (by decide)
example := C08_index_from_variable 5 (by decide)
example := C08_index_out_of_range 5 21 (by decide) (by decide) (by decide)
example := C09_is_zero sampleXYQ canonXYQ
example := C10_mul sampleX1 sampleXYQ _ (Res.eq_out (sampleX1.mul sampleXYQ) (by decide +kernel))
example := C11_eq_imp_val (sampleX1.add sampleXYQ) (sampleXYQ.add sampleX1) (by decide +kernel)
example := C11_eq_iff_val_partial _ _ canonX1 canonXYQ
example := C11_canon_closed _ _ Term.one (TermBuilder.new.xpow 3).build canonX1 canonXYQ
example := C12_power sampleX1 _ 5 (Res.eq_out (sampleX1.power 5) (by decide +kernel))
example := C12_power_neg sampleX1 (-2) (by decide)
example := C12_power_returns sampleX1 2000000000 1 (by decide) (by decide) smallX1 (by decide)
example := C13_rem sampleXYQ 7 (by decide)
example := C13_modular_assign sampleXYQ 7 (by decide)
example := C13_congruent sampleXYQ _ 2 (by decide) (.inl (Res.eq_out (sampleXYQ.rem 2) (by decide +kernel)))
example := C13_eq_iff_congruent sampleX1 sampleXm1 _ _ 2 (by decide)
  (.inl (Res.eq_out (sampleX1.rem 2) (by decide +kernel)))
  (.inr (Res.eq_out (sampleXm1.modularAssign 2) (by decide +kernel)))
example := C13_panics sampleX1 (-7) (by decide) (by decide +kernel)
example := C14_power_modulo sampleX1 _ 5 5 (by decide) (by decide) (Res.eq_out (sampleX1.powerModulo 5 5) (by decide +kernel))
example := C14_power_modulo_zero sampleXYQ _ _ 5 (by decide) (Res.eq_out (sampleXYQ.powerModulo 0 5) (by decide +kernel))
  (Res.eq_out (sampleXYQ.rem 5) (by decide +kernel))
example := C14_power_modulo_returns sampleX1 2000000000 1 7 (by decide) (by decide) (by decide) smallX1 (by decide)

end EC
