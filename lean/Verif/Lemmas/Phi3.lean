import Verif.Lemmas.SerList
import Verif.Spec.Modular
import Mathlib.Tactic.Ring

/-! The coefficients of the classical `Φ_3`, and that `Φ_3(j(q), j(q^3))` has no terms of order `≤ 0`.  (The lists of numbers
are generated; the kernel checks them.) -/

namespace EC

open SerList

/-- The coefficients of the classical modular polynomial `Φ_3`. -/
def phi3 (a b : ℕ) : ℤ :=
  match a, b with
  | 0, 1 => 1855425871872000000000
  | 0, 2 => 452984832000000
  | 0, 3 => 36864000
  | 1, 1 => -770845966336000000
  | 1, 2 => 8900222976000
  | 1, 3 => -1069956
  | 2, 2 => 2587918086
  | 2, 3 => 2232
  | 3, 3 => -1
  | _, _ => 0

namespace Phi3

def e4 : List ℤ := [1, 240, 2160, 6720, 17520, 30240, 60480, 82560, 140400, 181680, 272160, 319680, 490560]

/-- The powers of `q j(q)` up to `q^12`. -/
def u (n : ℕ) : List ℤ :=
  match n with
  | 0 => [1]
  | 1 => [1, 744, 196884, 21493760, 864299970, 20245856256, 333202640600, 4252023300096, 44656994071935,
    401490886656000, 3176440229784420, 22567393309593600, 146211911499519294]
  | 2 => [1, 1488, 947304, 335950912, 72474624276, 9790124955552, 833107628914688, 45630592148400000,
    1754954450906393538, 51062104386000089648, 1186840963302480101376, 22924552119951492244800,
    378933532779364657975000]
  | 3 => [1, 2232, 2251260, 1355202240, 541778118390, 151522053809760, 30456116651640888, 4460775211418664960,
    479919718908048515625, 38292247221915373896560, 2309356967925215526546564, 108570959012192293978767360,
    4111854826236389868361040550]
  | 4 => [1, 2976, 4108752, 3491078528, 2042124031080, 871760017238976, 280975645349487680, 69814870794494454528,
    13548292908508926640404, 2070614744577304062500000, 250743434761056783247994784, 24206053275768758414174711424,
    1878532348907261963806903367680]
  | _ => []

/-- The powers of `q^3 j(q^3)` up to `q^12`. -/
def w (n : ℕ) : List ℤ :=
  match n with
  | 0 => [1]
  | 1 => [1, 0, 0, 744, 0, 0, 196884, 0, 0, 21493760, 0, 0, 864299970]
  | 2 => [1, 0, 0, 1488, 0, 0, 947304, 0, 0, 335950912, 0, 0, 72474624276]
  | 3 => [1, 0, 0, 2232, 0, 0, 2251260, 0, 0, 1355202240, 0, 0, 541778118390]
  | 4 => [1, 0, 0, 2976, 0, 0, 4108752, 0, 0, 3491078528, 0, 0, 2042124031080]
  | _ => []

/-- The terms `c X^i Y^j` of `Φ_3`. -/
def terms : List (ℕ × ℕ × ℤ) :=
  [(4, 0, 1), (0, 4, 1), (0, 1, 1855425871872000000000), (1, 0, 1855425871872000000000), (0, 2, 452984832000000),
    (2, 0, 452984832000000), (0, 3, 36864000), (3, 0, 36864000), (1, 1, -770845966336000000), (1, 2, 8900222976000),
    (2, 1, 8900222976000), (1, 3, -1069956), (3, 1, -1069956), (2, 2, 2587918086), (2, 3, 2232), (3, 2, 2232), (3,
    3, -1)]

theorem rep_u1 : Rep 13 (u 1) seriesJ1 := by
  refine rep_J1 (E := e4) ?_ ?_
  · decide +kernel
  · decide +kernel

theorem rep_u0 : Rep 13 (u 0) (seriesJ1 ^ 0) := by rw [pow_zero]; exact rep_one 13
theorem rep_w0 : Rep 13 (w 0) (psPow 3 seriesJ1 ^ 0) := by rw [pow_zero]; exact rep_one 13
theorem rep_u1' : Rep 13 (u 1) (seriesJ1 ^ 1) := by rw [pow_one]; exact rep_u1
theorem rep_w1 : Rep 13 (w 1) (psPow 3 seriesJ1) := by
  have h : spread 3 13 (u 1) = w 1 := by decide +kernel
  rw [← h]; exact rep_u1.spread
theorem rep_w1' : Rep 13 (w 1) (psPow 3 seriesJ1 ^ 1) := by rw [pow_one]; exact rep_w1
theorem rep_u2 : Rep 13 (u 2) (seriesJ1 ^ 2) := by
  have h : mulT 13 (u 1) (u 1) = u 2 := by decide +kernel
  have := rep_u1'.mul rep_u1
  rwa [h, ← pow_succ] at this
theorem rep_w2 : Rep 13 (w 2) (psPow 3 seriesJ1 ^ 2) := by
  have h : mulT 13 (w 1) (w 1) = w 2 := by decide +kernel
  have := rep_w1'.mul rep_w1
  rwa [h, ← pow_succ] at this
theorem rep_u3 : Rep 13 (u 3) (seriesJ1 ^ 3) := by
  have h : mulT 13 (u 2) (u 1) = u 3 := by decide +kernel
  have := rep_u2.mul rep_u1
  rwa [h, ← pow_succ] at this
theorem rep_w3 : Rep 13 (w 3) (psPow 3 seriesJ1 ^ 3) := by
  have h : mulT 13 (w 2) (w 1) = w 3 := by decide +kernel
  have := rep_w2.mul rep_w1
  rwa [h, ← pow_succ] at this
theorem rep_u4 : Rep 13 (u 4) (seriesJ1 ^ 4) := by
  have h : mulT 13 (u 3) (u 1) = u 4 := by decide +kernel
  have := rep_u3.mul rep_u1
  rwa [h, ← pow_succ] at this
theorem rep_w4 : Rep 13 (w 4) (psPow 3 seriesJ1 ^ 4) := by
  have h : mulT 13 (w 3) (w 1) = w 4 := by decide +kernel
  have := rep_w3.mul rep_w1
  rwa [h, ← pow_succ] at this

theorem termSum_zero : (termSum 3 12 u w terms).all (· == 0) = true := by decide +kernel

theorem rep_u : ∀ i ≤ 4, Rep 13 (u i) (seriesJ1 ^ i) := by
  intro i hi
  interval_cases i
  exacts [rep_u0, rep_u1', rep_u2, rep_u3, rep_u4]

theorem rep_w : ∀ i ≤ 4, Rep 13 (w i) (psPow 3 seriesJ1 ^ i) := by
  intro i hi
  interval_cases i
  exacts [rep_w0, rep_w1', rep_w2, rep_w3, rep_w4]

theorem terms_bound : ∀ t ∈ terms, t.1 + 3 * t.2.1 ≤ 12 ∧ t.1 ≤ 4 ∧ t.2.1 ≤ 4 := by decide +kernel

theorem modularAt_terms {R : Type*} [CommRing R] (X Y : R) :
    modularAt 3 phi3 X Y = (terms.map fun t => t.2.2 • (X ^ t.1 * Y ^ t.2.1)).sum := by
  have e0 : Finset.Ico (0 + 1) (3 + 1) = {1, 2, 3} := rfl
  have e1 : Finset.Ico (1 + 1) (3 + 1) = {2, 3} := rfl
  have e2 : Finset.Ico (2 + 1) (3 + 1) = {3} := rfl
  have e3 : Finset.Ico (3 + 1) (3 + 1) = ∅ := rfl
  simp only [modularAt, Finset.sum_range_succ, Finset.sum_range_zero, e0, e1, e2, e3, Finset.sum_empty,
    Finset.sum_singleton, Finset.sum_insert (show (1 : ℕ) ∉ ({2, 3} : Finset ℕ) by decide), Finset.sum_insert (show
    (2 : ℕ) ∉ ({3} : Finset ℕ) by decide), phi3, terms, List.map_cons, List.map_nil, List.sum_cons, List.sum_nil,
    zsmul_eq_mul]
  push_cast
  ring

end Phi3

theorem phi3_lowOrder : ∀ n ≤ 0, (modularAt 3 phi3 jLaurent (qPow 3 Nat.prime_three.pos jLaurent)).coeff n = 0 :=
  lowOrder_of_termSum (M := 12) Nat.prime_three.pos Phi3.terms
    (fun t ht => ⟨(Phi3.terms_bound t ht).1, Phi3.rep_u _ (Phi3.terms_bound t ht).2.1,
      Phi3.rep_w _ (Phi3.terms_bound t ht).2.2⟩) Phi3.termSum_zero (Phi3.modularAt_terms _ _)

end EC
