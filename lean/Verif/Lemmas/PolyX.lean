import Verif.Lemmas.PolyMap2
import Verif.Lemmas.BigInt
import Mathlib.Algebra.Polynomial.FieldDivision

/-! Helper lemmas: polynomials in `x` alone as elements of `R[X]`, univariate division and gcd. -/

namespace EC
namespace Poly
open Polynomial

/-- The key of `x^n`. -/
def _root_.EC.Key.xn (n : ℕ) : Key := { x := n, y := 0, q := 0, v := none }

theorem evalAt_isX {R : Type*} [CommRing R] {k : Key} (h : k.IsX) :
    k.evalAt (X : R[X]) 0 0 0 = X ^ k.x.toNat := by
  obtain ⟨h1, h2, h3, h4⟩ := h
  simp [Key.evalAt, h2, h3, h4]

theorem isX_eq_xn {k : Key} (h : k.IsX) (n : ℕ) : k = Key.xn n ↔ k.x.toNat = n := by
  rcases k with ⟨a, b, c, d⟩
  obtain ⟨h1, h2, h3, h4⟩ := h
  simp only at h1 h2 h3 h4
  simp only [Key.xn, Key.mk.injEq, h2, h3, h4, and_self, and_true]
  omega

theorem polyX_coeff {R : Type*} [CommRing R] {P : Poly} (h : P.All Key.IsX) (n : ℕ) :
    (P.polyX R).coeff n = (P.coef (Key.xn n) : R) := by
  unfold polyX
  rw [evalAt_eq_lin]
  have := map_lin ((Polynomial.lcoeff R n).toAddMonoidHom) (Key.evalAt (X : R[X]) 0 0 0) P
  simp only [LinearMap.toAddMonoidHom_coe, Polynomial.lcoeff_apply] at this
  rw [this]
  unfold lin coef
  rw [← eq_intCast (Int.castRingHom R), map_list_sum, List.map_map]
  congr 1
  apply List.map_congr_left
  intro e he
  have hx := h e he
  simp only [Function.comp]
  rw [evalAt_isX hx, Polynomial.coeff_X_pow]
  by_cases h1 : e.1.key = Key.xn n
  · rw [if_pos h1, if_pos ((isX_eq_xn hx n).1 h1).symm]; simp
  · rw [if_neg h1, if_neg (fun h2 => h1 ((isX_eq_xn hx n).2 h2.symm))]; simp

theorem highest_zero {P : Poly} (h : P.entries = []) : P.highestTermX = Term.new :=
  highestTermX_of_nil h

/-- Degree of the highest term as a natural number. -/
def deg (P : Poly) : ℕ := P.highestTermX.xpow.toNat

theorem highest_isX {P : Poly} (h : P.All Key.IsX) : P.highestTermX.monomial.key.IsX := by
  by_cases h0 : P.entries = []
  · rw [highestTermX_of_nil h0]
    exact ⟨le_rfl, rfl, rfl, rfl⟩
  · obtain ⟨e, he, h1, _⟩ := highestTermX_of_ne h0
    rw [h1]; exact h e he

theorem highest_xpow {P : Poly} (h : P.All Key.IsX) : P.highestTermX.xpow = P.deg := by
  have : 0 ≤ P.highestTermX.xpow := (highest_isX h).1
  unfold deg; omega

theorem highest_ypow {P : Poly} (h : P.All Key.IsX) : P.highestTermX.ypow = 0 := (highest_isX h).2.1
theorem highest_qpow {P : Poly} (h : P.All Key.IsX) : P.highestTermX.qpow = 0 := (highest_isX h).2.2.1

theorem highest_coef {P : Poly} (h : P.All Key.IsX) : P.highestTermX.coef = P.coef (Key.xn P.deg) := by
  by_cases h0 : P.entries = []
  · rw [highestTermX_of_nil h0]; simp [coef, h0, Term.new]
  · obtain ⟨e, he, h1, _⟩ := highestTermX_of_ne h0
    have h2 : Key.xn P.deg = e.1.key := by
      symm
      rw [isX_eq_xn (h e he)]
      unfold deg; rw [h1]; rfl
    rw [h2, coef_eq, look_of_mem he, h1]; rfl

theorem coef_eq_zero_of_deg_lt {P : Poly} {n : ℕ} (hn : P.deg < n) :
    P.coef (Key.xn n) = 0 := by
  rw [coef_eq, look_eq_none.2]
  · rfl
  · intro e he h1
    have h2 := le_highest he
    have : e.1.xpow = n := by
      have := congrArg Key.x h1
      exact this
    unfold deg at hn
    omega

theorem polyX_natDegree_le {R : Type*} [CommRing R] {P : Poly} (h : P.All Key.IsX) :
    (P.polyX R).natDegree ≤ P.deg := by
  rw [Polynomial.natDegree_le_iff_coeff_eq_zero]
  intro n hn
  rw [polyX_coeff h, coef_eq_zero_of_deg_lt hn]; simp

theorem polyX_natDegree {R : Type*} [CommRing R] {P : Poly} (h : P.All Key.IsX)
    (hl : (P.highestTermX.coef : R) ≠ 0) :
    (P.polyX R).natDegree = P.deg ∧ (P.polyX R).leadingCoeff = P.highestTermX.coef ∧
    P.polyX R ≠ 0 := by
  have h1 : (P.polyX R).coeff P.deg = P.highestTermX.coef := by
    rw [polyX_coeff h, highest_coef h]
  have h2 : (P.polyX R).natDegree = P.deg :=
    le_antisymm (polyX_natDegree_le h) (Polynomial.le_natDegree_of_ne_zero (by rw [h1]; exact hl))
  refine ⟨h2, ?_, ?_⟩
  · rw [Polynomial.leadingCoeff, h2, h1]
  · intro h3
    rw [h3] at h1
    exact hl (by rw [← h1]; simp)

theorem polyX_eq_zero_of_nil {R : Type*} [CommRing R] {P : Poly} (h : P.entries = []) :
    P.polyX R = 0 := by simp [polyX, evalAt, h]

theorem isZero_iff {P : Poly} : P.isZero = true ↔ P.entries = [] := by
  unfold isZero len; simp

/-- A stored non-zero residue makes the polynomial non-zero modulo `p`. -/
theorem highest_coef_ne {p : ℤ} {P : Poly} (hp : 0 < p) (hc : P.Canon) (hr : P.Reduced p)
    (h0 : P.entries ≠ []) : (P.highestTermX.coef : ZMod p.toNat) ≠ 0 := by
  obtain ⟨e, he, h1, _⟩ := highestTermX_of_ne h0
  rw [h1]
  simp only [Term.from']
  rw [ne_eq, zmod_eq_zero_iff hp.le]
  intro h2
  exact hc e he (Int.eq_zero_of_dvd_of_nonneg_of_lt (hr e he).1 (hr e he).2 h2)

theorem polyX_eq_zero_iff {p : ℤ} {P : Poly} (hp : 0 < p) (h : P.All Key.IsX) (hc : P.Canon)
    (hr : P.Reduced p) : P.polyX (ZMod p.toNat) = 0 ↔ P.entries = [] := by
  refine ⟨fun h1 => ?_, polyX_eq_zero_of_nil⟩
  by_contra h0
  exact (polyX_natDegree h (highest_coef_ne hp hc hr h0)).2.2 h1

theorem isX_mulFn {R : Type*} [CommRing R] : MulFn Key.IsX (Key.evalAt (X : R[X]) 0 0 0) :=
  ⟨⟨le_rfl, rfl, rfl, rfl⟩, by simp [Key.evalAt, Key.one],
   fun ⟨a1, a2, a3, a4⟩ ⟨b1, b2, b3, b4⟩ _ => ⟨by simp only [Key.mul]; omega, by simp only [Key.mul]; omega,
     by simp only [Key.mul]; omega, by simp [Key.mul, a4, b4]⟩,
   fun ha hb hc => (mulFn_evalAt _ _ _ _).map_mul ⟨ha.1, by rw [ha.2.1], by rw [ha.2.2.1]⟩
     ⟨hb.1, by rw [hb.2.1], by rw [hb.2.2.1]⟩ hc⟩

theorem char_smul {p : ℤ} (hp : 0 ≤ p) (m : (ZMod p.toNat)[X]) : p • m = 0 := by
  rw [zsmul_eq_mul]
  have : ((p : ℤ) : (ZMod p.toNat)[X]) = 0 := by
    have h1 : ((p : ℤ) : ZMod p.toNat) = 0 := (zmod_eq_zero_iff hp p).2 (dvd_refl _)
    rw [← map_intCast (Polynomial.C : ZMod p.toNat →+* _), h1, map_zero]
  rw [this, zero_mul]

theorem polyX_modOf {p : ℤ} (hp : 0 ≤ p) {f r : Poly} (h : ModOf p f r) :
    r.polyX (ZMod p.toNat) = f.polyX (ZMod p.toNat) := by
  unfold polyX
  rw [evalAt_eq_lin, evalAt_eq_lin, h.lin _ (fun m => char_smul hp m)]

/-- Largest exponent of a polynomial in `x` after reduction. -/
theorem deg_le_of_forall {P : Poly} {m : ℕ} (h : ∀ e ∈ P.entries, e.1.xpow ≤ m) : P.deg ≤ m := by
  by_cases h0 : P.entries = []
  · unfold deg; rw [highestTermX_of_nil h0]; simp [Term.new, Term.xpow]
  · obtain ⟨e, he, h1, _⟩ := highestTermX_of_ne h0
    unfold deg; rw [h1]
    have := h e he
    simp only [Term.xpow, Term.from']
    omega

theorem xpow_le_deg {P : Poly} {e : Monomial × ℤ} (he : e ∈ P.entries) : e.1.xpow ≤ P.deg := by
  have := le_highest he
  unfold deg; omega

theorem deg_lt_of {p : ℤ} (hp : 0 < p) {P : Poly} {m : ℕ} (h : P.All Key.IsX)
    (hc : P.Canon) (hr : P.Reduced p) (hm : 0 < m)
    (hd : (P.polyX (ZMod p.toNat)).degree < m) : P.deg < m := by
  by_cases h0 : P.entries = []
  · unfold deg; rw [highestTermX_of_nil h0]; simpa [Term.new, Term.xpow] using hm
  · have h1 := polyX_natDegree h (highest_coef_ne hp hc hr h0)
    rw [← h1.1]
    exact (Polynomial.natDegree_lt_iff_degree_lt h1.2.2).2 hd

end Poly
end EC
