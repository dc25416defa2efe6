import Verif.Lemmas.PolyDiv
import Verif.Lemmas.Reduction
import Mathlib.FieldTheory.Finite.Basic
import Mathlib.RingTheory.Polynomial.Basic

/-! Common factors with `x^p - x` over GF(p), and the polynomials `x^p - x` and `x^3 + a x + b` as
stored. -/

namespace EC
open Polynomial

/-- A polynomial is prime to `x^p - x` exactly when it has no root in GF(p). -/
theorem isCoprime_frob_iff {n : ℕ} [Fact n.Prime] (f : (ZMod n)[X]) :
    IsCoprime f (X ^ n - X) ↔ ∀ x, f.eval x ≠ 0 := by
  have hX : (X ^ n - X : (ZMod n)[X]) = ∏ a : ZMod n, (X - C a) := by
    have h1 := FiniteField.X_pow_card_sub_X_natDegree_eq (ZMod n) (Fact.out (p := n.Prime)).one_lt
    have h2 : (X ^ n - X : (ZMod n)[X]).roots = Finset.univ.val := by
      have := FiniteField.roots_X_pow_card_sub_X (ZMod n)
      rwa [ZMod.card] at this
    have hm : (X ^ n - X : (ZMod n)[X]).Monic := by
      apply Polynomial.monic_X_pow_sub
      rw [Polynomial.degree_X]
      exact_mod_cast (Fact.out (p := n.Prime)).one_lt
    have h3 := Polynomial.prod_multiset_X_sub_C_of_monic_of_roots_card_eq hm (by rw [h2, h1]; simp [ZMod.card])
    rw [h2] at h3
    rw [← h3]; rfl
  rw [hX, IsCoprime.prod_right_iff]
  constructor
  · intro h x hx
    have h1 := (h x (Finset.mem_univ _)).symm
    rw [(irreducible_X_sub_C x).coprime_iff_not_dvd] at h1
    exact h1 (dvd_iff_isRoot.2 hx)
  · intro h x _
    apply IsCoprime.symm
    rw [(irreducible_X_sub_C x).coprime_iff_not_dvd]
    exact fun h1 => h x (dvd_iff_isRoot.1 h1)

namespace Poly

/-- The degree and the leading coefficient from a bound on the exponents and a coefficient. -/
theorem deg_of_coef {P : Poly} {n : ℕ} (h : P.All Key.IsX) (hb : ∀ e ∈ P.entries, e.1.xpow ≤ n)
    (hc : P.coef (Key.xn n) ≠ 0) : P.deg = n ∧ P.highestTermX.coef = P.coef (Key.xn n) := by
  have h1 := deg_le_of_forall hb
  have h2 : n ≤ P.deg := by
    by_contra h2
    exact hc (coef_eq_zero_of_deg_lt (by omega))
  have h3 : P.deg = n := by omega
  exact ⟨h3, by rw [highest_coef h, h3]⟩

theorem curvePol_polyX (R : Type) [CommRing R] (a b : ℤ) :
    (curvePol a b).polyX R = X ^ 3 + C (a : R) * X + C (b : R) := by
  unfold polyX
  rw [evalAt_eq_lin, curvePol_lin]
  simp [Key.evalAt, Key.xn]

theorem curvePol_deg (a b : ℤ) : (curvePol a b).deg = 3 ∧ (curvePol a b).highestTermX.coef = 1 := by
  have h1 : (curvePol a b).coef (Key.xn 3) = 1 := by
    have := polyX_coeff (R := ℤ) (curvePol_isX a b) 3
    rw [curvePol_polyX] at this
    rw [coeff_add, coeff_add, coeff_C_mul, coeff_X_pow, coeff_X, coeff_C] at this
    simpa using this.symm
  have := deg_of_coef (n := 3) (curvePol_isX a b) (fun e he => ((curvePol_all a b) e he).2) (by rw [h1]; simp)
  rwa [h1] at this

theorem UniOK_curvePol (p : ℤ) [Fact (Nat.Prime p.toNat)] (a b : ℤ) : UniOK p (curvePol a b) :=
  ⟨curvePol_isX a b, by rw [(curvePol_deg a b).2]; simp, by rw [(curvePol_deg a b).1]; norm_num⟩

/-- `x^q - x` as stored. -/
def frobPol (q : ℤ) : Poly := (TermBuilder.new.xpow q).build.sub (TermBuilder.new.xpow 1).build

theorem frob_neg : (TermBuilder.new.xpow 1).build.neg = ⟨-1, ⟨1, 0, 0, SubVar.new⟩⟩ := rfl

theorem frobPol_isX {q : ℤ} (hq : 2 ≤ q) : (frobPol q).All (fun k => k.IsX ∧ k.x ≤ q) := by
  unfold frobPol Term.sub
  rw [frob_neg]
  apply all_termAdd <;> simp [TermBuilder.new, TermBuilder.xpow, TermBuilder.build,
      Monomial.key, Key.IsX, SubVar.key, SubVar.new] <;> omega

theorem frobPol_polyX (R : Type) [CommRing R] {q : ℤ} (hq : 2 ≤ q) :
    (frobPol q).polyX R = X ^ q.toNat - X := by
  unfold polyX frobPol Term.sub
  rw [evalAt_eq_lin, lin_termAddTerm, frob_neg, sub_eq_add_neg]
  simp [Key.evalAt, TermBuilder.new, TermBuilder.xpow, TermBuilder.build,
      Monomial.key, SubVar.key, SubVar.new]

theorem UniOK_frobPol (p : ℤ) [Fact (Nat.Prime p.toNat)] (hp : 2 ≤ p) (hi : p ≤ 2147483647) :
    UniOK p (frobPol p) ∧ (frobPol p).deg = p.toNat := by
  have hX : (frobPol p).All Key.IsX := (frobPol_isX hp).mono fun _ h => h.1
  have h1 : (frobPol p).coef (Key.xn p.toNat) = 1 := by
    have := polyX_coeff (R := ℤ) hX p.toNat
    rw [frobPol_polyX _ hp] at this
    simp only [coeff_sub, coeff_X_pow, if_pos, coeff_X, if_neg (show ¬ 1 = p.toNat by omega), sub_zero, Int.cast_id] at this
    exact this.symm
  have h2 := deg_of_coef (n := p.toNat) hX (fun e he => by
    have := ((frobPol_isX hp) e he).2
    simp only [Monomial.key] at this
    omega) (by rw [h1]; simp)
  rw [h1] at h2
  exact ⟨⟨hX, by rw [h2.2]; simp, by omega⟩, h2.1⟩

end Poly
end EC
