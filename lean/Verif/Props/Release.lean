import Verif.Lemmas.Release
import Verif.Lemmas.PolyOps
import Verif.Props.PolyRing

/-! The release build (`Model/Release.lean`: `i32` arithmetic wraps).  Wherever the dev build does not report an overflow the
release build does exactly the same, so every other property about results holds in release builds too; where the dev build reports
one, the release build goes on with wrapped exponents. -/

namespace EC

/-! ### Agreement of the two builds -/

/-- **C59.**  Term arithmetic in the release build. -/
theorem C59_release (s t : Term) (n p : ℤ) :
    (s.mul t ≠ .panic .overflow → s.mulW t = s.mul t) ∧ (s.div t ≠ .panic .overflow → s.divW t = s.div t) ∧
    (s.power n ≠ .panic .overflow → s.powerW n = s.power n) ∧
    (s.powerModulo n p ≠ .panic .overflow → s.powerModuloW n p = s.powerModulo n p) ∧
    (s.toFrob n ≠ .panic .overflow → s.toFrobW n = s.toFrob n) ∧
    (s.toYPower n ≠ .panic .overflow → s.toYPowerW n = s.toYPower n) ∧
    (s.toQPower n ≠ .panic .overflow → s.toQPowerW n = s.toQPower n) :=
  ⟨(Term.same_mul _ _).1, (Term.same_div _ _).1, (Term.same_power _ _).1, (Term.same_powerModulo _ _ _).1, (Term.same_toFrob _ _).1,
    (Term.same_toYPower _ _).1, (Term.same_toQPower _ _).1⟩

/-- **C65.**  `Monomial::eval_q` in the release build. -/
theorem C65_release (m : Monomial) (q : ℤ) : m.evalQ q ≠ .panic .overflow → m.evalQW q = m.evalQ q :=
  (Monomial.same_evalQ m q).1

/-- **C10.**  Multiplication in the release build. -/
theorem C10_release (f g : Poly) (t : Term) :
    (f.mul g ≠ .panic .overflow → f.mulW g = f.mul g) ∧
    (f.mulTerm t ≠ .panic .overflow → f.mulTermW t = f.mulTerm t) ∧
    (Poly.termMul t f ≠ .panic .overflow → Poly.termMulW t f = Poly.termMul t f) ∧
    (f.mulAssign g ≠ .panic .overflow → f.mulAssignW g = f.mulAssign g) :=
  ⟨(Poly.same_mul _ _).1, (Poly.same_mulTerm _ _).1, (Poly.same_termMul _ _).1, (Poly.same_mulAssign _ _).1⟩

/-- **C12.**  Powers in the release build. -/
theorem C12_release (f : Poly) (n : ℤ) :
    (f.power n ≠ .panic .overflow → f.powerW n = f.power n) ∧ (f.square ≠ .panic .overflow → f.squareW = f.square) ∧
    (f.cube ≠ .panic .overflow → f.cubeW = f.cube) :=
  ⟨(Poly.same_power _ _).1, (Poly.same_square _).1, (Poly.same_cube _).1⟩

/-- **C14.**  `power_modulo` in the release build. -/
theorem C14_release (f : Poly) (n p : ℤ) :
    f.powerModulo n p ≠ .panic .overflow → f.powerModuloW n p = f.powerModulo n p := (Poly.same_powerModulo _ _ _).1

/-- **C15.**  `polynomial_modular` in the release build (also when the loop does not end within `fuel`). -/
theorem C15_release (fuel : ℕ) (f g : Poly) (p : ℤ) :
    f.polynomialModular fuel g p ≠ .panic .overflow →
      Poly.polynomialModularW fuel f g p = Poly.polynomialModular fuel f g p := fun h =>
  (Poly.same_polynomialModular fuel f g p).1 h

/-- **C16.**  `gcd` in the release build. -/
theorem C16_release (fuel : ℕ) (f g : Poly) (p : ℤ) :
    Poly.gcd fuel f g p ≠ .panic .overflow → Poly.gcdW fuel f g p = Poly.gcd fuel f g p := (Poly.same_gcd _ _ _ _).1

/-- **C17.**  `is_gcd_one` in the release build. -/
theorem C17_release (fuel : ℕ) (f g : Poly) (p : ℤ) :
    Poly.isGcdOne fuel f g p ≠ .panic .overflow → Poly.isGcdOneW fuel f g p = Poly.isGcdOne fuel f g p :=
  (Poly.same_isGcdOne _ _ _ _).1

/-- **C20, C21.**  The reductions in the release build. -/
theorem C20_release (f : Poly) (a b p : ℤ) :
    (f.reduction a b ≠ .panic .overflow → f.reductionW a b = f.reduction a b) ∧
    (f.reductionModular a b p ≠ .panic .overflow → f.reductionModularW a b p = f.reductionModular a b p) :=
  ⟨(Poly.same_reduction _ _ _).1, (Poly.same_reductionModular _ _ _ _).1⟩

/-- **C23.**  Substitution of polynomials in the release build. -/
theorem C23_release (f g : Poly) :
    (f.evalXPolynomial g ≠ .panic .overflow → f.evalXPolynomialW g = f.evalXPolynomial g) ∧
    (f.evalYPolynomial g ≠ .panic .overflow → f.evalYPolynomialW g = f.evalYPolynomial g) :=
  ⟨(Poly.same_evalXPolynomial _ _).1, (Poly.same_evalYPolynomial _ _).1⟩

/-- **C24.**  `to_frob`, `to_y_power`, `to_q_power` in the release build. -/
theorem C24_release (f : Poly) (n : ℤ) :
    (f.toFrob n ≠ .panic .overflow → f.toFrobW n = f.toFrob n) ∧
    (f.toYPower n ≠ .panic .overflow → f.toYPowerW n = f.toYPower n) ∧
    (f.toQPower n ≠ .panic .overflow → f.toQPowerW n = f.toQPower n) :=
  ⟨(Poly.same_toFrob _ _).1, (Poly.same_toYPower _ _).1, (Poly.same_toQPower _ _).1⟩

/-- **C26.**  Truncation in the release build. -/
theorem C26_release (f : Poly) (n N : ℤ) :
    (f.omitHighOrderQ N ≠ .panic .overflow → f.omitHighOrderQW N = f.omitHighOrderQ N) ∧
    (f.powerOmitHighOrderQ n N ≠ .panic .overflow → f.powerOmitHighOrderQW n N = f.powerOmitHighOrderQ n N) :=
  ⟨(Poly.same_omitHighOrderQ _ _).1, (Poly.same_powerOmitHighOrderQ _ _ _).1⟩

/-- **C28.**  Division by a monomial, and `to_monic`, in the release build. -/
theorem C28_release (f g : Poly) (t : Term) (p : ℤ) :
    (f.div g ≠ .panic .overflow → f.divW g = f.div g) ∧ (f.divTerm t ≠ .panic .overflow → f.divTermW t = f.divTerm t) ∧
    (Poly.termDiv t g ≠ .panic .overflow → Poly.termDivW t g = Poly.termDiv t g) ∧
    (f.toMonic p ≠ .panic .overflow → f.toMonicW p = f.toMonic p) :=
  ⟨(Poly.same_div _ _).1, (Poly.same_divTerm _ _).1, (Poly.same_termDiv _ _).1, (Poly.same_toMonic _ _).1⟩

/-- **C29–C32.**  Division polynomials in the release build. -/
theorem C32_release (a b n : ℤ) :
    (psi a b n ≠ .panic .overflow → psiW a b n = psi a b n) ∧ (phi a b n ≠ .panic .overflow → phiW a b n = phi a b n) ∧
    (omega a b n ≠ .panic .overflow → omegaW a b n = omega a b n) :=
  ⟨(same_psi _ _ _).1, (same_phi _ _ _).1, (same_omega _ _ _).1⟩

/-- **C33–C36, C06.**  The q-series and the divisor sum in the release build. -/
theorem C36_release (n k : ℤ) :
    (sigmaDivisor n k ≠ .panic .overflow → sigmaDivisorW n k = sigmaDivisor n k) ∧
    (eisenstein4 n ≠ .panic .overflow → eisenstein4W n = eisenstein4 n) ∧
    (delta1 n ≠ .panic .overflow → delta1W n = delta1 n) ∧
    (delta1Inverse n ≠ .panic .overflow → delta1InverseW n = delta1Inverse n) ∧
    (jInvariant1 n ≠ .panic .overflow → jInvariant1W n = jInvariant1 n) ∧
    (jInvariantQ n ≠ .panic .overflow → jInvariantQW n = jInvariantQ n) :=
  ⟨(same_sigmaDivisor _ _).1, (same_eisenstein4 _).1, (same_delta1 _).1, (same_delta1Inverse _).1, (same_jInvariant1 _).1, (same_jInvariantQ _).1⟩

/-- **C08.**  The converter of subscripted variables in the release build. -/
theorem C08_release (c : Converter) (v : SubVar) (k : ℕ) :
    (c.count ≠ .panic .overflow → c.countW = c.count) ∧
    (c.indexFromVariable v ≠ .panic .overflow → c.indexFromVariableW v = c.indexFromVariable v) ∧
    (c.variableFromIndex k ≠ .panic .overflow → c.variableFromIndexW k = c.variableFromIndex k) :=
  ⟨(Converter.same_count _).1, (Converter.same_indexFromVariable _ _).1, (Converter.same_variableFromIndex _ _).1⟩

/-- **C75.**  `modular_polynomial` in the release build. -/
theorem C75_release (p : ℤ) :
    modularPolynomial p ≠ .panic .overflow → modularPolynomialW p = modularPolynomial p := (same_modularPolynomial p).1

/-- **C54.**  `schoof` in the release build. -/
theorem C54_release (fuel : ℕ) (a b q : ℤ) :
    schoof fuel a b q ≠ .panic .overflow → schoofW fuel a b q = schoof fuel a b q := (same_schoof fuel a b q).1

/-- **C55.**  `sea` in the release build. -/
theorem C55_release (fuel : ℕ) (ec : EllipticCurve) (l : ℤ) :
    sea fuel ec l ≠ .panic .overflow → seaW fuel ec l = sea fuel ec l := (same_sea fuel ec l).1

/-- **C37.**  `solve` in the release build. -/
theorem C37_release (m : Mat) : solve m ≠ .panic .overflow → solveW m = solve m := (same_solve m).1

/-- **C18.**  `to_monic` in the release build. -/
theorem C18_release (f : Poly) (p : ℤ) : f.toMonic p ≠ .panic .overflow → f.toMonicW p = f.toMonic p :=
  (Poly.same_toMonic _ _).1

/-- **C21.**  `reduction_modular` in the release build. -/
theorem C21_release (f : Poly) (a b p : ℤ) :
    f.reductionModular a b p ≠ .panic .overflow → f.reductionModularW a b p = f.reductionModular a b p :=
  (Poly.same_reductionModular _ _ _ _).1

/-- **C38.**  The generic modular polynomials in the release build. -/
theorem C38_release (p : ℤ) :
    (subscriptedVariableModularPolynomial p ≠ .panic .overflow →
      subscriptedVariableModularPolynomialW p = subscriptedVariableModularPolynomial p) ∧
    (subscriptedVariableModularPolynomialQ p ≠ .panic .overflow →
      subscriptedVariableModularPolynomialQW p = subscriptedVariableModularPolynomialQ p) ∧
    (subscriptedVariableModularPolynomialList p ≠ .panic .overflow →
      subscriptedVariableModularPolynomialListW p = subscriptedVariableModularPolynomialList p) :=
  ⟨(same_subscriptedVariableModularPolynomial p).1, (same_subscriptedVariableModularPolynomialQ p).1,
    (same_subscriptedVariableModularPolynomialList p).1⟩

/-- **C10, C12, C29–C31, C36, C54, C55, C75.**  No function of the release build panics because of an `i32` overflow. -/
theorem C54_release_no_overflow (fuel : ℕ) (a b n p : ℤ) (ec : EllipticCurve) (f g : Poly) :
    f.mulW g ≠ .panic .overflow ∧ f.powerW n ≠ .panic .overflow ∧ f.powerModuloW n p ≠ .panic .overflow ∧
    Poly.gcdW fuel f g p ≠ .panic .overflow ∧ f.reductionModularW a b p ≠ .panic .overflow ∧
    psiW a b n ≠ .panic .overflow ∧ phiW a b n ≠ .panic .overflow ∧ omegaW a b n ≠ .panic .overflow ∧
    jInvariantQW n ≠ .panic .overflow ∧ modularPolynomialW p ≠ .panic .overflow ∧
    schoofW fuel a b p ≠ .panic .overflow ∧ seaW fuel ec n ≠ .panic .overflow :=
  ⟨(Poly.same_mul _ _).2, (Poly.same_power _ _).2, (Poly.same_powerModulo _ _ _).2, (Poly.same_gcd _ _ _ _).2,
    (Poly.same_reductionModular _ _ _ _).2, (same_psi _ _ _).2, (same_phi _ _ _).2, (same_omega _ _ _).2,
    (same_jInvariantQ _).2, (same_modularPolynomial _).2, (same_schoof _ _ _ _).2, (same_sea _ _ _).2⟩

/-! ### What the release build does where the dev build overflows -/

/-- The wrapped value is an `i32`, and congruent to the exact one modulo `2^32`. -/
theorem wrap32_spec (n : ℤ) : InI32 (wrap32 n) ∧ wrap32 n ≡ n [ZMOD 4294967296] := by
  unfold InI32 wrap32
  refine ⟨by omega, ?_⟩
  have : (n + 2147483648) % 4294967296 - 2147483648 ≡ n + 2147483648 - 2147483648 [ZMOD 4294967296] :=
    (Int.mod_modEq _ _).sub_right _
  simpa using this

/-- **C59.**  A product of terms in the release build always returns, unless both have a variable; the coefficient is the product,
and each exponent is the `i32` congruent to the sum modulo `2^32`. -/
theorem C59_release_mul (s t : Term) (h : ¬ (s.var.empty = false ∧ t.var.empty = false)) :
    ∃ u, s.mulW t = .ok u ∧ u.coef = s.coef * t.coef ∧
      (InI32 u.xpow ∧ u.xpow ≡ s.xpow + t.xpow [ZMOD 4294967296]) ∧
      (InI32 u.ypow ∧ u.ypow ≡ s.ypow + t.ypow [ZMOD 4294967296]) ∧
      (InI32 u.qpow ∧ u.qpow ≡ s.qpow + t.qpow [ZMOD 4294967296]) ∧
      u.var = if s.var.empty then t.var else s.var := by
  unfold Term.mulW
  have hc : (!s.var.empty && !t.var.empty) = false := by
    cases h1 : s.var.empty <;> cases h2 : t.var.empty <;> simp_all
  rw [hc]
  refine ⟨_, rfl, rfl, wrap32_spec _, wrap32_spec _, wrap32_spec _, ?_⟩
  simp only [Term.var]
  by_cases h1 : s.monomial.var.empty = true <;> simp [h1]

namespace Poly

/-- Value of a polynomial when `x`, `y`, `q` are given as units and the subscripted variables as elements. -/
def evalUnits {R : Type*} [CommRing R] (x y q : Rˣ) (v : ℤ × ℤ → R) (f : Poly) : R :=
  (f.entries.map fun e => (e.2 : R) * (((x ^ e.1.xpow * y ^ e.1.ypow * q ^ e.1.qpow : Rˣ) : R) *
    (if e.1.var.empty then 1 else v (e.1.var.i, e.1.var.j)))).sum

end Poly

section

variable {R : Type*} [CommRing R] (x y q : Rˣ) (v : ℤ × ℤ → R)

/-- The value of a key. -/
def keyUnits (k : Key) : R :=
  ((x ^ k.x * y ^ k.y * q ^ k.q : Rˣ) : R) * (match k.v with | none => 1 | some w => v w)

theorem evalUnits_eq (f : Poly) : f.evalUnits x y q v = f.lin (keyUnits x y q v) := by
  unfold Poly.evalUnits Poly.lin
  congr 1
  refine List.map_congr_left fun e _ => ?_
  rw [zsmul_eq_mul]
  unfold keyUnits Monomial.key SubVar.key
  cases e.1.var.empty <;> simp

theorem zpow_wrap {x : Rˣ} (hx : x ^ 4294967296 = 1) (n : ℤ) : x ^ wrap32 n = x ^ n := by
  have h := (wrap32_spec n).2
  obtain ⟨k, hk⟩ := h.dvd
  have : n = wrap32 n + 4294967296 * k := by omega
  conv_rhs => rw [this]
  rw [zpow_add, zpow_mul]
  have : x ^ (4294967296 : ℤ) = 1 := by exact_mod_cast hx
  rw [this, one_zpow, mul_one]

variable {x y q}

theorem keyUnits_mulW (hx : x ^ 4294967296 = 1) (hy : y ^ 4294967296 = 1) (hq : q ^ 4294967296 = 1) {s t u : Term}
    (h : s.mulW t = .ok u) : u.coef • keyUnits x y q v u.monomial.key =
      (s.coef • keyUnits x y q v s.monomial.key) * (t.coef • keyUnits x y q v t.monomial.key) := by
  unfold Term.mulW at h
  split at h
  · exact (nomatch h)
  · rename_i hc
    simp only [wrp, Res.ok_bind] at h
    injection h with h
    subst h
    obtain ⟨sc, ⟨sx, sy, sq, ⟨si, sj, se⟩⟩⟩ := s
    obtain ⟨tc, ⟨tx, ty, tq, ⟨ti, tj, te⟩⟩⟩ := t
    unfold keyUnits Monomial.key SubVar.key
    simp only [zpow_wrap hx, zpow_wrap hy, zpow_wrap hq, Term.xpow, Term.ypow, Term.qpow, Term.var, zpow_add] at *
    cases se <;> cases te <;> simp_all [zsmul_eq_mul] <;> ring

theorem lin_mulW (hx : x ^ 4294967296 = 1) (hy : y ^ 4294967296 = 1) (hq : q ^ 4294967296 = 1) {f g c : Poly}
    (h : f.mulW g = .ok c) : c.lin (keyUnits x y q v) = f.lin (keyUnits x y q v) * g.lin (keyUnits x y q v) := by
  set φ := keyUnits x y q v with hφ
  have row : ∀ (ie : Monomial × ℤ) (l : List (Monomial × ℤ)) (P Q : Poly),
      l.foldlM (fun pol je => do
        let u ← Term.mulW (Term.from' ie.1 ie.2) (Term.from' je.1 je.2)
        Res.ok (Poly.mulAcc pol u)) P = .ok Q →
      Q.lin φ = P.lin φ + (ie.2 • φ ie.1.key) * (l.map fun je => je.2 • φ je.1.key).sum := by
    intro ie l
    induction l with
    | nil =>
      intro P Q hQ
      have : P = Q := by simpa [Pure.pure] using hQ
      simp [this]
    | cons je t ih =>
      intro P Q hQ
      rw [List.foldlM_cons] at hQ
      match hu : Term.mulW (Term.from' ie.1 ie.2) (Term.from' je.1 je.2) with
      | .panic w => rw [hu] at hQ; exact (nomatch hQ)
      | .timeout => rw [hu] at hQ; exact (nomatch hQ)
      | .ok u =>
        rw [hu, Res.ok_bind, Res.ok_bind] at hQ
        rw [ih _ _ hQ, Poly.lin_mulAcc, keyUnits_mulW v hx hy hq hu]
        simp only [Term.from', List.map_cons, List.sum_cons, mul_add]
        rw [add_assoc]
  have rows : ∀ (l : List (Monomial × ℤ)) (P Q : Poly),
      l.foldlM (fun pol ie => g.entries.foldlM (fun pol je => do
        let u ← Term.mulW (Term.from' ie.1 ie.2) (Term.from' je.1 je.2)
        Res.ok (Poly.mulAcc pol u)) pol) P = .ok Q →
      Q.lin φ = P.lin φ + (l.map fun ie => ie.2 • φ ie.1.key).sum * g.lin φ := by
    intro l
    induction l with
    | nil =>
      intro P Q hQ
      have : P = Q := by simpa [Pure.pure] using hQ
      simp [this]
    | cons ie t ih =>
      intro P Q hQ
      rw [List.foldlM_cons] at hQ
      obtain ⟨P', h1, h2⟩ := Res.bind_eq_ok.1 hQ
      rw [ih _ _ h2, row _ _ _ _ h1]
      simp only [List.map_cons, List.sum_cons, add_mul, Poly.lin]
      ring
  have := rows f.entries Poly.new c h
  rw [this, Poly.lin_new, zero_add]
  rfl

end

/-- **C10.**  The product the release build returns is the product in every commutative ring in which the `2^32`-th powers of `x`,
`y` and `q` are 1 – that is, in the Laurent polynomial ring modulo `x^(2^32) = y^(2^32) = q^(2^32) = 1` – also where the dev build
panics. -/
theorem C10_release_mul {R : Type*} [CommRing R] (x y q : Rˣ) (v : ℤ × ℤ → R) (hx : x ^ 4294967296 = 1)
    (hy : y ^ 4294967296 = 1) (hq : q ^ 4294967296 = 1) (f g c : Poly) (h : f.mulW g = .ok c) :
    c.evalUnits x y q v = f.evalUnits x y q v * g.evalUnits x y q v := by
  rw [evalUnits_eq, evalUnits_eq, evalUnits_eq]
  exact lin_mulW v hx hy hq h

/-- **C10.**  In the release build a product panics only if two terms with variables meet. -/
theorem C10_release_returns (f g : Poly) :
    (∃ c, f.mulW g = .ok c) ↔ ∀ i ∈ f.entries, ∀ j ∈ g.entries, i.1.var.empty = true ∨ j.1.var.empty = true := by
  have row : ∀ (ie : Monomial × ℤ) (l : List (Monomial × ℤ)) (P : Poly),
      (∃ c, l.foldlM (fun pol je => do
        let u ← Term.mulW (Term.from' ie.1 ie.2) (Term.from' je.1 je.2)
        Res.ok (Poly.mulAcc pol u)) P = .ok c) ↔ ∀ j ∈ l, ie.1.var.empty = true ∨ j.1.var.empty = true := by
    intro ie l
    induction l with
    | nil => intro P; exact ⟨fun _ => by simp, fun _ => ⟨P, rfl⟩⟩
    | cons je t ih =>
      intro P
      rw [List.foldlM_cons]
      by_cases hv : ie.1.var.empty = false ∧ je.1.var.empty = false
      · have hu : Term.mulW (Term.from' ie.1 ie.2) (Term.from' je.1 je.2) = .panic .explicit := by
          unfold Term.mulW Term.from' Term.var; simp [hv.1, hv.2]
        rw [hu]
        refine ⟨fun ⟨c, hc⟩ => (nomatch hc), fun h => ?_⟩
        have := h je (by simp)
        simp [hv.1, hv.2] at this
      · obtain ⟨u, hu, -⟩ := C59_release_mul (Term.from' ie.1 ie.2) (Term.from' je.1 je.2) hv
        rw [hu, Res.ok_bind, Res.ok_bind, ih]
        have : ie.1.var.empty = true ∨ je.1.var.empty = true := by
          cases h1 : ie.1.var.empty <;> cases h2 : je.1.var.empty <;> simp_all
        simp [this]
  have rows : ∀ (l : List (Monomial × ℤ)) (P : Poly),
      (∃ c, l.foldlM (fun pol ie => g.entries.foldlM (fun pol je => do
        let u ← Term.mulW (Term.from' ie.1 ie.2) (Term.from' je.1 je.2)
        Res.ok (Poly.mulAcc pol u)) pol) P = .ok c) ↔
      ∀ i ∈ l, ∀ j ∈ g.entries, i.1.var.empty = true ∨ j.1.var.empty = true := by
    intro l
    induction l with
    | nil => intro P; exact ⟨fun _ => by simp, fun _ => ⟨P, rfl⟩⟩
    | cons ie t ih =>
      intro P
      rw [List.foldlM_cons]
      constructor
      · rintro ⟨c, hc⟩
        obtain ⟨P', h1, h2⟩ := Res.bind_eq_ok.1 hc
        intro i hi
        rcases List.mem_cons.1 hi with rfl | hi
        · exact (row i _ P).1 ⟨_, h1⟩
        · exact (ih P').1 ⟨_, h2⟩ i hi
      · intro h
        obtain ⟨P', h1⟩ := (row ie g.entries P).2 (h ie (by simp))
        obtain ⟨c, h2⟩ := (ih P').2 (fun i hi => h i (List.mem_cons_of_mem _ hi))
        exact ⟨c, by rw [h1]; exact h2⟩
  exact rows f.entries Poly.new

theorem lin_powLoopW {R : Type*} [CommRing R] {x y q : Rˣ} (v : ℤ × ℤ → R) (hx : x ^ 4294967296 = 1)
    (hy : y ^ 4294967296 = 1) (hq : q ^ 4294967296 = 1) (e : ℤ) (he : 1 ≤ e) (b r c : Poly)
    (h : Poly.powLoopW e b r = .ok c) :
    c.lin (keyUnits x y q v) = r.lin (keyUnits x y q v) * b.lin (keyUnits x y q v) ^ e.toNat := by
  obtain ⟨k, hk⟩ : ∃ k, e.toNat = k := ⟨_, rfl⟩
  induction k using Nat.strong_induction_on generalizing e b r with
  | _ k ih =>
    rw [Poly.powLoopW] at h
    by_cases h1 : e > 1
    · rw [if_pos h1] at h
      have e2 : e.tdiv 2 = e / 2 := Int.tdiv_eq_ediv_of_nonneg (by omega)
      by_cases h2 : e % 2 = 1
      · simp only [h2, if_true] at h
        obtain ⟨r', hr, h⟩ := Res.bind_eq_ok.1 h
        obtain ⟨b', hb, h⟩ := Res.bind_eq_ok.1 h
        rw [e2] at h
        have : e.toNat = 2 * (e / 2).toNat + 1 := by omega
        rw [ih _ (by omega) _ (by omega) _ _ h rfl, lin_mulW v hx hy hq hb, ← pow_two, ← pow_mul,
          lin_mulW v hx hy hq hr, this, pow_succ]
        ring
      · simp only [h2, if_false] at h
        obtain ⟨r', hr, h⟩ := Res.bind_eq_ok.1 h
        injection hr with hr
        subst hr
        obtain ⟨b', hb, h⟩ := Res.bind_eq_ok.1 h
        rw [e2] at h
        have : e.toNat = 2 * (e / 2).toNat := by omega
        rw [ih _ (by omega) _ (by omega) _ _ h rfl, lin_mulW v hx hy hq hb, ← pow_two, ← pow_mul, this]
    · rw [if_neg h1] at h
      have : e = 1 := by omega
      subst this
      rw [lin_mulW v hx hy hq h]
      simp

/-- **C12.**  Likewise a power in the release build is the power in every such ring. -/
theorem C12_release_power {R : Type*} [CommRing R] (x y q : Rˣ) (v : ℤ × ℤ → R) (hx : x ^ 4294967296 = 1)
    (hy : y ^ 4294967296 = 1) (hq : q ^ 4294967296 = 1) (f c : Poly) (n : ℤ) (h : f.powerW n = .ok c) :
    0 ≤ n ∧ c.evalUnits x y q v = f.evalUnits x y q v ^ n.toNat := by
  unfold Poly.powerW at h
  by_cases hn : 0 ≤ n
  · refine ⟨hn, ?_⟩
    have hr : rassert (decide (n ≥ 0)) = .ok () := by simp [rassert, hn]
    rw [hr, Res.ok_bind] at h
    have h1 : Poly.one.lin (keyUnits x y q v) = 1 := by
      unfold Poly.one
      rw [Poly.lin_toPol]
      simp [Term.one, TermBuilder.new, TermBuilder.build, keyUnits, Monomial.key, SubVar.key, SubVar.new]
    rw [evalUnits_eq, evalUnits_eq]
    by_cases h0 : n = 0
    · rw [if_pos h0] at h
      injection h with h
      rw [← h, h1, h0]; simp
    · rw [if_neg h0] at h
      rw [lin_powLoopW v hx hy hq n (by omega) _ _ _ h, h1, one_mul]
  · have hr : rassert (decide (n ≥ 0)) = .panic .assertion := by simp [rassert, hn]
    rw [hr] at h
    exact (nomatch h)

/-- **C10.**  The release build returns wrong products without a panic: `x^(2^31 - 1) * x` is `x^(-2^31)`, so the product in the
Laurent polynomial ring is not what is returned. -/
theorem C10_release_refuted : ∃ f g c : Poly, f.mul g = .panic .overflow ∧ f.mulW g = .ok c ∧ c.val ≠ f.val * g.val := by
  let f := ((TermBuilder.new).xpow 2147483647).build.toPol
  let g := ((TermBuilder.new).xpow 1).build.toPol
  let c := ((TermBuilder.new).xpow (-2147483648)).build.toPol
  refine ⟨f, g, c, by decide +kernel, by decide +kernel, ?_⟩
  rw [Poly.val_eq_lin, Poly.val_eq_lin, Poly.val_eq_lin, Poly.lin_toPol, Poly.lin_toPol, Poly.lin_toPol]
  intro h
  have e : ∀ n : ℤ, (((TermBuilder.new).xpow n).build.coef • ((TermBuilder.new).xpow n).build.monomial.key.val : LRing) =
      AddMonoidAlgebra.single (n, 0, 0, 0) 1 := by
    intro n
    simp [TermBuilder.build, TermBuilder.xpow, TermBuilder.new, Key.val, Key.expo, Monomial.key, SubVar.key, SubVar.new]
  rw [e, e, e, AddMonoidAlgebra.single_mul_single] at h
  rw [mul_one, AddMonoidAlgebra.single_left_inj one_ne_zero] at h
  have h2 := congrArg Prod.fst h
  norm_num at h2

/-! ### Concrete cases -/

-- no overflow: both builds return `x^2`
example : let x := ((TermBuilder.new).xpow 1).build.toPol
    x.mul x ≠ .panic .overflow ∧ x.mulW x = .ok ((TermBuilder.new).xpow 2).build.toPol := by decide +kernel

-- `schoof` squares q in `i32`: for q = 65537 the dev build panics and the release build goes on with exponent 131073
example : chk (65537 ^ 2) = .panic .overflow ∧ wrp (65537 ^ 2) = .ok 131073 := by decide +kernel

-- `j_invariant(i32::MAX)` panics in the dev build; in the release build the order is `-2^31`
example : jInvariantQ 2147483647 = .panic .overflow ∧ wrp (2147483647 + 1) = .ok (-2147483648) := by decide +kernel

-- a ring in which `C10_release_mul` speaks about the overflowing product: ℤ with x = y = q = -1
example : ((-1 : ℤˣ)) ^ 4294967296 = 1 := Even.neg_one_pow (by decide)

-- a power that overflows in the dev build and returns in the release build: `(x^(2^30))^2` is `x^(-2^31)`
example : let f := ((TermBuilder.new).xpow 1073741824).build.toPol
    f.power 2 = .panic .overflow ∧ f.powerW 2 = .ok ((TermBuilder.new).xpow (-2147483648)).build.toPol := by decide +kernel

-- two variables still panic in the release build
example : let f := ((TermBuilder.new).var ⟨1, 2, false⟩).build.toPol
    f.mulW f = .panic .explicit := by decide +kernel

end EC
