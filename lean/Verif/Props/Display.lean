import Verif.Lemmas.Display
import Verif.Lemmas.Curve
import Verif.Props.PolyRing

/-! Properties C57, C58, C60: printed text. -/

namespace EC

/-! ### C57 -/

/-- C57: the text printed for a polynomial, read as ordinary notation (`Verif.Spec.Text`), denotes
that polynomial.  No hypothesis: it also holds with stored zero coefficients. -/
theorem C57_read_display (P : Poly) : readText P.display = P.val := readText_poly P

/-- C57: the same for a single term. -/
theorem C57_read_display_term (t : Term) : readText t.display = t.val := readText_term t.monomial t.coef

/-- C57: polynomials that print the same text are equal as ring elements. -/
theorem C57_display_injective (P Q : Poly) (h : P.display = Q.display) : P.val = Q.val := by
  rw [← C57_read_display, ← C57_read_display, h]

/-- C57: without stored zero coefficients, printing the same text is the same as being equal
(`==`). -/
theorem C57_display_eq_iff (P Q : Poly) (hP : P.Canon) (hQ : Q.Canon) :
    P.display = Q.display ↔ P.eq Q = true := by
  rw [poly_display_iff hP hQ, Poly.eq_iff_kv]

example : sampleXYQ.Canon ∧ sampleX1.Canon := by
  unfold Poly.Canon; decide +kernel
example : sampleXYQ.display = "3 x^2 y + 5 c_1_2 - q^-1".toList := by decide +kernel
example : Poly.new.display = "0".toList := by decide +kernel
example : ((TermBuilder.new.coef (-1)).xpow 2).build.display = "- x^2".toList := by decide +kernel

/-! ### C58 -/

/-- C58: `O` is printed exactly for points at infinity. -/
theorem C58_display_infinity (P : ECPoint) : P.display = "O".toList ↔ P.z = 0 := by
  have e : "O".toList = ['O'] := by decide
  rw [e]
  unfold ECPoint.display ECPoint.isInfinity
  by_cases h : P.z = 0 <;> simp [h]

/-- C58: an affine point is printed as `(x, y)`: the text is `(`, a decimal numeral for `x`, `, `, a
decimal numeral for `y`, `)`. -/
theorem C58_display_affine (P : ECPoint) (h : P.z ≠ 0) :
    ∃ sx sy, P.display = "(".toList ++ sx ++ ", ".toList ++ sy ++ ")".toList ∧
      readInt sx = P.x ∧ readInt sy = P.y ∧
      (∀ c ∈ sx ++ sy, c.isDigit = true ∨ c = '-') := by
  refine ⟨intStr P.x, intStr P.y, ?_, readInt_intStr _, readInt_intStr _, ?_⟩
  · have e1 : "(".toList = ['('] := by decide
    have e2 : ", ".toList = [',', ' '] := by decide
    have e3 : ")".toList = [')'] := by decide
    simp [ECPoint.display, ECPoint.isInfinity, h, e1, e2, e3]
  · intro c hc
    rcases List.mem_append.1 hc with hc | hc <;> exact mem_intStr hc

/-- C58: two points print the same exactly when both are at infinity or both are affine with the
same `x` and `y`. -/
theorem C58_display_eq_iff (P Q : ECPoint) :
    P.display = Q.display ↔ (P.z = 0 ∧ Q.z = 0) ∨ (P.z ≠ 0 ∧ Q.z ≠ 0 ∧ P.x = Q.x ∧ P.y = Q.y) := by
  constructor
  · exact ECPoint.display_inj
  · rintro (⟨h1, h2⟩ | ⟨h1, h2, h3, h4⟩)
    · rw [(C58_display_infinity P).2 h1, (C58_display_infinity Q).2 h2]
    · simp [ECPoint.display, ECPoint.isInfinity, h1, h2, h3, h4]

/-- C58: a list of points is printed with `, ` between the points. -/
theorem C58_display_points (v : List ECPoint) :
    displayPoints v = (", ".toList).intercalate (v.map ECPoint.display) := by
  have e2 : ", ".toList = [',', ' '] := by decide
  rw [e2]
  cases v with
  | nil => rfl
  | cons P v =>
    rw [displayPoints_cons]
    induction v generalizing P with
    | nil => simp [List.intercalate]
    | cons Q v ih =>
      have := ih Q
      simp only [List.map_cons, List.flatMap_cons] at this ⊢
      simp [List.intercalate] at this ⊢
      rw [this]

/-- C58: two lists of points print the same only if they have the same length and print the same
point by point. -/
theorem C58_display_points_injective (v w : List ECPoint) (h : displayPoints v = displayPoints w) :
    v.map ECPoint.display = w.map ECPoint.display := by
  have hne : ∀ P : ECPoint, P.display ≠ [] := by
    intro P; unfold ECPoint.display; split_ifs <;> simp
  have key : ∀ v w : List ECPoint,
      v.flatMap (fun P => ',' :: ' ' :: P.display) = w.flatMap (fun P => ',' :: ' ' :: P.display) →
      v.map ECPoint.display = w.map ECPoint.display := by
    intro v
    induction v with
    | nil => intro w h; cases w with
      | nil => rfl
      | cons Q w => simp at h
    | cons P v ih => intro w h; cases w with
      | nil => simp at h
      | cons Q w =>
        simp only [List.flatMap_cons, List.cons_append, List.cons.injEq, true_and] at h
        obtain ⟨h1, h2⟩ := ECPoint.display_append_inj h
        rw [List.map_cons, List.map_cons, h1, ih w h2]
  cases v with
  | nil => cases w with
    | nil => rfl
    | cons Q w =>
      rw [displayPoints_cons] at h
      have := hne Q
      simp [displayPoints, this] at h
  | cons P v => cases w with
    | nil =>
      rw [displayPoints_cons] at h
      have := hne P
      simp [displayPoints, this] at h
    | cons Q w =>
      rw [displayPoints_cons, displayPoints_cons] at h
      obtain ⟨h1, h2⟩ := ECPoint.display_append_inj h
      rw [List.map_cons, List.map_cons, h1, key v w h2]

example : displayPoints [⟨3, -4, 1⟩, ⟨0, 1, 0⟩, ⟨12, 5, 1⟩] = "(3, -4), O, (12, 5)".toList := by decide +kernel

/-! ### C60 -/

/-- C60: the text of a curve can be computed exactly when its j-invariant can. -/
theorem C60_display_returns (ec : EllipticCurve) :
    (∃ s, ec.display = .ok s) ↔ ∃ j, ec.jInvariant = .ok j := by
  unfold EllipticCurve.display
  constructor
  · rintro ⟨s, h⟩
    obtain ⟨j, hj, _⟩ := Res.bind_eq_ok.1 h
    exact ⟨j, hj⟩
  · rintro ⟨j, hj⟩
    exact ⟨_, by rw [hj]; rfl⟩

/-- C60: the printed text of a curve determines its coefficients, its field, the number of its
listed points and its j-invariant. -/
theorem C60_display_injective (ec ec' : EllipticCurve) (h : ec.WF) (h' : ec'.WF) (s : List Char)
    (hs : ec.display = .ok s) (hs' : ec'.display = .ok s) :
    ec.p = ec'.p ∧ ec.a = ec'.a ∧ ec.b = ec'.b ∧ ec.cardinality = ec'.cardinality ∧
      ec.jInvariant = ec'.jInvariant := by
  unfold EllipticCurve.display at hs hs'
  obtain ⟨j, hj, e⟩ := Res.bind_eq_ok.1 hs
  obtain ⟨j', hj', e'⟩ := Res.bind_eq_ok.1 hs'
  have h0 := (Res.ok.inj e).trans (Res.ok.inj e').symm
  have t1 : "F_".toList = ['F', '_'] := by decide
  have t2 : ": y^2 = ".toList = [':', ' ', 'y', '^', '2', ' ', '=', ' '] := by decide
  have t3 : ", cardinality:".toList = [',', ' ', 'c', 'a', 'r', 'd', 'i', 'n', 'a', 'l', 'i', 't', 'y', ':'] := by
    decide
  have t4 : ", j:".toList = [',', ' ', 'j', ':'] := by decide
  rw [t1, t2, t3, t4] at h0
  simp only [List.append_assoc, List.cons_append, List.nil_append, List.cons.injEq, true_and] at h0
  obtain ⟨hp, h0⟩ := append_sep_inj (not_mem_intStr (by decide) (by decide))
    (not_mem_intStr (by decide) (by decide)) h0
  simp only [List.cons.injEq, true_and] at h0
  obtain ⟨hpol, h0⟩ := append_sep_inj (comma_not_mem_display _) (comma_not_mem_display _) h0
  simp only [List.cons.injEq, true_and] at h0
  obtain ⟨hc, h0⟩ := append_sep_inj (not_mem_natDigits (by decide)) (not_mem_natDigits (by decide)) h0
  simp only [List.cons.injEq, true_and] at h0
  have hv := Poly.val_injective.1 (C57_display_injective _ _ hpol)
  rw [h, h'] at hv
  have ev : ∀ x : ℤ, x ^ 3 + ec.a * x + ec.b = x ^ 3 + ec'.a * x + ec'.b := by
    intro x
    rw [← EllipticCurve.evalXY_curvePol ec.a ec.b x 0, ← EllipticCurve.evalXY_curvePol ec'.a ec'.b x 0, Poly.evalXY_eq_lin,
      Poly.evalXY_eq_lin]
    exact Poly.lin_congr _ hv
  have e0 := ev 0
  have e1 := ev 1
  refine ⟨intStr_inj hp, by linarith, by linarith, natDigits_inj hc, ?_⟩
  rw [hj, hj', intStr_inj h0]

example : (EllipticCurve.newRaw 1132 278 2003).display =
    .ok "F_2003: y^2 = x^3 + 1132 x + 278, cardinality:0, j:171".toList := by decide +kernel

end EC
