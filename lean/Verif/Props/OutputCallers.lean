import Verif.Props.Output

/-! C99: what the callers of `plus` print: `multiply_scalar`, `point_order`, `division_points`, `isogeny`. -/

namespace EC

open EllipticCurve

/-- The only two things a computation on points of `ec` can do with the terminal: print nothing, or print one point
that is not on the curve and panic. -/
def Quiet {α : Type} (ec : EllipticCurve) (o : Out α) : Prop :=
  o.lines = [] ∨ ∃ P, ec.isOnCurve P = .ok false ∧ o.lines = [P.display] ∧ o.res = .panic .assertion

variable {α β : Type} {ec : EllipticCurve}

theorem Quiet.lift (r : Res α) : Quiet ec (Out.lift r) := Or.inl rfl

theorem Quiet.pure (a : α) : Quiet ec (pure a : Out α) := Or.inl rfl

theorem Quiet.plus (ec : EllipticCurve) (P Q : ECPoint) : Quiet ec (ec.plusOut P Q) := by
  obtain ⟨h1, h2, h3⟩ := C99_plus ec P Q
  by_cases h : ec.isOnCurve P = .ok false
  · exact Or.inr ⟨P, h, (h2 h).1, h1.trans (h2 h).2⟩
  · exact Or.inl (h3 h)

theorem Quiet.bind {x : Out α} {f : α → Out β} (hx : Quiet ec x) (hf : ∀ a, Quiet ec (f a)) : Quiet ec (x >>= f) := by
  rcases hx with h | ⟨P, h1, h2, h3⟩
  · cases hr : x.res with
    | ok a =>
      rcases hf a with h' | ⟨P, h1, h2, h3⟩
      · exact Or.inl (by rw [Out.bind_lines_ok hr, h, h']; rfl)
      · exact Or.inr ⟨P, h1, by rw [Out.bind_lines_ok hr, h, h2]; rfl, by rw [Out.bind_res, hr]; exact h3⟩
    | panic w =>
      rcases Out.bind_lines_cases x f with h' | ⟨a, h', -⟩
      · exact Or.inl (h'.trans h)
      · rw [hr] at h'; cases h'
    | timeout =>
      rcases Out.bind_lines_cases x f with h' | ⟨a, h', -⟩
      · exact Or.inl (h'.trans h)
      · rw [hr] at h'; cases h'
  · refine Or.inr ⟨P, h1, ?_, ?_⟩
    · rcases Out.bind_lines_cases x f with h' | ⟨a, h', -⟩
      · exact h'.trans h2
      · rw [h3] at h'; cases h'
    · rw [Out.bind_res, h3]; rfl

theorem plusOut_res (P Q : ECPoint) : (ec.plusOut P Q).res = ec.plus P Q := (C99_plus ec P Q).1

theorem mulLoopOut_spec (ec : EllipticCurve) (e : ℤ) (b r : ECPoint) :
    (ec.mulLoopOut e b r).res = ec.mulLoop e b r ∧ Quiet ec (ec.mulLoopOut e b r) := by
  induction h : e.toNat using Nat.strong_induction_on generalizing e b r with
  | _ n ih =>
    rw [mulLoopOut, mulLoop]
    by_cases he : e > 1
    · have ht : e.tdiv 2 = e / 2 := Int.tdiv_eq_ediv_of_nonneg (by omega)
      have key := fun b r => ih (e.tdiv 2).toNat (by omega) (e.tdiv 2) b r rfl
      rw [if_pos he, if_pos he]
      dsimp only
      by_cases ho : e % 2 = 1
      · rw [if_pos ho, if_pos ho]
        refine ⟨?_, Quiet.bind (Quiet.plus ec _ _) fun r' => Quiet.bind (Quiet.plus ec _ _) fun b' => (key b' r').2⟩
        rw [Out.bind_res, plusOut_res]
        congr 1
        funext r'
        rw [Out.bind_res, plusOut_res]
        congr 1
        funext b'
        exact (key b' r').1
      · rw [if_neg ho, if_neg ho]
        refine ⟨?_, Quiet.bind (Quiet.pure _) fun r' => Quiet.bind (Quiet.plus ec _ _) fun b' => (key b' r').2⟩
        rw [Out.bind_res, Out.pure_res]
        congr 1
        funext r'
        rw [Out.bind_res, plusOut_res]
        congr 1
        funext b'
        exact (key b' r').1
    · rw [if_neg he, if_neg he]
      exact ⟨plusOut_res _ _, Quiet.plus ec _ _⟩

theorem mulPosOut_spec (ec : EllipticCurve) (P : ECPoint) (n : ℤ) :
    (ec.mulPosOut P n).res = ec.mulPos P n ∧ Quiet ec (ec.mulPosOut P n) := by
  unfold mulPosOut mulPos
  split
  · exact ⟨rfl, Quiet.pure _⟩
  · exact mulLoopOut_spec ec _ _ _

theorem multiplyScalarOut_spec (ec : EllipticCurve) (P : ECPoint) (n : ℤ) :
    (ec.multiplyScalarOut P n).res = ec.multiplyScalar P n ∧ Quiet ec (ec.multiplyScalarOut P n) := by
  unfold multiplyScalarOut multiplyScalar
  split
  · exact ⟨rfl, Quiet.pure _⟩
  split
  · refine ⟨?_, Quiet.bind (mulPosOut_spec ec _ _).2 fun _ => Quiet.plus ec _ _⟩
    rw [Out.bind_res, (mulPosOut_spec ec _ _).1]
    simp only [plusOut_res]
  · exact mulPosOut_spec ec _ _

theorem orderLoopOut_spec (ec : EllipticCurve) (P : ECPoint) (fuel : ℕ) (r : ECPoint) (x : ℤ) :
    (ec.orderLoopOut P fuel r x).res = ec.orderLoop P fuel r x ∧ Quiet ec (ec.orderLoopOut P fuel r x) := by
  induction fuel generalizing r x with
  | zero => exact ⟨rfl, Quiet.lift _⟩
  | succ n ih =>
    rw [orderLoopOut, orderLoop]
    refine ⟨?_, Quiet.bind (Quiet.plus ec _ _) fun r' => ?_⟩
    · rw [Out.bind_res, plusOut_res]
      congr 1
      funext r'
      split
      · rfl
      · exact (ih _ _).1
    · split
      · exact Quiet.pure _
      · exact (ih _ _).2

theorem pointOrderOut_spec (fuel : ℕ) (ec : EllipticCurve) (P : ECPoint) :
    (ec.pointOrderOut fuel P).res = ec.pointOrder fuel P ∧ Quiet ec (ec.pointOrderOut fuel P) := by
  unfold pointOrderOut pointOrder
  split
  · exact ⟨rfl, Quiet.pure _⟩
  · exact orderLoopOut_spec ec _ _ _ _

theorem divisionLoopOut_spec (ec : EllipticCurve) (order : ℤ) (l vec : List ECPoint) :
    (ec.divisionLoopOut order l vec).res = l.foldlM (fun vec P => do
      let R ← ec.multiplyScalar P order
      .ok (if R = ECPoint.infinity then vec ++ [P] else vec)) vec ∧ Quiet ec (ec.divisionLoopOut order l vec) := by
  induction l generalizing vec with
  | nil => exact ⟨rfl, Quiet.pure _⟩
  | cons P t ih =>
    rw [divisionLoopOut]
    refine ⟨?_, Quiet.bind (multiplyScalarOut_spec ec _ _).2 fun R => (ih _).2⟩
    rw [Out.bind_res, (multiplyScalarOut_spec ec _ _).1, List.foldlM_cons]
    cases hm : ec.multiplyScalar P order with
    | ok R => exact (ih _).1
    | panic w => rfl
    | timeout => rfl

theorem divisionPointsOut_spec (ec : EllipticCurve) (order : ℤ) :
    (ec.divisionPointsOut order).res = ec.divisionPoints order ∧ Quiet ec (ec.divisionPointsOut order) :=
  divisionLoopOut_spec ec order _ _

theorem isogenyOut_spec (ec : EllipticCurve) (order : ℤ) :
    (ec.isogenyOut order).res = ec.isogeny order ∧ Quiet ec (ec.isogenyOut order) := by
  unfold isogenyOut isogeny
  refine ⟨?_, Quiet.bind (divisionPointsOut_spec ec _).2 fun R => Quiet.lift _⟩
  rw [Out.bind_res, (divisionPointsOut_spec ec _).1]
  rfl

/-- **C99.**  `multiply_scalar`, `point_order`, `division_points` and `isogeny` have the same outcome with and without
their output; they print nothing unless they panic, and then at most one line, a point that is not on the curve. -/
theorem C99_callers_of_plus (ec : EllipticCurve) (P : ECPoint) (n : ℤ) (fuel : ℕ) :
    ((ec.multiplyScalarOut P n).res = ec.multiplyScalar P n ∧ ((ec.multiplyScalarOut P n).lines = [] ∨
      ∃ Q, ec.isOnCurve Q = .ok false ∧ (ec.multiplyScalarOut P n).lines = [Q.display] ∧
        ec.multiplyScalar P n = .panic .assertion)) ∧
    ((ec.pointOrderOut fuel P).res = ec.pointOrder fuel P ∧ ((ec.pointOrderOut fuel P).lines = [] ∨
      ∃ Q, ec.isOnCurve Q = .ok false ∧ (ec.pointOrderOut fuel P).lines = [Q.display] ∧
        ec.pointOrder fuel P = .panic .assertion)) ∧
    ((ec.divisionPointsOut n).res = ec.divisionPoints n ∧ ((ec.divisionPointsOut n).lines = [] ∨
      ∃ Q, ec.isOnCurve Q = .ok false ∧ (ec.divisionPointsOut n).lines = [Q.display] ∧
        ec.divisionPoints n = .panic .assertion)) ∧
    ((ec.isogenyOut n).res = ec.isogeny n ∧ ((ec.isogenyOut n).lines = [] ∨
      ∃ Q, ec.isOnCurve Q = .ok false ∧ (ec.isogenyOut n).lines = [Q.display] ∧
        ec.isogeny n = .panic .assertion)) := by
  obtain ⟨a1, a2⟩ := multiplyScalarOut_spec ec P n
  obtain ⟨b1, b2⟩ := pointOrderOut_spec fuel ec P
  obtain ⟨c1, c2⟩ := divisionPointsOut_spec ec n
  obtain ⟨d1, d2⟩ := isogenyOut_spec ec n
  unfold Quiet at a2 b2 c2 d2
  rw [a1] at a2
  rw [b1] at b2
  rw [c1] at c2
  rw [d1] at d2
  exact ⟨⟨a1, a2⟩, ⟨b1, b2⟩, ⟨c1, c2⟩, ⟨d1, d2⟩⟩

theorem isOnCurve_infinity (ec : EllipticCurve) : ec.isOnCurve ECPoint.infinity = .ok true := rfl

theorem plusOut_second {P Q : ECPoint} (hP : ec.isOnCurve P = .ok true) (hQ : ec.isOnCurve Q = .ok false) :
    ec.plusOut P Q = ⟨[], .panic .assertion⟩ := by
  have h1 : ec.plus P Q = .panic .assertion := by
    unfold EllipticCurve.plus
    rw [hP, hQ]
    rfl
  obtain ⟨r1, -, r3⟩ := C99_plus ec P Q
  have := r3 (by rw [hP]; simp)
  rw [h1] at r1
  cases h : ec.plusOut P Q with
  | mk l r => rw [h] at this r1; cases this; cases r1; rfl

theorem plusOut_first {P : ECPoint} (Q : ECPoint) (hP : ec.isOnCurve P = .ok false) :
    ec.plusOut P Q = ⟨[P.display], .panic .assertion⟩ := by
  obtain ⟨r1, r2, -⟩ := C99_plus ec P Q
  obtain ⟨r2, r4⟩ := r2 hP
  rw [r4] at r1
  cases h : ec.plusOut P Q with
  | mk l r => rw [h] at r2 r1; cases r2; cases r1; rfl

theorem mulLoopOut_off {P : ECPoint} (hP : ec.isOnCurve P = .ok false) {n : ℤ} (hn : 2 ≤ n) :
    ec.mulLoopOut n P ECPoint.infinity = ⟨if n % 2 = 0 then [P.display] else [], .panic .assertion⟩ := by
  rw [mulLoopOut, if_pos (by omega)]
  by_cases h : n % 2 = 1
  · rw [if_pos h, if_neg (by omega), plusOut_second (isOnCurve_infinity ec) hP]
    rfl
  · rw [if_neg h, if_pos (by omega), plusOut_first P hP]
    rfl

/-- **C99.**  The exact behaviour of `multiply_scalar` on a point that is not on the curve: `0·P` is infinity, `1·P` is `P`
itself, every other multiple panics, and the point is printed before the panic exactly when the multiple is even. -/
theorem C99_multiply_scalar_off_curve (ec : EllipticCurve) (P : ECPoint) (hP : ec.isOnCurve P = .ok false) (n : ℤ) :
    ec.multiplyScalarOut P n =
      if n = 0 then ⟨[], .ok ECPoint.infinity⟩ else if n = 1 then ⟨[], .ok P⟩
      else if n % 2 = 0 then ⟨[P.display], .panic .assertion⟩ else ⟨[], .panic .assertion⟩ := by
  unfold multiplyScalarOut mulPosOut
  by_cases h0 : n = 0
  · rw [if_pos h0, if_pos h0]; rfl
  rw [if_neg h0, if_neg h0]
  by_cases hneg : n < 0
  · rw [if_pos hneg, if_neg (show ¬ n = 1 by omega)]
    by_cases h1 : -n = 1
    · rw [if_pos h1, if_neg (show ¬ n % 2 = 0 by omega)]
      show ec.plusOut ECPoint.infinity P = _
      exact plusOut_second (isOnCurve_infinity ec) hP
    · rw [if_neg h1, mulLoopOut_off hP (by omega)]
      by_cases h2 : n % 2 = 0
      · rw [if_pos (show -n % 2 = 0 by omega), if_pos h2]; rfl
      · rw [if_neg (show ¬ -n % 2 = 0 by omega), if_neg h2]; rfl
  · rw [if_neg hneg]
    by_cases h1 : n = 1
    · rw [if_pos h1, if_pos h1]; rfl
    · rw [if_neg h1, if_neg h1, mulLoopOut_off hP (by omega)]
      split <;> rfl

/-- **C99.**  `point_order` of a point that is not on the curve prints that point and panics, whatever the fuel. -/
theorem C99_point_order_off_curve (ec : EllipticCurve) (P : ECPoint) (hP : ec.isOnCurve P = .ok false) (fuel : ℕ) :
    ec.pointOrderOut (fuel + 1) P = ⟨[P.display], .panic .assertion⟩ := by
  have hi : P.isInfinity = false := by
    rw [Bool.eq_false_iff]
    intro h
    unfold EllipticCurve.isOnCurve at hP
    rw [if_pos h] at hP
    cases hP
  unfold pointOrderOut
  rw [hi, orderLoopOut, plusOut_first P hP]
  rfl

/-- A point that is not on the curve: `(1, 1)` on `y² = x³ + 1` over `F_5`. -/
example : (newRaw 0 1 5).isOnCurve ⟨1, 1, 1⟩ = .ok false := by decide +kernel

/-- What `multiply_scalar` does with it, for the multiples 2 and 3. -/
example : (newRaw 0 1 5).multiplyScalarOut ⟨1, 1, 1⟩ 2 = ⟨["(1, 1)".toList], .panic .assertion⟩ ∧
    (newRaw 0 1 5).multiplyScalarOut ⟨1, 1, 1⟩ 3 = ⟨[], .panic .assertion⟩ := by
  have h : (newRaw 0 1 5).isOnCurve ⟨1, 1, 1⟩ = .ok false := by decide +kernel
  have hd : (⟨1, 1, 1⟩ : ECPoint).display = "(1, 1)".toList := by decide +kernel
  rw [C99_multiply_scalar_off_curve _ _ h, C99_multiply_scalar_off_curve _ _ h, ← hd]
  exact ⟨rfl, rfl⟩

end EC
