import Verif.Model.Output
import Verif.Props.Display
import Verif.Props.Schoof
import Verif.Props.BigInt

/-! C99: what `chinese_remainder`, `plus` and `schoof` print. -/

namespace EC

namespace Out
variable {α β : Type}

@[simp] theorem bind_res (x : Out α) (f : α → Out β) : (x >>= f).res = x.res >>= fun a => (f a).res := by
  obtain ⟨l, r⟩ := x
  cases r <;> rfl

theorem bind_lines_ok {x : Out α} {a : α} (h : x.res = .ok a) (f : α → Out β) :
    (x >>= f).lines = x.lines ++ (f a).lines := by
  obtain ⟨l, r⟩ := x
  cases h
  rfl

theorem bind_lines_cases (x : Out α) (f : α → Out β) :
    (x >>= f).lines = x.lines ∨ ∃ a, x.res = .ok a ∧ (x >>= f).lines = x.lines ++ (f a).lines := by
  obtain ⟨l, r⟩ := x
  cases r
  · exact Or.inr ⟨_, rfl, rfl⟩
  · exact Or.inl rfl
  · exact Or.inl rfl

@[simp] theorem lift_res (r : Res α) : (lift r).res = r := rfl
@[simp] theorem lift_lines (r : Res α) : (lift r).lines = [] := rfl
@[simp] theorem pure_res (a : α) : (pure a : Out α).res = .ok a := rfl
@[simp] theorem pure_lines (a : α) : (pure a : Out α).lines = [] := rfl
@[simp] theorem println_res (s : Line) : (println s).res = .ok () := rfl
@[simp] theorem println_lines (s : Line) : (println s).lines = [s] := rfl

@[simp] theorem println_bind_lines (s : Line) (f : Unit → Out β) : (println s >>= f).lines = s :: (f ()).lines := rfl
@[simp] theorem println_bind_res (s : Line) (f : Unit → Out β) : (println s >>= f).res = (f ()).res := rfl

/-- A printing computation that returned has a part that returned and a rest. -/
theorem bind_eq_ok {x : Out α} {f : α → Out β} {b : β} (h : (x >>= f).res = .ok b) :
    ∃ a, x.res = .ok a ∧ (f a).res = .ok b ∧ (x >>= f).lines = x.lines ++ (f a).lines := by
  rw [bind_res] at h
  obtain ⟨a, ha, h⟩ := Res.bind_eq_ok.1 h
  exact ⟨a, ha, h, bind_lines_ok ha f⟩

end Out

/-! ### `chinese_remainder` -/

theorem crtLoopOut (rs : List ModResult) (acc : ModResult) :
    (chineseRemainderLoopOut rs acc).res = .ok (rs.foldl crtStep acc) ∧
    (chineseRemainderLoopOut rs acc).lines.length = rs.length ∧
    ∀ k, k < rs.length → (chineseRemainderLoopOut rs acc).lines[k]? = some (crtLine ((rs.take (k + 1)).foldl crtStep acc)) := by
  induction rs generalizing acc with
  | nil => exact ⟨rfl, rfl, by simp⟩
  | cons s t ih =>
    obtain ⟨h1, h2, h3⟩ := ih (crtStep acc s)
    refine ⟨h1, ?_, ?_⟩
    · show (_ :: (chineseRemainderLoopOut t (crtStep acc s)).lines).length = _
      simp [h2]
    · intro k hk
      show (crtLine (crtStep acc s) :: (chineseRemainderLoopOut t (crtStep acc s)).lines)[k]? = _
      cases k with
      | zero => rfl
      | succ k =>
        rw [List.getElem?_cons_succ, h3 k (by simpa using hk)]
        rfl

/-- C99: `chinese_remainder` prints one line for each congruence; the `k`-th line shows the answer for the first `k+1`
congruences, so the last one shows the result. -/
theorem C99_chinese_remainder (rs : List ModResult) :
    (chineseRemainderOut rs).res = .ok (chineseRemainder rs) ∧
    (chineseRemainderOut rs).lines.length = rs.length ∧
    ∀ k, k < rs.length → (chineseRemainderOut rs).lines[k]? =
      some ("r:".toList ++ intStr (chineseRemainder (rs.take (k + 1))).r ++ " l:".toList ++
        intStr (chineseRemainder (rs.take (k + 1))).l) := crtLoopOut rs _

/-- C99: for positive, pairwise coprime moduli every line `r:R l:L` that is printed is a correct solution of the
congruences so far: `L` is the product of their moduli and `R` satisfies each of them. -/
theorem C99_chinese_remainder_correct (rs : List ModResult)
    (hpos : ∀ s ∈ rs, 0 < s.l) (hpw : rs.Pairwise (fun s t => IsCoprime s.l t.l)) (k : ℕ) (hk : k < rs.length) :
    ∃ R L : ℤ, (chineseRemainderOut rs).lines[k]? = some ("r:".toList ++ intStr R ++ " l:".toList ++ intStr L) ∧
      L = ((rs.take (k + 1)).map (·.l)).prod ∧ ∀ i (hi : i < rs.length), i ≤ k → R ≡ rs[i].r [ZMOD rs[i].l] := by
  obtain ⟨h1, h2, -⟩ := C05_chinese_remainder (rs.take (k + 1)) (fun s hs => hpos s (List.mem_of_mem_take hs))
    (hpw.sublist (List.take_sublist _ _))
  refine ⟨_, _, (C99_chinese_remainder rs).2.2 k hk, h1, fun i hi hik => h2 _ ?_⟩
  rw [List.mem_take_iff_getElem]
  exact ⟨i, by omega, rfl⟩

/-! ### `plus` -/

/-- C99: `plus` prints only when its first argument is not on the curve: then it prints that point, and panics. -/
theorem C99_plus (ec : EllipticCurve) (P Q : ECPoint) :
    (ec.plusOut P Q).res = ec.plus P Q ∧
    (ec.isOnCurve P = .ok false → (ec.plusOut P Q).lines = [P.display] ∧ ec.plus P Q = .panic .assertion) ∧
    (ec.isOnCurve P ≠ .ok false → (ec.plusOut P Q).lines = []) := by
  refine ⟨?_, ?_, ?_⟩
  · unfold EllipticCurve.plusOut EllipticCurve.plus
    rw [Out.bind_res, Out.lift_res]
    cases h : ec.isOnCurve P with
    | ok b =>
      cases b
      · rfl
      · simp only [Res.ok_bind]
        show (Out.lift _).res = _
        simp only [Out.lift_res, h, Res.ok_bind]
    | panic w => rfl
    | timeout => rfl
  · intro h
    constructor
    · unfold EllipticCurve.plusOut; rw [h]; rfl
    · unfold EllipticCurve.plus; rw [h]; rfl
  · intro h
    unfold EllipticCurve.plusOut
    cases h' : ec.isOnCurve P with
    | ok b =>
      cases b
      · exact absurd h' h
      · rfl
    | panic w => rfl
    | timeout => rfl

/-! ### `schoof`: printing does not change the result -/

theorem schoofXTest_eq (fuel : ℕ) (a b q : ℤ) (num1 den1 psiL : Poly) (j : ℤ) :
    schoofXTest fuel a b q num1 den1 psiL j = schoofXPol fuel a b q num1 den1 psiL j >>= fun p => .ok p.isZero := by
  unfold schoofXTest schoofXPol
  simp only [bind_assoc]

theorem schoofFindJOut_res (fuel : ℕ) (a b q l : ℤ) (num1 den1 psiL : Poly) (js : List ℤ) :
    (schoofFindJOut fuel a b q l num1 den1 psiL js).res = schoofFindJ fuel a b q num1 den1 psiL js := by
  induction js with
  | nil => rfl
  | cons j t ih =>
    unfold schoofFindJOut schoofFindJ
    rw [schoofXTest_eq, Out.println_bind_res, Out.bind_res, bind_assoc]
    refine congrArg _ (funext fun p => ?_)
    rw [Out.println_bind_res, Res.ok_bind]
    split_ifs
    · rfl
    · exact ih

theorem schoofY_eq (fuel : ℕ) (a b q l ql jj : ℤ) (psiL : Poly) :
    schoofY fuel a b q l ql jj psiL = schoofYPol fuel a b q ql jj psiL >>= fun p =>
      .ok { l := l, r := if (if !p.isZero then -jj else jj) < 0 then (if !p.isZero then -jj else jj) + l
        else (if !p.isZero then -jj else jj) } := by
  unfold schoofY schoofYPol
  simp only [bind_assoc]
  repeat (refine congrArg _ (funext fun _ => ?_))
  split_ifs <;> simp only [bind_assoc]

theorem schoofYOut_res (fuel : ℕ) (a b q l ql jj : ℤ) (psiL : Poly) :
    (schoofYOut fuel a b q l ql jj psiL).res = schoofY fuel a b q l ql jj psiL := by
  rw [schoofY_eq]
  unfold schoofYOut
  rw [Out.println_bind_res, Out.bind_res]
  rfl

theorem schoofDEOut_res (fuel : ℕ) (a b q l ql : ℤ) :
    (schoofDEOut fuel a b q l ql).res = schoofDE fuel a b q l ql := by
  unfold schoofDEOut schoofDE
  rw [Out.println_bind_res]
  generalize List.find? (fun i => decide (Int.fmod (i ^ 2) l = ql)) (irange 1 l) = o
  cases o with
  | none => rfl
  | some w =>
    simp only [Out.bind_res, Out.lift_res, bind_assoc]
    repeat (refine congrArg _ (funext fun _ => ?_))
    split_ifs
    all_goals first
      | rfl
      | (simp only [Out.bind_res, Out.lift_res]; rfl)
      | (simp only [Out.bind_res, Out.lift_res, bind_assoc]; rfl)

theorem schoofLOut_res (fuel : ℕ) (a b q l : ℤ) : (schoofLOut fuel a b q l).res = schoofL fuel a b q l := by
  unfold schoofLOut schoofL
  rw [Out.println_bind_res, Out.println_bind_res, Out.bind_res]
  refine congrArg _ (funext fun nd => ?_)
  rw [Out.bind_res, Out.lift_res, bind_assoc]
  refine congrArg _ (funext fun p => congrArg _ (funext fun psiL => ?_))
  rw [Out.println_bind_res, Out.bind_res, schoofFindJOut_res]
  refine congrArg _ (funext fun o => ?_)
  cases o
  · exact schoofDEOut_res ..
  · exact schoofYOut_res ..

theorem schoofLoopOut_res (fuel : ℕ) (a b q : ℤ) (ls : List ℤ) (acc : List ModResult) :
    (schoofLoopOut fuel a b q ls acc).res = schoofLoop fuel a b q ls acc := by
  induction ls generalizing acc with
  | nil => rfl
  | cons l t ih =>
    unfold schoofLoopOut schoofLoop
    rw [Out.println_bind_res]
    split_ifs
    · rfl
    · rw [Out.bind_res, schoofLOut_res]
      exact congrArg _ (funext fun r => ih _)

/-- C99: the printing version of `schoof` has the outcome of `schoof`. -/
theorem C99_schoof_result (fuel : ℕ) (a b q : ℤ) : (schoofOut fuel a b q).res = schoof fuel a b q := by
  unfold schoofOut schoof
  rw [Out.println_bind_res, Out.bind_res]
  exact congrArg _ (funext fun r => schoofLoopOut_res ..)

/-! ### `schoof`: what is announced -/

theorem trimEnd_subset {s : List Char} {c : Char} (h : c ∈ trimEnd s) : c ∈ s := by
  unfold trimEnd at h
  rw [List.mem_reverse] at h
  exact List.mem_reverse.1 ((List.dropWhile_sublist _).subset h)

theorem noEq_intStr (n : ℤ) : '=' ∉ intStr n := not_mem_intStr (by decide) (by decide)

theorem noEq_monomial (m : Monomial) : '=' ∉ m.display := by
  have hp : ∀ (c : Char) (n : ℤ), c ≠ '=' → '=' ∉ powStr c n := by
    intro c n hc
    have := noEq_intStr n
    unfold powStr
    split_ifs <;> simp [hc.symm, this]
  unfold Monomial.display
  simp only [List.mem_append, not_or]
  refine ⟨⟨⟨hp _ _ (by decide), hp _ _ (by decide)⟩, hp _ _ (by decide)⟩, ?_⟩
  split_ifs
  · simp
  · unfold SubVar.display
    have h1 := noEq_intStr m.var.i
    have h2 := noEq_intStr m.var.j
    split_ifs <;> simp [h1, h2]

theorem noEq_term (t : Term) : '=' ∉ t.display := by
  have hm := noEq_monomial t.monomial
  have h1 := noEq_intStr t.coef
  have h2 := noEq_intStr (t.coef * -1)
  have hv : '=' ∉ t.var.display := by
    unfold SubVar.display
    have h1 := noEq_intStr t.var.i
    have h2 := noEq_intStr t.var.j
    split_ifs <;> simp [h1, h2]
  unfold Term.display
  split_ifs <;> first
    | decide
    | exact hv
    | (simp [hv]; done)
    | (intro h
       have := trimEnd_subset h
       simp [hm, h1] at this
       done)
    | (intro h
       have h' := trimEnd_subset h
       have h3 : '=' ∉ intStr (-t.coef) := noEq_intStr _
       simp [hm, h3] at h')

/-- The text of a polynomial has no `=`. -/
theorem noEq_display (P : Poly) : '=' ∉ P.display := by
  unfold Poly.display
  split_ifs
  · decide
  · intro h
    have h := trimEnd_subset h
    have key : ∀ (l : List (Monomial × Int)) (acc : List Char × ℕ), '=' ∉ acc.1 →
        '=' ∉ (l.foldl Poly.displayStep acc).1 := by
      intro l
      induction l with
      | nil => intro acc h; exact h
      | cons e t ih =>
        intro acc h
        refine ih _ ?_
        have ht := noEq_term (Term.from' e.1 e.2)
        unfold Poly.displayStep
        dsimp only
        split_ifs <;> simp [h, ht]
    exact key _ _ (by simp) h

/-- The line `s` announces the residue `m`. -/
def Announces (s : Line) (m : ModResult) : Prop :=
  (m.l = 2 ∧ s = "a = ".toList ++ intStr m.r ++ " mod 2".toList) ∨
  s = "(iii) y  a = ".toList ++ intStr m.r ++ " mod ".toList ++ intStr m.l ∨
  s = "(e) y  a = ".toList ++ intStr m.r ++ " mod ".toList ++ intStr m.l ∨
  (m.r = 0 ∧ s = "(d)  a = 0 mod l because of w not found (d)".toList)

/-- The lines with an equality sign. -/
def equations (ls : List Line) : List Line := ls.filter (fun s => decide ('=' ∈ s))

@[simp] theorem equations_append (a b : List Line) : equations (a ++ b) = equations a ++ equations b :=
  List.filter_append ..
@[simp] theorem equations_nil : equations [] = [] := rfl
theorem equations_cons_pos {s : Line} (h : '=' ∈ s) (t : List Line) : equations (s :: t) = s :: equations t :=
  List.filter_cons_of_pos (by simpa using h)
theorem equations_cons_neg {s : Line} (h : '=' ∉ s) (t : List Line) : equations (s :: t) = equations t :=
  List.filter_cons_of_neg (by simpa using h)

theorem noEq_polLine (n l : ℤ) (p : Poly) : '=' ∉ polLine n l p := by
  have h1 := noEq_intStr n
  have h2 := noEq_intStr l
  have h3 := noEq_display p
  have h4 : '=' ∉ " pol % psi(".toList := by decide
  have h5 : '=' ∉ "):".toList := by decide
  unfold polLine
  simp only [List.mem_append, not_or]
  exact ⟨⟨⟨⟨h1, h4⟩, h2⟩, h5⟩, h3⟩

theorem schoofFindJOut_equations (fuel : ℕ) (a b q l : ℤ) (num1 den1 psiL : Poly) (js : List ℤ) :
    equations (schoofFindJOut fuel a b q l num1 den1 psiL js).lines = [] := by
  induction js with
  | nil => rfl
  | cons j t ih =>
    unfold schoofFindJOut
    rw [Out.println_bind_lines, equations_cons_neg (by
      have := noEq_intStr j
      have h : '=' ∉ "92 j:".toList := by decide
      rw [List.mem_append, not_or]
      exact ⟨h, this⟩)]
    rcases Out.bind_lines_cases (Out.lift (schoofXPol fuel a b q num1 den1 psiL j)) (fun p1 => do
      println (polLine 106 l p1)
      if p1.isZero then pure (some j) else schoofFindJOut fuel a b q l num1 den1 psiL t) with h | ⟨p, -, h⟩
    · rw [h]; rfl
    · rw [h, Out.lift_lines, List.nil_append, Out.println_bind_lines, equations_cons_neg (noEq_polLine _ _ _)]
      split_ifs
      · rfl
      · exact ih

theorem schoofYOut_announces {fuel : ℕ} {a b q l ql jj : ℤ} {psiL : Poly} {m : ModResult}
    (h : (schoofYOut fuel a b q l ql jj psiL).res = .ok m) :
    ∃ s, equations (schoofYOut fuel a b q l ql jj psiL).lines = [s] ∧ Announces s m ∧ m.l = l := by
  unfold schoofYOut at h ⊢
  rw [Out.println_bind_res] at h
  obtain ⟨p, -, h, hl⟩ := Out.bind_eq_ok h
  rw [Out.println_bind_lines, equations_cons_neg (by decide), hl, Out.lift_lines, List.nil_append,
    Out.println_bind_lines, equations_cons_neg (noEq_polLine _ _ _), Out.println_bind_lines]
  rw [Out.println_bind_res, Out.println_bind_res, Out.pure_res] at h
  cases h
  rw [equations_cons_pos]
  · exact ⟨_, rfl, Or.inr (Or.inl rfl), rfl⟩
  · have : '=' ∈ "(iii) y  a = ".toList := by decide
    simp only [List.mem_append]
    exact Or.inl (Or.inl (Or.inl this))

theorem schoofDEOut_announces {fuel : ℕ} {a b q l ql : ℤ} {m : ModResult}
    (h : (schoofDEOut fuel a b q l ql).res = .ok m) :
    ∃ s, equations (schoofDEOut fuel a b q l ql).lines = [s] ∧ Announces s m ∧ m.l = l := by
  unfold schoofDEOut at h ⊢
  rw [Out.println_bind_res] at h
  rw [Out.println_bind_lines, equations_cons_neg (by decide)]
  revert h
  generalize List.find? (fun i => decide (Int.fmod (i ^ 2) l = ql)) (irange 1 l) = o
  cases o with
  | none =>
    intro h
    cases h
    exact ⟨_, rfl, Or.inr (Or.inr (Or.inr ⟨rfl, rfl⟩)), rfl⟩
  | some w =>
    intro h
    dsimp only at h ⊢
    obtain ⟨p15, -, h, hl⟩ := Out.bind_eq_ok h
    rw [hl, Out.lift_lines, List.nil_append]
    split_ifs at h ⊢ with h1
    · cases h
      refine ⟨_, ?_, Or.inr (Or.inr (Or.inl rfl)), rfl⟩
      have h0 : intStr 0 = ['0'] := by decide
      rw [Out.println_bind_lines, equations_cons_pos, h0]
      · rfl
      · have : '=' ∈ "(e) y  a = 0 mod ".toList := by decide
        rw [List.mem_append]
        exact Or.inl this
    all_goals
      obtain ⟨one, -, h, hl⟩ := Out.bind_eq_ok h
      rw [hl, Out.lift_lines, List.nil_append]
      rw [Out.println_bind_res, Out.pure_res] at h
      cases h
      rw [Out.println_bind_lines, equations_cons_pos]
      · exact ⟨_, rfl, Or.inr (Or.inr (Or.inl rfl)), rfl⟩
      · have : '=' ∈ "(e) y  a = ".toList := by decide
        simp only [List.mem_append]
        exact Or.inl (Or.inl (Or.inl this))

theorem schoofLOut_announces {fuel : ℕ} {a b q l : ℤ} {m : ModResult} (h : (schoofLOut fuel a b q l).res = .ok m) :
    ∃ s, equations (schoofLOut fuel a b q l).lines = [s] ∧ Announces s m ∧ m.l = l := by
  unfold schoofLOut at h ⊢
  rw [Out.println_bind_res, Out.println_bind_res] at h
  rw [Out.println_bind_lines, equations_cons_neg (by
      have h1 := noEq_intStr q
      have h2 := noEq_intStr l
      have h3 := noEq_intStr (Int.fmod q l)
      have h4 : '=' ∉ "q:".toList := by decide
      have h5 : '=' ∉ " l:".toList := by decide
      have h6 : '=' ∉ " ql:".toList := by decide
      simp only [List.mem_append, not_or]
      exact ⟨⟨⟨⟨⟨h4, h1⟩, h5⟩, h2⟩, h6⟩, h3⟩),
    Out.println_bind_lines, equations_cons_neg (by
      have h1 := noEq_intStr ((l - 1).tdiv 2)
      have h4 : '=' ∉ "j:[1, ".toList := by decide
      have h5 : '=' ∉ "]".toList := by decide
      simp only [List.mem_append, not_or]
      exact ⟨⟨h4, h1⟩, h5⟩)]
  obtain ⟨nd, -, h, hl⟩ := Out.bind_eq_ok h
  rw [hl, Out.lift_lines, List.nil_append]
  obtain ⟨psiL, -, h, hl⟩ := Out.bind_eq_ok h
  rw [hl, Out.lift_lines, List.nil_append]
  rw [Out.println_bind_res] at h
  rw [Out.println_bind_lines, equations_cons_neg (by
      have h1 := noEq_intStr l
      have h2 := noEq_display psiL
      have h4 : '=' ∉ "87 psi(".toList := by decide
      have h5 : '=' ∉ "):".toList := by decide
      simp only [List.mem_append, not_or]
      exact ⟨⟨⟨h4, h1⟩, h5⟩, h2⟩)]
  obtain ⟨o, -, h, hl⟩ := Out.bind_eq_ok h
  rw [hl, equations_append, schoofFindJOut_equations, List.nil_append]
  cases o with
  | none => exact schoofDEOut_announces h
  | some j => exact schoofYOut_announces h

theorem schoofLoopOut_announces {fuel : ℕ} {a b q : ℤ} (ls : List ℤ) (acc rs : List ModResult)
    (h : (schoofLoopOut fuel a b q ls acc).res = .ok rs) :
    ∃ new, rs = acc ++ new ∧ List.Forall₂ Announces (equations (schoofLoopOut fuel a b q ls acc).lines) new := by
  induction ls generalizing acc with
  | nil => cases h; exact ⟨[], by simp, List.Forall₂.nil⟩
  | cons l t ih =>
    unfold schoofLoopOut at h ⊢
    rw [Out.println_bind_res] at h
    rw [Out.println_bind_lines, equations_cons_neg (by
      have h1 := noEq_intStr l
      have h4 : '=' ∉ "43 l:".toList := by decide
      rw [List.mem_append, not_or]
      exact ⟨h4, h1⟩)]
    split_ifs at h ⊢ with hq
    · cases h; exact ⟨[], by simp, List.Forall₂.nil⟩
    · obtain ⟨m, hm, h, hl⟩ := Out.bind_eq_ok h
      obtain ⟨s, hs, hs', -⟩ := schoofLOut_announces hm
      obtain ⟨nw, h1, h2⟩ := ih _ h
      refine ⟨m :: nw, by simpa using h1, ?_⟩
      rw [hl, equations_append, hs]
      exact List.Forall₂.cons hs' h2

/-- C99: when `schoof` returns, the lines with an equality sign that it printed announce exactly the residues it
returns, in order: `a = r mod 2`, then for each further `l` one of `(iii) y  a = r mod l`, `(e) y  a = r mod l` and, for
the residue 0, `(d)  a = 0 mod l because of w not found (d)` (with the letter `l`). -/
theorem C99_schoof_announces (fuel : ℕ) (a b q : ℤ) (rs : List ModResult) (h : schoof fuel a b q = .ok rs) :
    List.Forall₂ Announces ((schoofOut fuel a b q).lines.filter (fun s => decide ('=' ∈ s))) rs := by
  rw [← C99_schoof_result] at h
  change List.Forall₂ Announces (equations _) rs
  unfold schoofOut at h ⊢
  rw [Out.println_bind_res] at h
  rw [Out.println_bind_lines, equations_cons_neg (by decide)]
  obtain ⟨r2, hr2, h, hl⟩ := Out.bind_eq_ok h
  rw [Out.println_bind_res] at h
  rw [hl, Out.lift_lines, List.nil_append, Out.println_bind_lines, equations_cons_pos (by
    have : '=' ∈ "a = ".toList := by decide
    simp only [List.mem_append]
    exact Or.inl (Or.inl this))]
  obtain ⟨nw, rfl, h2⟩ := schoofLoopOut_announces _ _ _ h
  refine List.Forall₂.cons (Or.inl ⟨?_, rfl⟩) h2
  rw [Out.lift_res] at hr2
  unfold schoof2 at hr2
  obtain ⟨one, -, hr2⟩ := Res.bind_eq_ok.1 hr2
  cases hr2
  rfl

/-- C99: on a curve without a rational point of order two `schoof` prints `24 l:2` and then nothing more, for ever. -/
theorem C99_schoof_stuck (a b q : ℤ) (hq : Nat.Prime q.toNat) (hi : q ≤ 2147483647)
    (hx : ∀ x : ZMod q.toNat, x ^ 3 + a * x + b ≠ 0) (fuel : ℕ) :
    (schoofOut fuel a b q).res = .timeout ∧ (schoofOut fuel a b q).lines = ["24 l:2".toList] := by
  have hd := C53_odd_trace_diverges a b q hq hi hx fuel
  refine ⟨by rw [C99_schoof_result]; exact hd, ?_⟩
  have : Fact (Nat.Prime q.toNat) := ⟨hq⟩
  have h2 : schoof2 fuel a b q = .timeout := schoof2_noroot a b q hi hx fuel
  unfold schoofOut
  rw [Out.println_bind_lines, h2]
  rfl

-- three congruences, three lines
example : ∃ R L : ℤ, (chineseRemainderOut [⟨3, 2⟩, ⟨5, 3⟩, ⟨7, 2⟩]).lines[1]? =
      some ("r:".toList ++ intStr R ++ " l:".toList ++ intStr L) ∧ L = 15 ∧ R ≡ 2 [ZMOD 3] ∧ R ≡ 3 [ZMOD 5] := by
  obtain ⟨R, L, h1, h2, h3⟩ := C99_chinese_remainder_correct [⟨3, 2⟩, ⟨5, 3⟩, ⟨7, 2⟩] (by simp)
    (by simp [Int.isCoprime_iff_gcd_eq_one]; decide) 1 (by simp)
  exact ⟨R, L, h1, by simpa using h2, h3 0 (by simp) (by simp), h3 1 (by simp) (by simp)⟩
-- `schoof(2, 0, 3)` prints three lines
example : (schoofOut 100 2 0 3).lines = ["24 l:2".toList, "a = 1 mod 2".toList, "43 l:3".toList] ∧
    schoof 100 2 0 3 = .ok [⟨2, 1⟩] := by decide +kernel
-- `schoof(2, 0, 5)` announces 1 modulo 2 and 2 modulo 3
example : ∃ fuel, List.Forall₂ Announces ((schoofOut fuel 2 0 5).lines.filter (fun s => decide ('=' ∈ s)))
    [⟨2, 1⟩, ⟨3, 2⟩] := by
  obtain ⟨N, hN⟩ := schoof_2_0_5'
  exact ⟨N, C99_schoof_announces N 2 0 5 _ (hN N le_rfl)⟩
-- `x^3 + x + 1` has no root modulo 5
example (fuel : ℕ) : (schoofOut fuel 1 1 5).lines = ["24 l:2".toList] :=
  (C99_schoof_stuck 1 1 5 (by show Nat.Prime 5; norm_num) (by norm_num) (by
    have : ∀ x : ZMod 5, x ^ 3 + ((1 : ℤ) : ZMod 5) * x + ((1 : ℤ) : ZMod 5) ≠ 0 := by decide +kernel
    exact this) fuel).2

end EC
