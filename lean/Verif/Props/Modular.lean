import Verif.Lemmas.ModularSys

/-! Properties C38-C40: the modular polynomial.  `Verif.Spec.Modular` has the shape of the polynomial and
the Laurent series `j(q)`. -/

namespace EC
open Poly Finset

/-! ### C38 -/

theorem key_val_var (i j : ℤ) (v : ℤ × ℤ) : Key.val ⟨i, j, 0, some v⟩ = cVar v * mono i j 0 := by
  unfold Key.val cVar mono
  rw [AddMonoidAlgebra.single_mul_single, mul_one]
  congr 1
  simp [Key.expo]

/-- **C38.**  For every prime `p` below the largest `i32`, `subscripted_variable_modular_polynomial(p)`
returns `x^(p+1) + y^(p+1) + ∑ c_i_i x^i y^i + ∑_{i<j} c_i_j (x^i y^j + x^j y^i)`. -/
theorem C38_generic (p : ℕ) (hp : p.Prime) (hb : (p : ℤ) < 2147483647) :
    ∃ f, subscriptedVariableModularPolynomial p = .ok f ∧ f.Canon ∧ f.val = genericModular p := by
  obtain ⟨G, h1, h2, _, h3⟩ := generic_spec hp (by omega)
  refine ⟨G, h1, h2, ?_⟩
  rw [val_eq_lin, h3]
  unfold genericModular
  simp only [key_val_var, mul_add]
  rfl

/-- **C38.**  For every other `i32`, it panics. -/
theorem C38_generic_panics (p : ℤ) (h : ¬ (p.toNat.Prime ∧ p < 2147483647)) (hp : p ≤ 2147483647) :
    ∃ w, subscriptedVariableModularPolynomial p = .panic w := by
  unfold subscriptedVariableModularPolynomial
  by_cases h1 : p ≥ 2
  · simp only [h1, decide_true, rassert_true, Res.ok_bind]
    by_cases h2 : p.toNat.Prime
    · have h3 : p = 2147483647 := by
        by_contra h3
        exact h ⟨h2, by omega⟩
      subst h3
      simp only [isPrime, h2, decide_true, rassert_true, Res.ok_bind]
      exact ⟨.overflow, rfl⟩
    · simp only [isPrime, h2, decide_false, rassert_false, Res.panic_bind]
      exact ⟨_, rfl⟩
  · simp only [h1, decide_false, rassert_false, Res.panic_bind]
    exact ⟨_, rfl⟩

example : (subscriptedVariableModularPolynomial 2 >>= fun f => .ok (f.entries.map fun e => (e.1.xpow, e.1.ypow, e.2))) =
    .ok [(0, 0, 1), (0, 1, 1), (0, 2, 1), (0, 3, 1), (1, 0, 1), (1, 1, 1), (1, 2, 1), (2, 0, 1), (2, 1, 1), (2, 2, 1),
      (3, 0, 1)] := by decide +kernel

/-! ### The steps of `modular_polynomial` -/

theorem foldlM_append {α β : Type} (g : α → Res β) (h : α → β) (l : List α) (hl : ∀ a ∈ l, g a = .ok (h a))
    (init : List β) : l.foldlM (fun acc a => do .ok (acc ++ [← g a])) init = .ok (init ++ l.map h) := by
  induction l generalizing init with
  | nil => simp
  | cons a t ih =>
    rw [List.foldlM_cons, hl a (by simp)]
    simp only [Res.ok_bind]
    rw [ih (fun b hb => hl b (by simp [hb]))]
    simp

theorem variableFromIndex_vis {p k : ℕ} (hp : p ≤ 46340) (hk : k < (vis p).length) :
    Converter.variableFromIndex { p := (p : ℤ) } k =
      .ok ⟨((vis p).getD k (0, 0)).1, ((vis p).getD k (0, 0)).2, false⟩ := by
  have hlen : (vis p).length = (p + 1) * (p + 2) / 2 := Converter.length_visits p
  have hle : (p + 1) * (p + 2) ≤ 46341 * 46342 := Nat.mul_le_mul (by omega) (by omega)
  unfold Converter.variableFromIndex
  rw [chk_of (show InI32 ((p : ℤ) + 1) from ⟨by omega, by omega⟩), Res.ok_bind]
  have ha : Converter.asI32 k = 0 + (k : Int) := by
    unfold Converter.asI32; rw [Nat.mod_eq_of_lt (by omega)]; simp only; rw [if_neg (by omega)]; omega
  rw [ha, Converter.findVariable_eq (l := ({ p := (p : ℤ) } : Converter).visits) hk 0 (by omega) (by omega),
    List.getD_eq_getElem _ _ hk]
  rfl

theorem count_vis {p : ℕ} (hp : p ≤ 46340) : Converter.count { p := (p : ℤ) } = .ok (vis p).length := by
  have h : p < 2147483647 := lt_of_le_of_lt hp (by norm_num)
  rw [C08_count p h]
  have : (vis p).length = (p + 1) * (p + 2) / 2 := Converter.length_visits p
  rw [this]

theorem new_vis {p : ℕ} (hp : p.Prime) : Converter.new (p : ℤ) = .ok { p := (p : ℤ) } :=
  (C08_new p).1 (by rwa [Int.toNat_natCast])

theorem modularRow_spec {p : ℕ} (hp : p ≤ 46340) {f : Poly}
    (hf : ∀ e ∈ f.entries, e.1.xpow = 0 ∧ e.1.ypow = 0 ∧ e.1.qpow = 0) :
    modularRow { p := (p : ℤ) } (vis p).length f =
      .ok ((vis p).map (fun v => f.coef ⟨0, 0, 0, some v⟩) ++ [f.coef ⟨0, 0, 0, none⟩]) := by
  unfold modularRow
  have h1 : (List.range (vis p).length).foldlM (fun (acc : List ℤ) (col : ℕ) => do
      let v ← Converter.variableFromIndex { p := (p : ℤ) } col
      Res.ok (acc ++ [← f.toVariableCoef v])) [] =
      .ok ((vis p).map (fun v => f.coef ⟨0, 0, 0, some v⟩)) := by
    have := foldlM_append (fun col => do
        let v ← Converter.variableFromIndex { p := (p : ℤ) } col
        f.toVariableCoef v)
      (fun k => f.coef ⟨0, 0, 0, some ((vis p).getD k (0, 0))⟩) (List.range (vis p).length) (by
        intro k hk
        rw [variableFromIndex_vis hp (List.mem_range.1 hk), Res.ok_bind, C25_to_variable_coef f _ hf]
        simp [SubVar.key]) []
    rw [List.nil_append] at this
    have h2 : (List.range (vis p).length).map (fun k => f.coef ⟨0, 0, 0, some ((vis p).getD k (0, 0))⟩) =
        (vis p).map (fun v => f.coef ⟨0, 0, 0, some v⟩) := by
      apply List.ext_getElem
      · simp
      · intro i h1 h2
        simp only [List.length_map] at h2
        rw [List.getElem_map, List.getElem_map, List.getElem_range, List.getD_eq_getElem _ _ h2]
    rw [h2] at this
    simp only [bind_assoc] at this
    exact this
  rw [h1, Res.ok_bind, C25_to_variable_coef f _ hf]
  rfl

/-- The matrix that is handed to `solve`. -/
theorem matrix_spec {p : ℕ} (hp : p.Prime) (hb : p ≤ 214) :
    ∃ X, JTrunc ((p : ℤ) * p + p) X ∧
      (subscriptedVariableModularPolynomialList p >>= fun list =>
        list.foldlM (fun acc f => do .ok (acc ++ [← modularRow { p := (p : ℤ) } (vis p).length f])) []) =
        .ok (sysMat p X (qPow p hp.pos X)) := by
  obtain ⟨Q, X, hQ, hQA, hX, hQc⟩ := polQ_spec hp hb
  refine ⟨X, hX, ?_⟩
  have hpp : (p : ℤ) * p ≤ 214 * 214 := by
    have : p * p ≤ 214 * 214 := Nat.mul_le_mul hb hb
    exact_mod_cast this
  have hpp0 : 0 ≤ (p : ℤ) * p := by positivity
  unfold subscriptedVariableModularPolynomialList
  rw [hQ, Res.ok_bind, chk_of ⟨by omega, by omega⟩, Res.ok_bind, chk_of ⟨by omega, by omega⟩, Res.ok_bind]
  have hc : ∀ i, ∃ c, Q.toQPowerCoef i = .ok c := fun i =>
    (C25_to_q_power_coef_returns Q i).1.2 fun e he => ⟨(hQA e he).1, (hQA e he).2⟩
  choose c hc using hc
  rw [foldlM_append _ c _ (fun i _ => hc i), List.nil_append, Res.ok_bind]
  have hca : ∀ i, ∀ e ∈ (c i).entries, e.1.xpow = 0 ∧ e.1.ypow = 0 ∧ e.1.qpow = 0 := fun i e he =>
    (toQPowerCoef_look (hc i)).2.2.2 e he
  have hcoef : ∀ i ≤ 0, ∀ v, (c i).coef ⟨0, 0, 0, v⟩ = (genericCoef p X (qPow p hp.pos X) v).coeff i := by
    intro i hi v
    rw [← hQc i hi v, coef_eq_fs, (toQPowerCoef_look (hc i)).2.2.1]
    unfold coef
    have hE : ∀ e ∈ Q.entries, e.1.key.x = 0 ∧ e.1.key.y = 0 := fun e he => hQA e he
    revert hE
    generalize Q.entries = l
    intro hE
    induction l with
    | nil => rfl
    | cons a t ih =>
      have ih' := ih (fun e he => hE e (by simp [he]))
      obtain ⟨a1, a2⟩ := hE a (by simp)
      rw [List.filter_cons]
      rcases hk : a.1.key with ⟨x, y, q, w⟩
      have hq : a.1.qpow = q := congrArg Key.q hk
      rw [hk] at a1 a2
      simp only at a1 a2
      subst a1; subst a2
      split_ifs with h
      · rw [List.map_cons, List.map_cons, List.sum_cons, List.sum_cons, Finsupp.add_apply, ih', hk]
        congr 1
        have h' : q = i := by simpa [hq] using h
        simp [Finsupp.single_apply, h']
      · rw [List.map_cons, List.sum_cons, ih', hk, if_neg, zero_add]
        intro hh
        apply h
        simpa [hq] using congrArg Key.q hh
  rw [foldlM_append _ (fun f => (vis p).map (fun v => f.coef ⟨0, 0, 0, some v⟩) ++ [f.coef ⟨0, 0, 0, none⟩])
    _ (fun f hf => by
      obtain ⟨i, _, rfl⟩ := List.mem_map.1 hf
      exact modularRow_spec (by omega) (hca i)), List.nil_append, List.map_map]
  congr 1
  unfold sysMat
  apply List.map_congr_left
  intro i hi
  have hi0 : i ≤ 0 := by have := (mem_irange.1 hi).2; omega
  simp only [Function.comp, sysRow, hcoef i hi0]

/-- The contribution of the variable `c_v` to the result. -/
noncomputable def symMono (v : ℤ × ℤ) : LRing :=
  if v.1 = v.2 then mono v.1 v.1 0 else mono v.1 v.2 0 + mono v.2 v.1 0

theorem assemble_spec {p : ℕ} (hp : p ≤ 46340) (b : Mat) :
    ∃ P, (List.range (vis p).length).foldlM (modularAssemble { p := (p : ℤ) } b ((vis p).length + 1)) Poly.new = .ok P ∧
      P.val = ∑ k ∈ range (vis p).length, (-Mat.cell b k (vis p).length) • symMono ((vis p).getD k (0, 0)) := by
  have hval : ∀ (P : Poly) (c i j : ℤ), (P.addAssignTerm (((TermBuilder.new.coef c).xpow i).ypow j).build).val =
      P.val + c • mono i j 0 := by
    intro P c i j
    rw [val_eq_lin, val_eq_lin, lin_addAssignTerm]
    rfl
  have key : ∀ m ≤ (vis p).length, ∃ P, (List.range m).foldlM (modularAssemble { p := (p : ℤ) } b ((vis p).length + 1)) Poly.new = .ok P ∧
      P.val = ∑ k ∈ range m, (-Mat.cell b k (vis p).length) • symMono ((vis p).getD k (0, 0)) := by
    intro m
    induction m with
    | zero => intro _; exact ⟨Poly.new, rfl, by simp [Poly.val, Poly.new]⟩
    | succ m ih =>
      intro hm
      obtain ⟨P, h1, h2⟩ := ih (by omega)
      rw [List.range_succ, List.foldlM_append, h1, Res.ok_bind, List.foldlM_cons]
      unfold modularAssemble
      rw [variableFromIndex_vis hp (by omega)]
      simp only [Res.ok_bind, Nat.add_sub_cancel, List.foldlM_nil, Res.pure_eq]
      refine ⟨_, rfl, ?_⟩
      rw [Finset.sum_range_succ, ← h2]
      unfold symMono
      by_cases h : ((vis p).getD m (0, 0)).1 = ((vis p).getD m (0, 0)).2
      · rw [if_neg (by simpa using h), if_pos h, hval, h]
      · rw [if_pos h, if_neg h, hval, hval, smul_add, add_assoc]
  exact key _ le_rfl

theorem shape_of_sum {p : ℕ} (c : ℕ → ℕ → ℤ) :
    ∑ k ∈ range (vis p).length, c ((vis p).getD k (0, 0)).1.toNat ((vis p).getD k (0, 0)).2.toNat •
      symMono ((vis p).getD k (0, 0)) + mono (p + 1) 0 0 + mono 0 (p + 1) 0 = modularShape p c := by
  rw [sum_range_vis p (fun v => c v.1.toNat v.2.toNat • symMono v), sum_vis]
  unfold modularShape
  have h1 : ∑ i ∈ range (p + 1), c ((i : ℤ), (i : ℤ)).1.toNat ((i : ℤ), (i : ℤ)).2.toNat • symMono ((i : ℤ), (i : ℤ)) =
      ∑ i ∈ range (p + 1), c i i • mono i i 0 := by
    refine Finset.sum_congr rfl fun i _ => ?_
    simp [symMono]
  have h2 : ∑ i ∈ range (p + 1), ∑ j ∈ Ico (i + 1) (p + 1),
        c ((i : ℤ), (j : ℤ)).1.toNat ((i : ℤ), (j : ℤ)).2.toNat • symMono ((i : ℤ), (j : ℤ)) =
      ∑ i ∈ range (p + 1), ∑ j ∈ Ico (i + 1) (p + 1), c i j • (mono i j 0 + mono j i 0) := by
    refine Finset.sum_congr rfl fun i _ => Finset.sum_congr rfl fun j hj => ?_
    have := Finset.mem_Ico.1 hj
    simp [symMono, show i ≠ j by omega]
  rw [h1, h2]
  abel

theorem modularPolynomial_eq {p : ℕ} (hp : p.Prime) (hb : p ≤ 46340) {list : List Poly} {A B : Mat}
    (h1 : subscriptedVariableModularPolynomialList p = .ok list)
    (h2 : list.foldlM (fun acc f => do .ok (acc ++ [← modularRow { p := (p : ℤ) } (vis p).length f])) [] = .ok A)
    (h3 : solve A = .ok B) {P}
  (hP : (List.range (vis p).length).foldlM (modularAssemble { p := (p : ℤ) } B ((vis p).length + 1)) Poly.new = .ok P) 
   (hch : chk ((p : ℤ) + 1) = .ok (p + 1)) : modularPolynomial p = 
   .ok ((P.addAssignTerm (TermBuilder.new.xpow (p+1)).build).addAssignTerm (TermBuilder.new.ypow (p+1)).build) := by
  unfold modularPolynomial
  rw [h1, Res.ok_bind, new_vis hp, Res.ok_bind, count_vis hb, Res.ok_bind]
  dsimp only
  rw [h2, Res.ok_bind, h3, Res.ok_bind, Nat.add_sub_cancel, hP, Res.ok_bind, hch, Res.ok_bind]

/-- The steps of `modular_polynomial` after the matrix. -/
theorem modularPolynomial_finish {p : ℕ} (hp : p.Prime) (hb : p ≤ 46340) {list : List Poly} {A B : Mat}
    (h1 : subscriptedVariableModularPolynomialList p = .ok list)
    (h2 : list.foldlM (fun acc f => do .ok (acc ++ [← modularRow { p := (p : ℤ) } (vis p).length f])) [] = .ok A)
    (h3 : solve A = .ok B) :
    ∃ f, modularPolynomial p = .ok f ∧ ∀ c : ℕ → ℕ → ℤ,
      (∀ k < (vis p).length, c ((vis p).getD k (0, 0)).1.toNat ((vis p).getD k (0, 0)).2.toNat =
        -Mat.cell B k (vis p).length) → f.val = modularShape p c := by
  obtain ⟨P, hP, hPv⟩ := assemble_spec hb B
  have hch : chk ((p : ℤ) + 1) = .ok (p + 1) := chk_of ⟨by omega, by omega⟩
  refine ⟨_, modularPolynomial_eq hp hb h1 h2 h3 hP hch, ?_⟩
  intro c hc
  rw [← shape_of_sum]
  have : ∀ k ∈ range (vis p).length, c ((vis p).getD k (0, 0)).1.toNat ((vis p).getD k (0, 0)).2.toNat •
      symMono ((vis p).getD k (0, 0)) = (-Mat.cell B k (vis p).length) • symMono ((vis p).getD k (0, 0)) := by
    intro k hk
    rw [hc k (Finset.mem_range.1 hk)]
  rw [Finset.sum_congr rfl this, ← hPv, val_eq_lin, lin_addAssignTerm, lin_addAssignTerm, ← val_eq_lin]
  change P.val + (1 : ℤ) • _ + (1 : ℤ) • _ = _
  rw [one_smul, one_smul]
  rfl

/-! ### C39 -/

/-- Whenever `modular_polynomial(p)` returns, `p` is a prime below 46341. -/
theorem modularPolynomial_prime {p : ℤ} {f : Poly} (h : modularPolynomial p = .ok f) :
    p.toNat.Prime ∧ 2 ≤ p ∧ p ≤ 46340 := by
  unfold modularPolynomial subscriptedVariableModularPolynomialList subscriptedVariableModularPolynomialQ
    subscriptedVariableModularPolynomial at h
  simp only [Res.bind_eq_ok, rassert_eq_ok, decide_eq_true_eq, chk_eq_ok] at h
  obtain ⟨_, ⟨_, ⟨_, ⟨_, h1, _, h2, _⟩, _⟩, _, ⟨h3, rfl⟩, _⟩, _⟩ := h
  have h3 := h3.2
  refine ⟨by simpa [isPrime] using h2, h1, ?_⟩
  nlinarith

/-- **C39.**  Whatever `modular_polynomial(p)` returns, `p` is a prime and the result has the shape
`x^(p+1) + y^(p+1) + ∑_{i ≤ p} a_i_i x^i y^i + ∑_{i < j ≤ p} a_i_j (x^i y^j + x^j y^i)`
with integers `a_i_j`. -/
theorem C39_shape (p : ℕ) (f : Poly) (h : modularPolynomial p = .ok f) :
    p.Prime ∧ ∃ c, f.val = modularShape p c := by
  obtain ⟨hp, h2, hb⟩ := modularPolynomial_prime h
  simp only [Int.toNat_natCast] at hp
  refine ⟨hp, ?_⟩
  have h' := h
  unfold modularPolynomial at h'
  obtain ⟨list, h1, h'⟩ := Res.bind_eq_ok.1 h'
  rw [new_vis hp, Res.ok_bind, count_vis (show p ≤ 46340 by omega), Res.ok_bind] at h'
  obtain ⟨A, h2, h'⟩ := Res.bind_eq_ok.1 h'
  obtain ⟨B, h3, _⟩ := Res.bind_eq_ok.1 h'
  obtain ⟨g, hg, hgc⟩ := modularPolynomial_finish hp (by omega) h1 h2 h3
  have : g = f := by rw [h] at hg; exact (Res.ok.inj hg).symm
  subst this
  refine ⟨fun a b => -Mat.cell B ((vis p).idxOf ((a : ℤ), (b : ℤ))) (vis p).length, hgc _ ?_⟩
  intro k hk
  obtain ⟨a, b, _, _, hv⟩ := mem_vis.1 (getD_vis_mem hk)
  simp only [hv, Int.toNat_natCast]
  rw [← hv, List.getD_eq_getElem _ _ hk, (nodup_vis p).idxOf_getElem]

/-- The exchange of `x` and `y`. -/
noncomputable def swapXY : LRing →+* LRing :=
  AddMonoidAlgebra.mapDomainRingHom ℤ
    { toFun := fun e : Expo => (e.2.1, e.1, e.2.2), map_zero' := rfl, map_add' := fun _ _ => rfl : Expo →+ Expo }

theorem swapXY_mono (i j k : ℤ) : swapXY (mono i j k) = mono j i k := by
  unfold swapXY mono
  simp only [AddMonoidAlgebra.mapDomainRingHom_apply, AddMonoidAlgebra.mapDomain_single]
  rfl

/-- **C39.**  The result is symmetric in `x` and `y`. -/
theorem C39_symmetric (p : ℕ) (f : Poly) (h : modularPolynomial p = .ok f) : swapXY f.val = f.val := by
  obtain ⟨_, c, hc⟩ := C39_shape p f h
  rw [hc]
  unfold modularShape
  simp only [map_add, map_sum, map_zsmul, swapXY_mono]
  congr 1
  · rw [add_comm (mono 0 ((p : ℤ) + 1) 0)]
  · refine Finset.sum_congr rfl fun i _ => Finset.sum_congr rfl fun j _ => ?_
    rw [add_comm]

/-! ### C40 -/

theorem vis_zero {p : ℕ} (hp : 2 ≤ p) : 0 < (vis p).length ∧ (vis p).getD 0 (0, 0) = (0, 1) := by
  unfold vis Converter.visits
  rw [irange_cons (by change (0 : ℤ) < p + 1; omega), List.flatMap_cons, irange_cons (by change (0 : ℤ) + 1 < p + 1; omega)]
  simp

/-- The entry in the first column of the first row where it is not zero is 1. -/
theorem sysMat_first {p : ℕ} (hp : 2 ≤ p) {X Y : LaurentSeries ℤ} (hX : Lead (-1) X) (hY : Lead (p * (-1)) Y) :
    ((sysMat p X Y).map fun r => r.getD 0 0).find? (fun v => decide (v ≠ 0)) = some 1 := by
  obtain ⟨h1, h2⟩ := vis_zero hp
  unfold sysMat
  rw [List.map_map]
  have hl : Lead (-(p : ℤ)) (colSeries X Y 0 1) := by
    have := colSeries_lead hp hX hY (show 0 ≤ 1 by omega)
    simpa using this
  have e : ((fun r => r.getD 0 0) ∘ sysRow p X Y : ℤ → ℤ) = fun i => (colSeries X Y 0 1).coeff i := by
    funext i
    simp only [Function.comp]
    rw [sysRow_getD h1, h2]
    have := genericCoef_some X Y (p := p) (a := 0) (b := 1) (by omega) (by omega)
    simp only [Nat.cast_zero, Nat.cast_one] at this
    rw [this]
  have h0 : (0 : ℤ) ≤ (p : ℤ) * p := by positivity
  have hs : irange (-((p : ℤ) * p) - p) 1 = irange (-((p : ℤ) * p) - p) (-p) ++ irange (-p) 1 := by
    have : ∀ (a b c : ℤ), a ≤ b → b ≤ c → irange a c = irange a b ++ irange b c := by
      intro a b c hab hbc
      obtain ⟨m, rfl⟩ : ∃ m : ℕ, c = b + m := ⟨(c - b).toNat, by omega⟩
      clear hbc
      induction m with
      | zero => simp [irange_of_le (le_refl b)]
      | succ m ih =>
        have e1 : b + ((m + 1 : ℕ) : ℤ) = b + m + 1 := by push_cast; ring
        rw [e1, irange_succ_right (by omega), ih, irange_succ_right (by omega), List.append_assoc]
    exact this _ _ _ (by omega) (by omega)
  rw [e, hs, List.map_append, List.find?_append]
  have hnone : ((irange (-((p : ℤ) * p) - p) (-p)).map fun i => (colSeries X Y 0 1).coeff i).find? (fun v => decide (v ≠ 0)) = none := by
    rw [List.find?_eq_none]
    intro v hv
    obtain ⟨i, hi, rfl⟩ := List.mem_map.1 hv
    rw [hl.2 i (mem_irange.1 hi).2]; simp
  rw [hnone, Option.none_or, irange_cons (by omega), List.map_cons, hl.1]
  simp

/-- **C40 (it returns).**  `modular_polynomial(p)` returns for every prime `p ≤ 214`. -/
theorem C40_returns (p : ℕ) (hp : p.Prime) (hb : p ≤ 214) : ∃ f, modularPolynomial p = .ok f := by
  obtain ⟨X, hX, hm⟩ := matrix_spec hp hb
  obtain ⟨list, h1, h2⟩ := Res.bind_eq_ok.1 hm
  have hI := sysMat_independent hp.two_le hX.lead (qPow_lead hp.pos hX.lead)
  obtain ⟨B, hB⟩ := (C37_returns_iff (sysMat_augmented p X _)).1 hI
  obtain ⟨f, hf, _⟩ := modularPolynomial_finish hp (by omega) h1 h2 hB
  exact ⟨f, hf⟩

/-- **C40 (the result is the modular polynomial).**  Let `p ≤ 214` be prime and let `c_i_j` be integers such
that `Φ = x^(p+1) + y^(p+1) + ∑ c_i_i x^i y^i + ∑_{i<j} c_i_j (x^i y^j + x^j y^i)` has, at
`x = j(q)`, `y = j(q^p)`, no terms of order `≤ 0` (as is the case when `Φ(j(q), j(q^p)) = 0`).  Then
`modular_polynomial(p)` returns `Φ`. -/
theorem C40_modular_polynomial (p : ℕ) (hp : p.Prime) (hb : p ≤ 214) (c : ℕ → ℕ → ℤ)
    (hc : ∀ n ≤ 0, (modularAt p c jLaurent (qPow p hp.pos jLaurent)).coeff n = 0) :
    ∃ f, modularPolynomial p = .ok f ∧ f.val = modularShape p c := by
  obtain ⟨X, hX, hm⟩ := matrix_spec hp hb
  obtain ⟨list, h1, h2⟩ := Res.bind_eq_ok.1 hm
  have hY := qPow_lead hp.pos hX.lead
  have hI := sysMat_independent hp.two_le hX.lead hY
  obtain ⟨B, hB⟩ := (C37_returns_iff (sysMat_augmented p X _)).1 hI
  obtain ⟨_, _, hs1, hs0, _⟩ := C37_solve (sysMat_augmented p X _) (sysMat_solves hp.two_le hX hp.pos hc) hB
  obtain ⟨f, hf, hfc⟩ := modularPolynomial_finish hp (by omega) h1 h2 hB
  refine ⟨f, hf, hfc c ?_⟩
  intro k hk
  have hcell : Mat.cell B k (vis p).length = (B.getD k []).getD (vis p).length 0 := rfl
  rw [hcell]
  rcases Nat.eq_zero_or_pos k with h0 | h0
  · subst h0
    obtain ⟨d, _, _, hd, hf1⟩ := hs0 hk
    rw [sysMat_first hp.two_le hX.lead hY, Option.some.injEq] at hf1
    rw [hd, ← hf1]; simp
  · rw [(hs1 k h0 hk).2]; simp

/-- **C40 (uniqueness).**  There is at most one such family of integers: if two of them have no terms of
order `≤ 0` at `(j(q), j(q^p))`, they agree. -/
theorem C40_unique (p : ℕ) (hp : p.Prime) (c c' : ℕ → ℕ → ℤ)
    (hc : ∀ n ≤ 0, (modularAt p c jLaurent (qPow p hp.pos jLaurent)).coeff n = 0)
    (hc' : ∀ n ≤ 0, (modularAt p c' jLaurent (qPow p hp.pos jLaurent)).coeff n = 0) :
    ∀ a b, a ≤ b → b ≤ p → c a b = c' a b := by
  have hT : JTrunc ((p : ℤ) * p + p) jLaurent := ⟨jLaurent_lead, by rw [sub_self]; exact OL.zero⟩
  have hI := sysMat_independent hp.two_le jLaurent_lead (qPow_lead hp.pos jLaurent_lead)
  have s1 := sysMat_solves hp.two_le hT hp.pos hc
  have s2 := sysMat_solves hp.two_le hT hp.pos hc'
  have h := hI (fun k => (-c ((vis p).getD k (0, 0)).1.toNat ((vis p).getD k (0, 0)).2.toNat) -
    (-c' ((vis p).getD k (0, 0)).1.toNat ((vis p).getD k (0, 0)).2.toNat)) (by
      intro r hr
      simp only [mul_sub, Finset.sum_sub_distrib]
      rw [s1 r hr, s2 r hr, sub_self])
  intro a b hab hb
  obtain ⟨k, hk, hv⟩ := List.getElem_of_mem (mem_vis.2 ⟨a, b, hab, hb, rfl⟩)
  have := h k hk
  rw [List.getD_eq_getElem _ _ hk, hv] at this
  simp only [Int.toNat_natCast] at this
  omega


/-- The hypothesis of `C40_modular_polynomial` can be checked on the `p^2 + p + 1` coefficients of the
substituted generic polynomial. -/
theorem lowOrder_of_coef {p : ℕ} (hp : p.Prime) (hb : p ≤ 214) (c : ℕ → ℕ → ℤ) {Q : Poly}
    (hQ : subscriptedVariableModularPolynomialQ p = .ok Q)
    (h : ∀ i ∈ irange (-((p : ℤ) * p) - p) 1, Q.coef ⟨0, 0, i, none⟩ +
      ((vis p).map fun v => c v.1.toNat v.2.toNat * Q.coef ⟨0, 0, i, some v⟩).sum = 0) :
    ∀ n ≤ 0, (modularAt p c jLaurent (qPow p hp.pos jLaurent)).coeff n = 0 := by
  obtain ⟨Q', X, hQ', -, hX, hQc⟩ := polQ_spec hp hb
  have : Q' = Q := by rw [hQ] at hQ'; exact (Res.ok.inj hQ').symm
  subst this
  intro n hn
  have hco : ∀ v, (genericCoef p jLaurent (qPow p hp.pos jLaurent) v).coeff n = Q'.coef ⟨0, 0, n, v⟩ := by
    intro v
    rw [hQc n hn, genericCoef_trunc hp.two_le hX hp.pos v hn]
  by_cases hN : -((p : ℤ) * p) - p ≤ n
  · rw [modularAt_eq, HahnSeries.coeff_add, ← sum_range_vis (M := LaurentSeries ℤ), HahnSeries.coeff_sum, hco]
    have e := h n (mem_irange.2 ⟨hN, by omega⟩)
    rw [← sum_range_vis p (fun v => c v.1.toNat v.2.toNat * Q'.coef ⟨0, 0, n, some v⟩)] at e
    refine Eq.trans ?_ e
    congr 1
    refine Finset.sum_congr rfl fun k _ => ?_
    rw [HahnSeries.coeff_smul, smul_eq_mul, hco]
  · have hp0 : (0 : ℤ) ≤ p := by positivity
    have hY := qPow_lead hp.pos jLaurent_lead
    have hO : ∀ a b : ℕ, (a : ℤ) + p * b ≤ p * p + p → (jLaurent ^ a * qPow p hp.pos jLaurent ^ b).coeff n = 0 := by
      intro a b hab
      refine ((jLaurent_lead.2.pow a).mul (hY.2.pow b)) n ?_
      have e : (a : ℤ) * -1 + b * (p * -1) = -((a : ℤ) + p * b) := by ring
      rw [e]; linarith
    have hsmall : ∀ a b : ℕ, a ≤ p → b ≤ p → (a : ℤ) + p * b ≤ p * p + p := by
      intro a b ha hb
      have h1 : (a : ℤ) ≤ p := by omega
      have h2 : (b : ℤ) ≤ p := by omega
      nlinarith
    unfold modularAt
    simp only [HahnSeries.coeff_add, HahnSeries.coeff_sum, HahnSeries.coeff_smul]
    have h1 := hO (p + 1) 0 (by push_cast; nlinarith [hp.two_le])
    have h2 := hO 0 (p + 1) (by push_cast; nlinarith)
    simp only [pow_zero, mul_one, one_mul] at h1 h2
    rw [h1, h2, zero_add, zero_add, Finset.sum_eq_zero, Finset.sum_eq_zero, add_zero]
    · intro i hi
      refine Finset.sum_eq_zero fun j hj => ?_
      have := Finset.mem_range.1 hi
      have := Finset.mem_Ico.1 hj
      rw [hO i j (hsmall _ _ (by omega) (by omega)), hO j i (hsmall _ _ (by omega) (by omega))]
      simp
    · intro i hi
      have := Finset.mem_range.1 hi
      rw [hO i i (hsmall _ _ (by omega) (by omega)), smul_zero]

/-- The coefficients of the classical `Φ_2`. -/
def phi2 (a b : ℕ) : ℤ :=
  match a, b with
  | 0, 0 => -157464000000000
  | 0, 1 => 8748000000
  | 0, 2 => -162000
  | 1, 1 => 40773375
  | 1, 2 => 1488
  | 2, 2 => -1
  | _, _ => 0

/-- The check of `lowOrder_of_coef` as a computation. -/
def lowCheck (p : ℕ) (c : ℕ → ℕ → ℤ) : Res Bool := do
  let Q ← subscriptedVariableModularPolynomialQ p
  .ok ((irange (-((p : ℤ) * p) - p) 1).all fun i => Q.coef ⟨0, 0, i, none⟩ +
      ((vis p).map fun v => c v.1.toNat v.2.toNat * Q.coef ⟨0, 0, i, some v⟩).sum == 0)

theorem lowOrder_of_check {p : ℕ} (hp : p.Prime) (hb : p ≤ 214) (c : ℕ → ℕ → ℤ) (h : lowCheck p c = .ok true) :
    ∀ n ≤ 0, (modularAt p c jLaurent (qPow p hp.pos jLaurent)).coeff n = 0 := by
  unfold lowCheck at h
  obtain ⟨Q, h1, h2⟩ := Res.bind_eq_ok.1 h
  refine lowOrder_of_coef hp hb c h1 fun i hi => ?_
  have h3 := List.all_eq_true.1 (Res.ok.inj h2) i hi
  exact eq_of_beq h3

theorem lowCheck_two : lowCheck 2 phi2 = .ok true := by decide +kernel

/-- The classical `Φ_2` meets the hypothesis of `C40_modular_polynomial`. -/
theorem phi2_lowOrder : ∀ n ≤ 0, (modularAt 2 phi2 jLaurent (qPow 2 Nat.prime_two.pos jLaurent)).coeff n = 0 :=
  lowOrder_of_check Nat.prime_two (by norm_num) phi2 lowCheck_two

/-- **C40** for `p = 2`: `modular_polynomial(2)` is the classical
`x^3 + y^3 - x^2 y^2 + 1488 (x^2 y + x y^2) - 162000 (x^2 + y^2) + 40773375 x y + 8748000000 (x + y) -
157464000000000`, and `Φ_2(j(q), j(q^2))` has no terms of order `≤ 0`. -/
theorem C40_phi2 : ∃ f, modularPolynomial 2 = .ok f ∧ f.val = modularShape 2 phi2 ∧
    ∀ n ≤ 0, (modularAt 2 phi2 jLaurent (qPow 2 Nat.prime_two.pos jLaurent)).coeff n = 0 := by
  obtain ⟨f, h1, h2⟩ := C40_modular_polynomial 2 Nat.prime_two (by norm_num) phi2 phi2_lowOrder
  exact ⟨f, h1, h2, phi2_lowOrder⟩

end EC
