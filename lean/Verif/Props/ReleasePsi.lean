import Verif.Props.DivPoly
import Verif.Props.Release

/-! C29, C30, C32 in the release build: beyond the `i32` range of the exponents `psi` and `phi` return, and what they return is not
the division polynomial. -/

namespace EC
open Poly Polynomial WeierstrassCurve

/-- No variable, exponent of `x` in `i32`. -/
def Key.Wr (k : Key) : Prop := k.v = none ∧ InI32 k.x

theorem foldlM_okAll {α β : Type} {f : β → α → Res β} {I : β → Prop} (l : List α)
    (h : ∀ b, I b → ∀ a ∈ l, ∃ c, f b a = .ok c ∧ I c) (b : β) (hb : I b) : ∃ c, l.foldlM f b = .ok c ∧ I c := by
  induction l generalizing b with
  | nil => exact ⟨b, rfl, hb⟩
  | cons a t ih =>
    obtain ⟨c, h1, h2⟩ := h b hb a (by simp)
    obtain ⟨d, h3, h4⟩ := ih (fun b hb a ha => h b hb a (by simp [ha])) c h2
    exact ⟨d, by rw [List.foldlM_cons, h1]; exact h3, h4⟩

theorem wrp_x {n : ℤ} : InI32 (wrap32 n) := (wrap32_spec n).1

theorem mulAcc_wr {S : Key → Prop} {P : Poly} {t : Term} (hP : P.All S) (ht : S t.monomial.key) : (P.mulAcc t).All S := by
  unfold mulAcc
  split <;> exact all_insert hP ht _

theorem mulW_wr {f g : Poly} (hf : f.All Key.Wr) (hg : g.All Key.Wr) : ∃ c, f.mulW g = .ok c ∧ c.All Key.Wr := by
  unfold mulW
  refine foldlM_okAll (I := fun P : Poly => P.All Key.Wr) _ (fun P hP i hi => ?_) _ all_new
  refine foldlM_okAll (I := fun P : Poly => P.All Key.Wr) _ (fun P hP j hj => ?_) _ hP
  have h1 := SubVar.key_eq_none.1 (hf i hi).1
  have h2 := SubVar.key_eq_none.1 (hg j hj).1
  obtain ⟨u, hu, -, ⟨hx, -⟩, -, -, hv⟩ := C59_release_mul (Term.from' i.1 i.2) (Term.from' j.1 j.2)
    (by simp [Term.from', Term.var, h1])
  rw [hu]
  refine ⟨_, rfl, mulAcc_wr hP ⟨SubVar.key_eq_none.2 ?_, hx⟩⟩
  change u.var.empty = true
  rw [hv]
  simp [Term.from', Term.var, h1, h2]

theorem divTermW_wr {f : Poly} (hf : f.All Key.Wr) {t : Term} (ht : t.coef ≠ 0) (hv : t.var.empty = true) :
    ∃ c, f.divTermW t = .ok c ∧ c.All Key.Wr := by
  have he : t.toPol.entries = [(t.monomial, t.coef)] := by
    unfold Term.toPol
    rw [if_neg ht]
    rfl
  unfold divTermW divW
  rw [he]
  refine foldlM_okAll (I := fun P : Poly => P.All Key.Wr) _ (fun P hP i hi => ?_) _ all_new
  have h1 := SubVar.key_eq_none.1 (hf i hi).1
  have h2 : (Term.from' t.monomial t.coef).var.empty = true := hv
  unfold Term.divW
  rw [h2]
  have h3 : divFloor (Term.from' i.1 i.2).coef (Term.from' t.monomial t.coef).coef = .ok (Int.fdiv i.2 t.coef) := by
    unfold divFloor
    rw [if_neg (show (Term.from' t.monomial t.coef).coef ≠ 0 from ht)]
    rfl
  simp only [Bool.not_true, h3, wrp, Res.ok_bind]
  refine ⟨_, rfl, all_insert hP ?_ _⟩
  exact ⟨SubVar.key_eq_none.2 h1, wrp_x (n := (Term.from' i.1 i.2).xpow - (Term.from' t.monomial t.coef).xpow)⟩

theorem one_wr : Poly.one.All Key.Wr := all_one ⟨rfl, by decide⟩

theorem powLoopW_wr {b r : Poly} (hb : b.All Key.Wr) (hr : r.All Key.Wr) (e : ℤ) :
    ∃ c, Poly.powLoopW e b r = .ok c ∧ c.All Key.Wr := by
  obtain ⟨k, hk⟩ : ∃ k, e.toNat = k := ⟨_, rfl⟩
  induction k using Nat.strong_induction_on generalizing e b r with
  | _ k ih =>
    rw [Poly.powLoopW]
    by_cases h1 : e > 1
    · rw [if_pos h1]
      have e2 : e.tdiv 2 = e / 2 := Int.tdiv_eq_ediv_of_nonneg (by omega)
      obtain ⟨b', h2, hb'⟩ := mulW_wr hb hb
      obtain ⟨r', h3, hr'⟩ : ∃ r', (if e % 2 = 1 then r.mulAssignW b else Res.ok r) = .ok r' ∧ r'.All Key.Wr := by
        split_ifs
        · exact mulW_wr hr hb
        · exact ⟨r, rfl, hr⟩
      obtain ⟨c, h4, hc⟩ := ih _ (by omega) hb' hr' (e / 2) rfl
      refine ⟨c, ?_, hc⟩
      rw [e2]
      by_cases h5 : e % 2 = 1
      · rw [if_pos h5] at h3
        simp only [h5, if_true, h3, h2, Res.ok_bind, h4]
      · rw [if_neg h5] at h3
        injection h3 with h3
        subst h3
        simp only [h5, if_false, h2, Res.ok_bind, h4]
    · rw [if_neg h1]
      exact mulW_wr hr hb

theorem powerW_wr {f : Poly} (hf : f.All Key.Wr) {n : ℤ} (hn : 0 ≤ n) : ∃ c, f.powerW n = .ok c ∧ c.All Key.Wr := by
  unfold powerW
  have hr : rassert (decide (n ≥ 0)) = .ok () := by simp [rassert, hn]
  rw [hr, Res.ok_bind]
  split_ifs
  · exact ⟨_, rfl, one_wr⟩
  · exact powLoopW_wr hf one_wr n

theorem reductionW_wr {f : Poly} (hf : f.All Key.Wr) (a b : ℤ) : ∃ c, f.reductionW a b = .ok c ∧ c.All Key.Wr := by
  unfold reductionW
  refine foldlM_okAll (I := fun P : Poly => P.All Key.Wr) _ (fun P hP i hi => ?_) _ all_new
  dsimp only
  split_ifs with h
  · obtain ⟨d, h1, hd⟩ := divTermW_wr (f := (Term.from' i.1 i.2).toPol) (all_toPol fun _ => hf i hi)
      (t := (TermBuilder.new.ypow (Int.fdiv (Term.from' i.1 i.2).ypow 2 * 2)).build) one_ne_zero rfl
    obtain ⟨e, h2, he⟩ := powerW_wr (f := curvePol a b)
      ((curvePol_all a b).mono fun k hk => ⟨hk.1.2.2.2, by unfold InI32; have := hk.1.1; have := hk.2; omega⟩)
      (n := Int.fdiv (Term.from' i.1 i.2).ypow 2) (by rw [fdiv_two]; omega)
    obtain ⟨c, h3, hc⟩ := mulW_wr hd he
    have h1' : (Term.from' i.1 i.2).toPol.divAssignTermW
      (TermBuilder.new.ypow (Int.fdiv (Term.from' i.1 i.2).ypow 2 * 2)).build = .ok d := h1
    have h3' : d.mulAssignW e = .ok c := h3
    simp only [h1', h2, h3', Res.ok_bind]
    exact ⟨_, rfl, all_addAssign hP hc⟩
  · exact ⟨_, rfl, all_addAssignTerm hP (hf i hi)⟩

/-! ### They return -/

theorem psiW_small {a b n : ℤ} (h0 : 0 ≤ n) (h1 : n ≤ 4) : ∃ c, psiW a b n = .ok c ∧ c.All Key.Wr := by
  obtain ⟨c, hc⟩ := psi_total a b n h0 (by omega)
  refine ⟨c, by rw [(same_psi a b n).1 (by rw [hc]; exact nofun), hc], fun e he => ?_⟩
  have hok := (psi_spec a b n c hc).2
  obtain ⟨⟨k1, k2, k3, k4⟩, k5, k6⟩ := hok.wk e he
  have := hok.xmax e he
  exact ⟨k4, by unfold InI32; simp only [XMax] at this; omega⟩

theorem psiW_wr (a b n : ℤ) (hn : 0 ≤ n) : ∃ c, psiW a b n = .ok c ∧ c.All Key.Wr := by
  obtain ⟨k, hk⟩ : ∃ k, n.toNat = k := ⟨_, rfl⟩
  induction k using Nat.strong_induction_on generalizing n with
  | _ k ih =>
    by_cases h4 : n ≤ 4
    · exact psiW_small hn h4
    rw [psiW]
    have hr : rassert (decide (n ≥ 0)) = .ok () := by simp [rassert, hn]
    rw [hr, Res.ok_bind, if_neg (by omega), if_neg (by omega), if_neg (by omega), if_neg (by omega), if_neg (by omega),
      if_neg (by omega)]
    have hp : ∀ m : ℤ, 0 ≤ m → m < n → ∃ c, psiW a b m = .ok c ∧ c.All Key.Wr := fun m h1 h2 => ih _ (by omega) m h1 rfl
    split_ifs with h6
    · have e1 : Int.fdiv (n - 1) 2 = (n - 1) / 2 := Int.fdiv_eq_ediv_of_nonneg _ (by omega)
      simp only [e1]
      obtain ⟨p1, h1, q1⟩ := hp ((n - 1) / 2 + 2) (by omega) (by omega)
      obtain ⟨p2, h2, q2⟩ := hp ((n - 1) / 2) (by omega) (by omega)
      obtain ⟨p3, h3, q3⟩ := hp ((n - 1) / 2 - 1) (by omega) (by omega)
      obtain ⟨p4, h5, q4⟩ := hp ((n - 1) / 2 + 1) (by omega) (by omega)
      have hr : rassert (decide ((n - 1) / 2 < n)) = .ok () := by simp [rassert]; omega
      obtain ⟨f, hf, qf⟩ := powerW_wr q2 (n := 3) (by omega)
      obtain ⟨h, hh, qh⟩ := powerW_wr q4 (n := 3) (by omega)
      obtain ⟨s, hs, qs⟩ := mulW_wr q1 qf
      obtain ⟨t, ht, qt⟩ := mulW_wr q3 qh
      simp only [hr, h1, h2, h3, h5, hf, hh, hs, ht, Res.ok_bind]
      exact reductionW_wr (all_sub qs qt) a b
    · have e1 : Int.fdiv n 2 = n / 2 := Int.fdiv_eq_ediv_of_nonneg _ (by omega)
      simp only [e1]
      obtain ⟨p1, h1, q1⟩ := hp (n / 2 + 2) (by omega) (by omega)
      obtain ⟨p2, h2, q2⟩ := hp (n / 2) (by omega) (by omega)
      obtain ⟨p3, h3, q3⟩ := hp (n / 2 - 1) (by omega) (by omega)
      obtain ⟨p4, h5, q4⟩ := hp (n / 2 + 1) (by omega) (by omega)
      obtain ⟨p5, h7, q5⟩ := hp (n / 2 - 2) (by omega) (by omega)
      have hr : rassert (decide (n / 2 < n)) = .ok () := by simp [rassert]; omega
      obtain ⟨f, hf, qf⟩ := powerW_wr q3 (n := 2) (by omega)
      obtain ⟨h, hh, qh⟩ := powerW_wr q4 (n := 2) (by omega)
      obtain ⟨s, hs, qs⟩ := mulW_wr q1 qf
      obtain ⟨t, ht, qt⟩ := mulW_wr q5 qh
      obtain ⟨i, hi, qi⟩ := mulW_wr q2 (all_sub qs qt)
      obtain ⟨j, hj, qj⟩ := divTermW_wr qi (t := ((TermBuilder.new.coef 2).ypow 1).build) two_ne_zero rfl
      simp only [hr, h1, h2, h3, h5, h7, hf, hh, hs, ht, hi, hj, Res.ok_bind]
      exact reductionW_wr qj a b

theorem psiW_neg {a b n : ℤ} (h : n < 0) : psiW a b n = .panic .assertion := by
  rw [psiW]
  have : decide (n ≥ 0) = false := by simpa using h
  rw [this]; rfl

/-- **C32.**  In the release build `psi` returns for every `n ≥ 0`, and panics for every negative `n`. -/
theorem C32_release_psi (a b n : ℤ) :
    (0 ≤ n → ∃ c, psiW a b n = .ok c) ∧ (n < 0 → psiW a b n = .panic .assertion) :=
  ⟨fun h => let ⟨c, hc, _⟩ := psiW_wr a b n h; ⟨c, hc⟩, psiW_neg⟩

theorem wrap32_id {n : ℤ} (h : InI32 n) : wrap32 n = n := by
  unfold InI32 at h; unfold wrap32; omega

theorem phiW_wr (a b n : ℤ) (h1 : 1 ≤ n) (h2 : n ≤ 2147483646) : ∃ c, phiW a b n = .ok c ∧ c.All Key.Wr := by
  unfold phiW
  have hr : rassert (decide (n ≥ 1)) = .ok () := by simp [rassert, h1]
  obtain ⟨p1, e1, q1⟩ := psiW_wr a b n (by omega)
  obtain ⟨p2, e2, q2⟩ := psiW_wr a b (n + 1) (by omega)
  obtain ⟨p3, e3, q3⟩ := psiW_wr a b (n - 1) (by omega)
  obtain ⟨s, hs, qs⟩ := powerW_wr q1 (n := 2) (by omega)
  obtain ⟨t, ht, qt⟩ := mulW_wr (f := (TermBuilder.new.xpow 1).build.toPol) (all_toPol fun _ => ⟨rfl, by decide⟩) qs
  obtain ⟨u, hu, qu⟩ := mulW_wr q2 q3
  have ht' : Poly.termMulW (TermBuilder.new.xpow 1).build s = .ok t := ht
  have hw : wrp (n + 1) = .ok (n + 1) := by unfold wrp; rw [wrap32_id (by unfold InI32; omega)]
  simp only [hr, e1, e2, e3, hs, ht', hu, hw, Res.ok_bind]
  exact reductionW_wr (all_sub qt qu) a b

/-- **C32.**  In the release build `phi` returns for every `i32` argument `n ≥ 1` except the largest, where `n + 1` wraps to a
negative number; for that one and for `n < 1` it panics. -/
theorem C32_release_phi (a b n : ℤ) (hn : InI32 n) :
    (1 ≤ n ∧ n ≠ 2147483647 → ∃ c, phiW a b n = .ok c) ∧ (¬ (1 ≤ n ∧ n ≠ 2147483647) → phiW a b n = .panic .assertion) := by
  obtain ⟨hl, hu⟩ := hn
  refine ⟨fun ⟨h1, h2⟩ => let ⟨c, hc, _⟩ := phiW_wr a b n h1 (by omega); ⟨c, hc⟩, fun h => ?_⟩
  by_cases h1 : 1 ≤ n
  · have : n = 2147483647 := by by_contra h2; exact h ⟨h1, h2⟩
    subst this
    unfold phiW
    obtain ⟨p1, e1, q1⟩ := psiW_wr a b 2147483647 (by omega)
    obtain ⟨s, hs, qs⟩ := powerW_wr q1 (n := 2) (by omega)
    obtain ⟨t, ht, qt⟩ := mulW_wr (f := (TermBuilder.new.xpow 1).build.toPol) (all_toPol fun _ => ⟨rfl, by decide⟩) qs
    have ht' : Poly.termMulW (TermBuilder.new.xpow 1).build s = .ok t := ht
    have hr : rassert (decide ((2147483647 : ℤ) ≥ 1)) = .ok () := rfl
    have hw : wrp ((2147483647 : ℤ) + 1) = .ok (-2147483648) := by decide
    simp only [hr, e1, hs, ht', hw, Res.ok_bind]
    rw [psiW_neg (by norm_num)]
    rfl
  · unfold phiW
    have : decide (n ≥ 1) = false := by simpa using h1
    rw [this]; rfl

/-- **C32.**  In the release build `omega` returns for every `i32` argument `n ≥ 1` except the two largest, where `n + 2` wraps
to a negative number; for those and for `n < 1` it panics. -/
theorem C32_release_omega (a b n : ℤ) (hn : InI32 n) :
    (1 ≤ n ∧ n ≤ 2147483645 → ∃ c, omegaW a b n = .ok c) ∧ (¬ (1 ≤ n ∧ n ≤ 2147483645) → omegaW a b n = .panic .assertion) := by
  obtain ⟨hl, hu⟩ := hn
  refine ⟨fun ⟨h1, h2⟩ => ?_, fun h => ?_⟩
  · unfold omegaW
    have hr : rassert (decide (n ≥ 1)) = .ok () := by simp [rassert, h1]
    rw [hr, Res.ok_bind]
    split_ifs with hn1
    · exact ⟨_, rfl⟩
    · obtain ⟨p1, e1, q1⟩ := psiW_wr a b (n + 2) (by omega)
      obtain ⟨p2, e2, q2⟩ := psiW_wr a b (n - 1) (by omega)
      obtain ⟨p3, e3, q3⟩ := psiW_wr a b (n - 2) (by omega)
      obtain ⟨p4, e4, q4⟩ := psiW_wr a b (n + 1) (by omega)
      obtain ⟨f, hf, qf⟩ := powerW_wr q2 (n := 2) (by omega)
      obtain ⟨g, hg, qg⟩ := powerW_wr q4 (n := 2) (by omega)
      obtain ⟨s, hs, qs⟩ := mulW_wr q1 qf
      obtain ⟨t, ht, qt⟩ := mulW_wr q3 qg
      obtain ⟨i, hi, qi⟩ := divTermW_wr (all_sub qs qt) (t := ((TermBuilder.new.coef 4).ypow 1).build) four_ne_zero rfl
      obtain ⟨c, hc, -⟩ := reductionW_wr qi a b
      have hw : wrp (n + 2) = .ok (n + 2) := by unfold wrp; rw [wrap32_id (by unfold InI32; omega)]
      refine ⟨c, ?_⟩
      simp only [hw, e1, e2, e3, e4, hf, hg, hs, ht, hi, hc, Res.ok_bind]
  · unfold omegaW
    by_cases h1 : 1 ≤ n
    · have hr : rassert (decide (n ≥ 1)) = .ok () := by simp [rassert, h1]
      have hw : wrp (n + 2) = .ok (n + 2 - 4294967296) := by unfold wrp wrap32; congr 1; omega
      rw [hr, Res.ok_bind, if_neg (by omega), hw, Res.ok_bind, psiW_neg (by omega)]
      rfl
    · have : decide (n ≥ 1) = false := by simpa using h1
      rw [this]; rfl

/-! ### What they return is wrong -/

theorem coeff_big {c : Poly} (hc : c.All Key.Wr) (j N : ℕ) (hN : 2147483647 < N) : ((c.polyXY ℤ).coeff j).coeff N = 0 := by
  unfold polyXY evalAt
  have : ∀ l : List (Monomial × ℤ), (∀ e ∈ l, e.1.key.Wr) →
      (((l.map fun e : Monomial × ℤ => e.2 • e.1.key.evalAt (C X : ℤ[X][X]) X 0 0).sum).coeff j).coeff N = 0 := by
    intro l
    induction l with
    | nil => intro _; simp
    | cons e t ih =>
      intro h
      rw [List.map_cons, List.sum_cons, coeff_add, coeff_add, ih fun e he => h e (by simp [he]), add_zero]
      obtain ⟨h1, h2⟩ := h e (by simp)
      unfold Key.evalAt
      rw [h1]
      have h3 : N ≠ e.1.key.x.toNat := by unfold InI32 at h2; omega
      rw [← C_pow, coeff_smul, coeff_smul, mul_one, mul_assoc, coeff_C_mul]
      by_cases h4 : e.1.key.q.toNat = 0
      · rw [h4, pow_zero, mul_one, coeff_X_pow]
        split_ifs
        · rw [mul_one, coeff_X_pow, if_neg h3, smul_zero]
        · simp
      · rw [zero_pow h4]; simp
  exact this _ hc

/-- **C29.**  In the release build `psi(a, b, n)` returns for `n ≥ 65537`, where a dev build panics, and the result is not the
`n`-th division polynomial. -/
theorem C29_release_refuted (a b n : ℤ) (hn : 65537 ≤ n) : ∃ c, psiW a b n = .ok c ∧ c.polyXY ℤ ≠ (shortW a b).Ψ n := by
  obtain ⟨c, hc, hw⟩ := psiW_wr a b n (by omega)
  refine ⟨c, hc, fun hval => ?_⟩
  have hsq : 65537 ^ 2 ≤ n.natAbs ^ 2 := Nat.pow_le_pow_left (by omega) 2
  have key : ∀ j : ℕ, ((c.polyXY ℤ).coeff j).coeff ((n.natAbs ^ 2 - if Even n then 4 else 1) / 2) ≠ 0 → False :=
    fun j hj => hj (coeff_big hw j _ (by split_ifs <;> omega))
  have hc := (shortW a b).coeff_preΨ n
  by_cases hev : Even n
  · apply key 1
    rw [hval, WeierstrassCurve.Ψ, if_pos hev, psi2]
    rw [if_pos hev, if_pos hev] at hc
    rw [show (C ((shortW a b).preΨ n) * (C (C 2) * X) : ℤ[X][X]) = C (C 2 * (shortW a b).preΨ n) * X by
      rw [C_mul]; ring, coeff_C_mul, coeff_X_one, mul_one, coeff_C_mul, if_pos hev, hc]
    have : n / 2 ≠ 0 := by omega
    simpa using this
  · apply key 0
    rw [hval, WeierstrassCurve.Ψ, if_neg hev, mul_one, coeff_C_zero, hc, if_neg hev]
    simp; omega

/-- **C30.**  In the release build `phi(a, b, n)` returns for every `n` from 46341 on (up to the largest `i32` but one), where a dev
build panics, and the result is not `Φ_n`. -/
theorem C30_release_refuted (a b n : ℤ) (hn : 46341 ≤ n) (hn' : n ≤ 2147483646) :
    ∃ c, phiW a b n = .ok c ∧ c.polyXY ℤ ≠ C ((shortW a b).Φ n) := by
  obtain ⟨c, hc, hw⟩ := phiW_wr a b n (by omega) hn'
  refine ⟨c, hc, fun hval => ?_⟩
  have hsq : 46341 ^ 2 ≤ n.natAbs ^ 2 := Nat.pow_le_pow_left (by omega) 2
  have h := coeff_big hw 0 (n.natAbs ^ 2) (by omega)
  rw [hval, coeff_C_zero, (shortW a b).coeff_Φ n] at h
  exact one_ne_zero h

/-! ### Concrete cases -/

-- for `n = 65537` the dev build panics, the release build returns something else than the division polynomial
example : (∃ w, psi 1 1 65537 = .panic w) ∧ ∃ c, psiW 1 1 65537 = .ok c ∧ c.polyXY ℤ ≠ (shortW 1 1).Ψ 65537 :=
  ⟨(C32_psi_returns_iff 1 1 65537).2 (by norm_num), C29_release_refuted 1 1 65537 le_rfl⟩
example : (∃ w, phi 1 1 46341 = .panic w) ∧ ∃ c, phiW 1 1 46341 = .ok c ∧ c.polyXY ℤ ≠ C ((shortW 1 1).Φ 46341) :=
  ⟨(C32_phi_returns_iff 1 1 46341).2 (by norm_num), C30_release_refuted 1 1 46341 le_rfl (by norm_num)⟩
example : ∃ c, omegaW 1 1 37838 = .ok c := (C32_release_omega 1 1 37838 (by decide)).1 (by norm_num)

end EC
