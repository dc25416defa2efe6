import Verif.Lemmas.ModularQ

/-! The exponents that a product, a power and the substitutions of `modular_polynomial` must store, and the
resulting upper bounds on the arguments. -/

namespace EC

open Poly

namespace Poly

/-- Some stored term has `q`-exponent `m`. -/
def HasQ (f : Poly) (m : ℤ) : Prop := ∃ k, (f.look k).isSome ∧ k.q = m

theorem HasQ.of_mem {f : Poly} {e : Monomial × Int} (he : e ∈ f.entries) : f.HasQ e.1.qpow :=
  ⟨e.1.key, by rw [look_of_mem he]; rfl, rfl⟩

theorem HasQ.mem {f : Poly} {m : ℤ} (h : f.HasQ m) : ∃ e ∈ f.entries, e.1.qpow = m := by
  obtain ⟨k, hk, rfl⟩ := h
  obtain ⟨c, hc⟩ := Option.isSome_iff_exists.1 hk
  obtain ⟨e, he, rfl, _⟩ := look_eq_some hc
  exact ⟨e, he, rfl⟩

theorem HasQ.of_coef {f : Poly} {k : Key} (h : f.coef k ≠ 0) : f.HasQ k.q := by
  refine ⟨k, ?_, rfl⟩
  rw [coef_eq] at h
  cases hl : f.look k with
  | none => rw [hl] at h; simp at h
  | some c => rfl

theorem hasQ_one : one.HasQ 0 :=
  HasQ.of_mem (e := ({ xpow := 0, ypow := 0, qpow := 0, var := SubVar.new }, 1)) (by simp)

theorem HasQ.mul {a b c : Poly} {m n : ℤ} (ha : a.HasQ m) (hb : b.HasQ n) (h : a.mul b = .ok c) :
    c.HasQ (m + n) ∧ m + n ≤ 2147483647 := by
  obtain ⟨e, he, rfl⟩ := ha.mem
  obtain ⟨e', he', rfl⟩ := hb.mem
  obtain ⟨h1, _, h3⟩ := mul_eq_ok h
  refine ⟨⟨e.1.key.mul e'.1.key, (h3 _).2 ⟨e, he, e', he', rfl⟩, rfl⟩, ?_⟩
  exact (h1 e he e' he').2.2.2.2

theorem HasQ.powLoop : ∀ (e : ℤ) (b r c : Poly) (i j : ℤ), 1 ≤ e → b.HasQ j → r.HasQ i →
    powLoop e b r = .ok c → c.HasQ (i + e * j) ∧ i + e * j ≤ 2147483647 := by
  intro e
  induction hn : e.toNat using Nat.strong_induction_on generalizing e with
  | _ n ih =>
    intro b r c i j he hb hr h
    rw [Poly.powLoop] at h
    split_ifs at h with h1 h2
    · obtain ⟨r', hr', h⟩ := Res.bind_eq_ok.1 h
      obtain ⟨b', hb', h⟩ := Res.bind_eq_ok.1 h
      rw [tdiv2 (by omega)] at h
      have := ih _ (by omega) (e / 2) rfl b' r' c (i + j) (j + j) (by omega) (hb.mul hb hb').1 (hr.mul hb hr').1 h
      have he2 : e = 2 * (e / 2) + 1 := by omega
      rwa [show i + j + e / 2 * (j + j) = i + e * j by linear_combination (-j) * he2] at this
    · rw [Res.ok_bind] at h
      obtain ⟨b', hb', h⟩ := Res.bind_eq_ok.1 h
      rw [tdiv2 (by omega)] at h
      have := ih _ (by omega) (e / 2) rfl b' r c i (j + j) (by omega) (hb.mul hb hb').1 hr h
      have he2 : e = 2 * (e / 2) := by omega
      rwa [show i + e / 2 * (j + j) = i + e * j by linear_combination (-j) * he2] at this
    · have he1 : e = 1 := by omega
      rw [he1, one_mul]
      exact hr.mul hb h

theorem HasQ.power {f c : Poly} {n j : ℤ} (hn : 1 ≤ n) (hf : f.HasQ j) (h : f.power n = .ok c) :
    c.HasQ (n * j) ∧ n * j ≤ 2147483647 := by
  unfold Poly.power at h
  obtain ⟨_, h0, h⟩ := Res.bind_eq_ok.1 h
  rw [if_neg (by omega)] at h
  have := HasQ.powLoop n f one c 0 j hn hf hasQ_one h
  rwa [zero_add] at this

theorem HasQ.power3 {f c : Poly} {j : ℤ} (h0 : f.HasQ 0) (hf : f.HasQ j) (h : f.power 3 = .ok c) :
    c.HasQ j := by
  unfold Poly.power at h
  obtain ⟨_, -, h⟩ := Res.bind_eq_ok.1 h
  rw [if_neg (by norm_num), Poly.powLoop, if_pos (by norm_num), if_pos (by norm_num)] at h
  obtain ⟨r', hr', h⟩ := Res.bind_eq_ok.1 h
  obtain ⟨b', hb', h⟩ := Res.bind_eq_ok.1 h
  rw [show (3 : ℤ).tdiv 2 = 1 from rfl, Poly.powLoop, if_neg (by norm_num)] at h
  have := (((hasQ_one.mul hf hr').1).mul (h0.mul h0 hb').1 h).1
  simpa using this

theorem HasQ.omit {f c : Poly} {j N : ℤ} (hf : f.HasQ j) (hj : j ≤ N) (h : f.omitHighOrderQ N = .ok c) :
    c.HasQ j := by
  obtain ⟨e, he, rfl⟩ := hf.mem
  refine HasQ.of_mem ?_
  rw [(omitHighOrderQ_eq_ok h).2.2.2, List.mem_filter]
  exact ⟨he, by simpa using hj⟩

theorem HasQ.toQPower {f c : Poly} {j : ℤ} {n : ℕ} (hn : 0 < n) (hf : f.HasQ j) (h : f.toQPower n = .ok c) :
    c.HasQ (n * j) := by
  obtain ⟨e, he, rfl⟩ := hf.mem
  unfold Poly.toQPower at h
  have := (pass_fs (g := Key.scale 1 1 n) (c := fun e => e.2) h (by
      intro e _ u hu
      obtain ⟨_, rfl⟩ := Term.toQPower_eq_ok.1 hu
      refine ⟨?_, rfl⟩
      simp [Monomial.key, Key.scale, Term.xpow, Term.ypow, Term.qpow, Term.var, Term.from'])
      (fun e _ e' _ h => Key.scale_inj (by norm_num) (by norm_num) (by omega) h)).2.2
  refine ⟨Key.scale 1 1 n e.1.key, ?_, by simp [Key.scale, Monomial.key, mul_comm]⟩
  rw [(this _ e.2).2 ⟨e, he, rfl, rfl⟩]
  rfl

end Poly

/-! ### `j` -/

theorem eisenstein4_hasQ {N : ℤ} {f : Poly} (hN : 0 ≤ N) (h : eisenstein4 N = .ok f) : f.HasQ 0 ∧ f.HasQ N := by
  have hN' : N < 2147483647 := by
    unfold eisenstein4 at h
    obtain ⟨_, h1, _⟩ := Res.bind_eq_ok.1 h
    have := (chk_eq_ok.1 h1).1.2
    omega
  obtain ⟨g, hg, hA, hS⟩ := eisenstein4_spec hN hN'
  cases h.symm.trans hg
  have key : ∀ n : ℕ, (n : ℤ) ≤ N → PowerSeries.coeff n seriesE4 ≠ 0 → f.HasQ n := by
    intro n hn hc
    have := coeff_series (hA.mono fun _ h => h.isQ) n
    rw [modX_iff.1 hS n hn] at this
    exact HasQ.of_coef (k := ⟨0, 0, n, none⟩) (by rw [← this]; exact hc)
  have pos : ∀ n, PowerSeries.coeff n seriesE4 ≠ 0 := by
    intro n
    unfold seriesE4
    rw [PowerSeries.coeff_mk]
    split_ifs with h0
    · norm_num
    · have : 0 < ArithmeticFunction.sigma 3 n := ArithmeticFunction.sigma_pos 3 n h0
      positivity
  refine ⟨by simpa using key 0 (by omega) (pos 0), ?_⟩
  have := key N.toNat (by omega) (pos _)
  rwa [Int.toNat_of_nonneg hN] at this

theorem jInvariant1_bound {N : ℤ} {f : Poly} (hN : 0 ≤ N) (h : jInvariant1 N = .ok f) :
    3 * N ≤ 2147483647 ∧ f.HasQ N := by
  have h' := h
  unfold jInvariant1 at h
  obtain ⟨di, hdi, h⟩ := Res.bind_eq_ok.1 h
  obtain ⟨e4, he4, h⟩ := Res.bind_eq_ok.1 h
  obtain ⟨c, hc, h⟩ := Res.bind_eq_ok.1 h
  obtain ⟨r, hr, h⟩ := Res.bind_eq_ok.1 h
  obtain ⟨m, hm, h⟩ := Res.bind_eq_ok.1 h
  obtain ⟨k0, kN⟩ := eisenstein4_hasQ hN he4
  have hb := (kN.power (by norm_num) hc).2
  refine ⟨hb, ?_⟩
  obtain ⟨di', hdi', hdiA, hdiS⟩ := delta1Inverse_spec hN (by omega)
  cases hdi.symm.trans hdi'
  have hd0 : di.HasQ 0 := by
    have h0 := modX_iff.1 hdiS 0 (by simpa using hN)
    have h1 := coeff_series (hdiA.mono fun _ h => h.isQ) 0
    refine HasQ.of_coef (k := ⟨0, 0, (0 : ℕ), none⟩) fun h2 => ?_
    rw [h2] at h1
    rw [PowerSeries.coeff_zero_eq_constantCoeff_apply] at h1
    simp [h1] at h0
  have := (hd0.mul ((HasQ.power3 k0 kN hc).omit le_rfl hr) hm).1
  rw [zero_add] at this
  exact this.omit le_rfl h

theorem jInvariantQ_bound {N : ℤ} {f : Poly} (hN : -1 ≤ N) (h : jInvariantQ N = .ok f) :
    3 * (N + 1) ≤ 2147483647 ∧ f.HasQ N := by
  unfold jInvariantQ at h
  obtain ⟨n1, h1, h⟩ := Res.bind_eq_ok.1 h
  obtain ⟨-, rfl⟩ := chk_eq_ok.1 h1
  obtain ⟨j1, hj1, h⟩ := Res.bind_eq_ok.1 h
  obtain ⟨hb, hq⟩ := jInvariant1_bound (by omega) hj1
  refine ⟨hb, ?_⟩
  have ht : (TermBuilder.new.qpow (-1)).build.toPol.HasQ (-1) :=
    HasQ.of_coef (k := ⟨0, 0, -1, none⟩) (by decide)
  have := (hq.mul ht h).1
  rwa [add_neg_cancel_right] at this

/-! ### The substitution -/

/-- The `y`-degree of a term without subscripted variable. -/
noncomputable def phiY (k : Key) : Polynomial ℤ := if k.v = none then Polynomial.X ^ k.y.toNat else 0

theorem mulFn_phiY : MulFn (fun k => 0 ≤ k.y) phiY := by
  refine ⟨le_rfl, by simp [phiY, Key.one], ?_, ?_⟩
  · intro k k' h h' _
    simp only [Key.mul]; omega
  · intro k k' h h' hc
    have hy : (k.mul k').y.toNat = k.y.toNat + k'.y.toNat := by simp only [Key.mul]; omega
    unfold phiY
    rw [hy, pow_add]
    rcases hc.1 with hv | hv
    · simp only [Key.mul, hv]
      by_cases h2 : k'.v = none <;> simp [h2]
    · simp only [Key.mul, hv]
      by_cases h2 : k.v = none <;> simp [h2]

/-- After the substitution of `x`, the term `y^(p+1)` is still there. -/
theorem pol1_has_y {G j pol1 : Poly} {p : ℕ} (hGA : G.All (GenKey p))
    (hG : ∀ (M : Type) [AddCommGroup M] (φ : Key → M), G.lin φ = φ ⟨p + 1, 0, 0, none⟩ + φ ⟨0, p + 1, 0, none⟩ +
        ∑ i ∈ Finset.range (p + 1), φ ⟨i, i, 0, some (i, i)⟩ +
        ∑ i ∈ Finset.range (p + 1), ∑ j ∈ Finset.Ico (i + 1) (p + 1),
          (φ ⟨i, j, 0, some (i, j)⟩ + φ ⟨j, i, 0, some (i, j)⟩))
    (hj : j.All (fun k => k.x = 0 ∧ k.y = 0 ∧ k.v = none))
    (h1 : G.evalXPolynomial j = .ok pol1) : ∃ e ∈ pol1.entries, e.1.ypow = p + 1 := by
  obtain ⟨-, hA, e1⟩ := evalXPolynomial_lin mulFn_phiY (F := j)
    (fun e he => by change 0 ≤ e.1.key.y; rw [(hj e he).2.1]) (fun e he => (hGA e he).2.2.1) h1
  obtain ⟨c, hc⟩ : ∃ c : ℤ, j.lin phiY = Polynomial.C c := by
    refine ⟨(j.entries.map fun e => e.2).sum, ?_⟩
    unfold lin
    rw [map_list_sum, List.map_map]
    congr 1
    apply List.map_congr_left
    intro e he
    obtain ⟨a1, a2, a3⟩ := hj e he
    simp [phiY, a2, a3]
  rw [hc] at e1
  have e2 : pol1.lin phiY = G.lin (fun k => Polynomial.C c ^ k.x.toNat * phiY { k with x := 0 }) := e1
  rw [hG] at e2
  have t1 : (((p : ℤ) + 1).toNat) = p + 1 := by omega
  simp only [phiY, t1, reduceCtorEq, if_false, if_true, mul_zero, Finset.sum_const_zero, add_zero, Int.toNat_zero,
    pow_zero, mul_one, one_mul] at e2
  have e3 := congrArg (fun P => Polynomial.coeff P (p + 1)) e2
  simp only [Polynomial.coeff_add, Polynomial.coeff_X_pow, if_true, ← Polynomial.C_pow, Polynomial.coeff_C,
    Nat.succ_ne_zero, if_false, zero_add] at e3
  by_contra hne
  push Not at hne
  have e4 : (Polynomial.lcoeff ℤ (p + 1)) (pol1.lin phiY) = 0 := by
    unfold lin
    rw [map_list_sum, List.map_map]
    apply List.sum_eq_zero
    intro x hx
    obtain ⟨e, he, rfl⟩ := List.mem_map.1 hx
    have h2 := hne e he
    have h3 : 0 ≤ e.1.ypow := hA e he
    have h4 : ¬ (p + 1 = e.1.key.y.toNat) := by
      change ¬ (p + 1 = e.1.ypow.toNat)
      omega
    simp only [Function.comp, map_zsmul, Polynomial.lcoeff_apply, phiY]
    split_ifs
    · rw [Polynomial.coeff_X_pow, if_neg h4, smul_zero]
    · simp
  rw [Polynomial.lcoeff_apply] at e4
  rw [e4] at e3
  norm_num at e3

/-- A prime for which the substitution returns is at most `214`. -/
theorem polQ_bound {p : ℕ} {Q : Poly} (hp : p.Prime) (h : subscriptedVariableModularPolynomialQ p = .ok Q) :
    p ≤ 214 := by
  unfold subscriptedVariableModularPolynomialQ at h
  obtain ⟨G, hG, h⟩ := Res.bind_eq_ok.1 h
  obtain ⟨s, hs, h⟩ := Res.bind_eq_ok.1 h
  obtain ⟨hsb, rfl⟩ := chk_eq_ok.1 hs
  obtain ⟨N, hN, h⟩ := Res.bind_eq_ok.1 h
  obtain ⟨-, rfl⟩ := chk_eq_ok.1 hN
  obtain ⟨j, hj, h⟩ := Res.bind_eq_ok.1 h
  obtain ⟨jq, hjq, h⟩ := Res.bind_eq_ok.1 h
  obtain ⟨pol1, hpol1, h⟩ := Res.bind_eq_ok.1 h
  obtain ⟨pol2, hpol2, h⟩ := Res.bind_eq_ok.1 h
  have hp0 : (2 : ℤ) ≤ p := by exact_mod_cast hp.two_le
  have hN0 : (0 : ℤ) ≤ (p : ℤ) * p + p := by positivity
  obtain ⟨hb, hjN⟩ := jInvariantQ_bound (by omega) hj
  obtain ⟨j', hj', hjA, -⟩ := jInvariantQ_laurent (N := (p : ℤ) * p + p) (by omega) hb
  cases hj.symm.trans hj'
  obtain ⟨G', hG', -, hGA, hGL⟩ := generic_spec hp (by have := hsb.2; nlinarith)
  cases hG.symm.trans hG'
  obtain ⟨e, he, hy⟩ := pol1_has_y hGA hGL (hjA.mono fun k h => ⟨h.1, h.2.1, h.2.2.1⟩) hpol1
  have hqN := hjN.toQPower hp.pos hjq
  have hpow : ∃ c, jq.power (p + 1) = .ok c := by
    unfold evalYPolynomial at hpol2
    refine (foldlM_inv _ (fun pre _ => ∀ e ∈ pre, ∃ c, jq.power e.1.ypow = .ok c) pol1.entries new (by simp) ?_ pol2
      hpol2 e he).imp fun c hc => by rwa [hy] at hc
    intro pre a b b' _ hI hb a' ha'
    rcases List.mem_append.1 ha' with h1 | h1
    · exact hI a' h1
    · rw [List.mem_singleton] at h1
      subst h1
      obtain ⟨g, hg, _⟩ := Res.bind_eq_ok.1 hb
      unfold Monomial.evalYPolynomial at hg
      obtain ⟨c, hc, _⟩ := Res.bind_eq_ok.1 hg
      exact ⟨c, hc⟩
  obtain ⟨c, hc⟩ := hpow
  have hbound := (hqN.power (by omega) hc).2
  by_contra hlt
  have h215 : (215 : ℤ) ≤ p := by omega
  have h1 : (46440 : ℤ) ≤ p * (p + 1) := by nlinarith
  have h2 : ((p : ℤ) + 1) * (p * (p * p + p)) = (p * (p + 1)) * (p * (p + 1)) := by ring
  rw [h2] at hbound
  nlinarith

end EC
