import Verif.Lemmas.Modular
import Verif.Lemmas.Laurent
import Verif.Props.QSeries
import Mathlib.Algebra.MvPolynomial.Basic

/-! The generic polynomial at `x = j(q)`, `y = j(q^p)`. -/

namespace EC
open Poly Finset

/-! ### The substitution returns -/

/-- `q^n` with `-m ≤ n ≤ N m`. -/
def QKey (N m : ℤ) (k : Key) : Prop := k.x = 0 ∧ k.y = 0 ∧ k.v = none ∧ -m ≤ k.q ∧ k.q ≤ N * m

theorem qkey_graded {N B : ℤ} (hN : 0 ≤ N) (h1 : N * B ≤ 2147483647) (h2 : B ≤ 2147483647) :
    Graded B (QKey N) := by
  refine ⟨⟨rfl, rfl, rfl, by simp [Key.one], by simp [Key.one]⟩, ?_, ?_⟩
  · rintro m n k k' ⟨a1, a2, a3, a4, a5⟩ ⟨b1, b2, b3, b4, b5⟩
    refine ⟨?_, ?_, ?_, ?_, ?_⟩
    · simp [Key.mul, a1, b1]
    · simp [Key.mul, a2, b2]
    · simp [Key.mul, a3, b3]
    · simp only [Key.mul]; linarith
    · simp only [Key.mul]; linarith
  · rintro m n k k' ⟨a1, a2, a3, a4, a5⟩ ⟨b1, b2, b3, b4, b5⟩ hmn
    have : N * (m + n) ≤ N * B := mul_le_mul_of_nonneg_left hmn hN
    refine ⟨Or.inl a3, ?_, ?_, ?_⟩
    · rw [a1, b1]; constructor <;> omega
    · rw [a2, b2]; constructor <;> omega
    · constructor <;> linarith

/-- The monomials during the substitution. -/
def SubKey (N M M' L : ℤ) (k : Key) : Prop :=
  0 ≤ k.x ∧ k.x ≤ M ∧ 0 ≤ k.y ∧ k.y ≤ M' ∧ -L ≤ k.q ∧ k.q ≤ N * L

theorem evalXPolynomial_ok {N M M' L m : ℤ} {P F : Poly} (hF : F.All (QKey N m)) (hP : P.All (SubKey N M M' L))
    (hN : 0 ≤ N) (hm : 0 ≤ m) (hM : 0 ≤ M) (hL : 0 ≤ L) (hM' : M' ≤ 2147483647)
    (h1 : N * (L + m * M) ≤ 2147483647) (h2 : L + m * M ≤ 2147483647) :
    ∃ Q, P.evalXPolynomial F = .ok Q ∧ Q.All (SubKey N 0 M' (L + m * M)) := by
  have hmM : 0 ≤ m * M := mul_nonneg hm hM
  unfold evalXPolynomial
  refine foldlM_total _ (fun _ Q => Q.All (SubKey N 0 M' (L + m * M))) P.entries new all_new ?_
  rintro pre e b ⟨suf, hsuf⟩ hI
  obtain ⟨k1, k2, k3, k4, k5, k6⟩ := hP e (by rw [hsuf]; simp)
  change 0 ≤ e.1.xpow at k1
  change e.1.xpow ≤ M at k2
  change 0 ≤ e.1.ypow at k3
  change e.1.ypow ≤ M' at k4
  change -L ≤ e.1.qpow at k5
  change e.1.qpow ≤ N * L at k6
  have hxm : e.1.xpow * m ≤ m * M := by nlinarith
  have hxm0 : 0 ≤ e.1.xpow * m := mul_nonneg k1 hm
  have hNx : N * (e.1.xpow * m) ≤ N * (m * M) := mul_le_mul_of_nonneg_left hxm hN
  have hNx0 : 0 ≤ N * (e.1.xpow * m) := mul_nonneg hN hxm0
  have hNL : 0 ≤ N * L := mul_nonneg hN hL
  have hNd : N * (L + m * M) = N * L + N * (m * M) := by ring
  obtain ⟨g0, hg0, hg0A⟩ := (qkey_graded (B := m * M) hN (by linarith) (by omega)).power k1 hm hF hxm
  simp only [Monomial.evalXPolynomial, hg0, Res.ok_bind]
  set t := (((TermBuilder.new.ypow e.1.ypow).qpow e.1.qpow).var e.1.var).build with ht
  have htA : t.toPol.All (fun k => k = { e.1.key with x := 0 }) := all_toPol (fun _ => rfl)
  obtain ⟨g, hg⟩ := mul_ok (a := g0) (b := t.toPol) (fun ie hi je hj => by
    obtain ⟨a1, a2, a3, a4, a5⟩ := hg0A ie hi
    change _ ≤ ie.1.qpow at a4
    change ie.1.qpow ≤ _ at a5
    rw [htA je hj]
    refine ⟨Or.inl a3, ?_, ?_, ?_⟩
    · rw [a1]; constructor <;> simp
    · rw [a2]; constructor <;> simp only [Monomial.key] <;> omega
    · constructor <;> simp only [Monomial.key] <;> linarith)
  have hgA : g.All (SubKey N 0 M' (L + m * M)) := all_mul hg0A htA (by
    rintro k k' ⟨a1, a2, a3, a4, a5⟩ rfl -
    refine ⟨?_, ?_, ?_, ?_, ?_, ?_⟩ <;> simp only [Key.mul, Monomial.key, a1, a2] <;> first | omega | linarith) hg
  rw [hg, Res.ok_bind]
  have hcA : (TermBuilder.new.coef e.2).build.toPol.All (fun k => k = Key.one) := all_toPol (fun _ => rfl)
  obtain ⟨h, hh⟩ := mul_ok (a := g) (b := (TermBuilder.new.coef e.2).build.toPol) (fun ie hi je hj => by
    obtain ⟨a1, a2, a3, a4, a5, a6⟩ := hgA ie hi
    rw [hcA je hj]
    refine ⟨Or.inr rfl, ?_, ?_, ?_⟩ <;> simp only [Key.one, add_zero] <;> constructor <;> first | omega | linarith)
  have hhA : h.All (SubKey N 0 M' (L + m * M)) := all_mul hgA hcA (by
    rintro k k' ⟨a1, a2, a3, a4, a5, a6⟩ rfl -
    refine ⟨?_, ?_, ?_, ?_, ?_, ?_⟩ <;> (simp only [Key.mul, Key.one, add_zero]; assumption)) hh
  rw [hh, Res.ok_bind]
  exact ⟨_, rfl, all_addAssign hI hhA⟩

theorem evalYPolynomial_ok {N M M' L m : ℤ} {P F : Poly} (hF : F.All (QKey N m)) (hP : P.All (SubKey N M M' L))
    (hN : 0 ≤ N) (hm : 0 ≤ m) (hM : 0 ≤ M') (hL : 0 ≤ L) (hM' : M ≤ 2147483647)
    (h1 : N * (L + m * M') ≤ 2147483647) (h2 : L + m * M' ≤ 2147483647) :
    ∃ Q, P.evalYPolynomial F = .ok Q ∧ Q.All (SubKey N M 0 (L + m * M')) := by
  have hmM : 0 ≤ m * M' := mul_nonneg hm hM
  unfold evalYPolynomial
  refine foldlM_total _ (fun _ Q => Q.All (SubKey N M 0 (L + m * M'))) P.entries new all_new ?_
  rintro pre e b ⟨suf, hsuf⟩ hI
  obtain ⟨k1, k2, k3, k4, k5, k6⟩ := hP e (by rw [hsuf]; simp)
  change 0 ≤ e.1.xpow at k1
  change e.1.xpow ≤ M at k2
  change 0 ≤ e.1.ypow at k3
  change e.1.ypow ≤ M' at k4
  change -L ≤ e.1.qpow at k5
  change e.1.qpow ≤ N * L at k6
  have hxm : e.1.ypow * m ≤ m * M' := by nlinarith
  have hxm0 : 0 ≤ e.1.ypow * m := mul_nonneg k3 hm
  have hNx : N * (e.1.ypow * m) ≤ N * (m * M') := mul_le_mul_of_nonneg_left hxm hN
  have hNx0 : 0 ≤ N * (e.1.ypow * m) := mul_nonneg hN hxm0
  have hNL : 0 ≤ N * L := mul_nonneg hN hL
  have hNd : N * (L + m * M') = N * L + N * (m * M') := by ring
  obtain ⟨g0, hg0, hg0A⟩ := (qkey_graded (B := m * M') hN (by linarith) (by omega)).power k3 hm hF hxm
  simp only [Monomial.evalYPolynomial, hg0, Res.ok_bind]
  set t := (((TermBuilder.new.xpow e.1.xpow).qpow e.1.qpow).var e.1.var).build with ht
  have htA : t.toPol.All (fun k => k = { e.1.key with y := 0 }) := all_toPol (fun _ => rfl)
  obtain ⟨g, hg⟩ := mul_ok (a := g0) (b := t.toPol) (fun ie hi je hj => by
    obtain ⟨a1, a2, a3, a4, a5⟩ := hg0A ie hi
    change _ ≤ ie.1.qpow at a4
    change ie.1.qpow ≤ _ at a5
    rw [htA je hj]
    refine ⟨Or.inl a3, ?_, ?_, ?_⟩
    · rw [a1]; constructor <;> simp only [Monomial.key] <;> omega
    · rw [a2]; constructor <;> simp
    · constructor <;> simp only [Monomial.key] <;> linarith)
  have hgA : g.All (SubKey N M 0 (L + m * M')) := all_mul hg0A htA (by
    rintro k k' ⟨a1, a2, a3, a4, a5⟩ rfl -
    refine ⟨?_, ?_, ?_, ?_, ?_, ?_⟩ <;> simp only [Key.mul, Monomial.key, a1, a2] <;> first | omega | linarith) hg
  rw [hg, Res.ok_bind]
  have hcA : (TermBuilder.new.coef e.2).build.toPol.All (fun k => k = Key.one) := all_toPol (fun _ => rfl)
  obtain ⟨h, hh⟩ := mul_ok (a := g) (b := (TermBuilder.new.coef e.2).build.toPol) (fun ie hi je hj => by
    obtain ⟨a1, a2, a3, a4, a5, a6⟩ := hgA ie hi
    rw [hcA je hj]
    refine ⟨Or.inr rfl, ?_, ?_, ?_⟩ <;> simp only [Key.one, add_zero] <;> constructor <;> first | omega | linarith)
  have hhA : h.All (SubKey N M 0 (L + m * M')) := all_mul hgA hcA (by
    rintro k k' ⟨a1, a2, a3, a4, a5, a6⟩ rfl -
    refine ⟨?_, ?_, ?_, ?_, ?_, ?_⟩ <;> (simp only [Key.mul, Key.one, add_zero]; assumption)) hh
  rw [hh, Res.ok_bind]
  exact ⟨_, rfl, all_addAssign hI hhA⟩

/-! ### Its value -/

/-- Exponent vector of the optional variable. -/
noncomputable def vfs : Option (ℤ × ℤ) → (ℤ × ℤ →₀ ℕ)
  | none => 0
  | some v => Finsupp.single v 1

theorem vfs_inj {v w : Option (ℤ × ℤ)} (h : vfs v = vfs w) : v = w := by
  cases v <;> cases w
  · rfl
  · simp [vfs, eq_comm] at h
  · simp [vfs] at h
  · rename_i a b
    simp only [vfs] at h
    rw [Finsupp.single_left_injective (by norm_num : (1 : ℕ) ≠ 0) h]

/-- Polynomials in the subscripted variables over Laurent series in `q`. -/
abbrev VL := MvPolynomial (ℤ × ℤ) (LaurentSeries ℤ)

/-- `q^n c_i_j`, without `x` and `y`. -/
noncomputable def phi0 (k : Key) : VL := MvPolynomial.monomial (vfs k.v) (HahnSeries.single k.q 1)

theorem mulFn_phi0 : MulFn (fun _ => True) phi0 := by
  refine ⟨trivial, rfl, fun _ _ _ => trivial, ?_⟩
  rintro k k' - - ⟨hv, -⟩
  unfold phi0
  rw [MvPolynomial.monomial_mul, HahnSeries.single_mul_single, mul_one]
  congr 1
  rcases hv with hv | hv
  · simp only [Key.mul, hv, vfs, zero_add]; rfl
  · simp only [Key.mul, hv, vfs, add_zero]
    cases k.v <;> rfl

theorem mulFn_phi1 (Y : VL) : MulFn (fun k => 0 ≤ k.y) (fun k => Y ^ k.y.toNat * phi0 k) := by
  refine ⟨le_rfl, by rw [mulFn_phi0.map_one]; simp [Key.one], ?_, ?_⟩
  · intro k k' h h' _
    simp only [Key.mul]; omega
  · intro k k' h h' hc
    rw [mulFn_phi0.map_mul trivial trivial hc]
    have : (k.mul k').y.toNat = k.y.toNat + k'.y.toNat := by simp only [Key.mul]; omega
    rw [this, pow_add]; ring

/-- The coefficient of `q^i` of the coefficient of the variable. -/
noncomputable def coefAt (i : ℤ) (v : Option (ℤ × ℤ)) : VL →+ ℤ where
  toFun r := (MvPolynomial.coeff (vfs v) r).coeff i
  map_zero' := by simp
  map_add' := by simp

theorem coefAt_phi0 (i : ℤ) (v : Option (ℤ × ℤ)) (A : LaurentSeries ℤ) (k : Key) :
    coefAt i v (MvPolynomial.C A * phi0 { k with q := 0 }) = if k.v = v then A.coeff i else 0 := by
  change (MvPolynomial.coeff (vfs v) (MvPolynomial.C A * phi0 { k with q := 0 })).coeff i = _
  unfold phi0
  rw [MvPolynomial.C_mul_monomial, MvPolynomial.coeff_monomial]
  split_ifs with h1 h2 h2
  · change (A * HahnSeries.single 0 1).coeff i = _
    rw [HahnSeries.single_zero_one, mul_one]
  · exact absurd (vfs_inj h1) h2
  · exact absurd (by rw [h2]) h1
  · rfl

theorem coefAt_phi0' (i : ℤ) (v : Option (ℤ × ℤ)) (k : Key) :
    coefAt i v (phi0 k) = if k.v = v ∧ k.q = i then 1 else 0 := by
  change (MvPolynomial.coeff (vfs v) (phi0 k)).coeff i = _
  unfold phi0
  rw [MvPolynomial.coeff_monomial]
  split_ifs with h1 h2 h2
  · rw [h2.2, HahnSeries.coeff_single_same]
  · rw [HahnSeries.coeff_single_of_ne]
    intro h3
    exact h2 ⟨vfs_inj h1, h3.symm⟩
  · exact absurd (by rw [h2.1]) h1
  · rfl

/-- A polynomial in `q` alone as a Laurent series. -/
noncomputable def laurentOf (P : Poly) : LaurentSeries ℤ := P.lin fun k => HahnSeries.single k.q (1 : ℤ)

theorem laurentOf_coeff {P : Poly} (h : P.All (fun k => k.x = 0 ∧ k.y = 0 ∧ k.v = none)) (n : ℤ) :
    (laurentOf P).coeff n = P.coef { x := 0, y := 0, q := n, v := none } := by
  unfold laurentOf
  have := map_lin (HahnSeries.coeff.addMonoidHom n : LaurentSeries ℤ →+ ℤ) (fun k => HahnSeries.single k.q (1 : ℤ)) P
  refine this.trans ?_
  unfold lin coef
  congr 1
  apply List.map_congr_left
  intro e he
  obtain ⟨h1, h2, h3⟩ := h e he
  change e.2 • (HahnSeries.single e.1.key.q (1 : ℤ)).coeff n = _
  split_ifs with h4
  · rw [h4, HahnSeries.coeff_single_same]; simp
  · rw [HahnSeries.coeff_single_of_ne, smul_zero]
    rintro rfl
    apply h4
    rcases hk : e.1.key with ⟨a, b, c, d⟩
    rw [hk] at h1 h2 h3
    simp only at h1 h2 h3
    rw [h1, h2, h3]

theorem lin_phi0_of_q {P : Poly} (h : P.All (fun k => k.x = 0 ∧ k.y = 0 ∧ k.v = none)) :
    P.lin phi0 = MvPolynomial.C (laurentOf P) := by
  have := map_lin (MvPolynomial.C : LaurentSeries ℤ →+* VL).toAddMonoidHom (fun k => HahnSeries.single k.q (1 : ℤ)) P
  refine Eq.trans ?_ this.symm
  refine lin_congr_fun fun e he => ?_
  obtain ⟨h1, h2, h3⟩ := h e he
  unfold phi0
  rw [h3]; rfl


/-- The coefficient of the variable `v` in the generic polynomial at `x = X`, `y = Y`. -/
noncomputable def genericCoef (p : ℕ) (X Y : LaurentSeries ℤ) (v : Option (ℤ × ℤ)) : LaurentSeries ℤ :=
  (if none = v then X ^ (p + 1) else 0) + (if none = v then Y ^ (p + 1) else 0) +
    ∑ i ∈ range (p + 1), (if some ((i : ℤ), (i : ℤ)) = v then X ^ i * Y ^ i else 0) +
    ∑ i ∈ range (p + 1), ∑ j ∈ Ico (i + 1) (p + 1),
      ((if some ((i : ℤ), (j : ℤ)) = v then X ^ i * Y ^ j else 0) +
        if some ((i : ℤ), (j : ℤ)) = v then X ^ j * Y ^ i else 0)

theorem substitution_coef {G j jq pol1 pol2 : Poly} {p : ℕ} (hGA : G.All (GenKey p))
    (hG : ∀ (M : Type) [AddCommGroup M] (φ : Key → M), G.lin φ = φ ⟨p + 1, 0, 0, none⟩ + φ ⟨0, p + 1, 0, none⟩ +
        ∑ i ∈ range (p + 1), φ ⟨i, i, 0, some (i, i)⟩ +
        ∑ i ∈ range (p + 1), ∑ j ∈ Ico (i + 1) (p + 1),
          (φ ⟨i, j, 0, some (i, j)⟩ + φ ⟨j, i, 0, some (i, j)⟩))
    (hj : j.All (fun k => k.x = 0 ∧ k.y = 0 ∧ k.v = none)) (hjq : jq.All (fun k => k.x = 0 ∧ k.y = 0 ∧ k.v = none))
    (h1 : G.evalXPolynomial j = .ok pol1) (h2 : pol1.evalYPolynomial jq = .ok pol2)
    (h3 : pol2.All (fun k => k.x = 0 ∧ k.y = 0)) (i : ℤ) (v : Option (ℤ × ℤ)) :
    pol2.coef ⟨0, 0, i, v⟩ = (genericCoef p (laurentOf j) (laurentOf jq) v).coeff i := by
  set X := laurentOf j
  set Y := laurentOf jq
  have e2 := (evalYPolynomial_lin mulFn_phi0 (fun _ _ => trivial) (fun _ _ => trivial) h2).2.2
  have e1 := (evalXPolynomial_lin (mulFn_phi1 (MvPolynomial.C Y)) (F := j)
    (fun e he => by change 0 ≤ e.1.key.y; rw [(hj e he).2.1]) (fun e he => (hGA e he).2.2.1) h1).2.2
  have ej : j.lin (fun k => MvPolynomial.C Y ^ k.y.toNat * phi0 k) = MvPolynomial.C X := by
    rw [← lin_phi0_of_q hj]
    refine lin_congr_fun fun e he => ?_
    simp only [(hj e he).2.1]; simp
  rw [ej] at e1
  rw [lin_phi0_of_q hjq] at e2
  have e3 : pol2.lin phi0 = G.lin (fun k => MvPolynomial.C (X ^ k.x.toNat * Y ^ k.y.toNat) * phi0 { k with q := 0 }) := by
    have e4 : pol2.lin phi0 = pol1.lin (fun k => MvPolynomial.C Y ^ k.y.toNat * phi0 k) := e2
    rw [e4, e1]
    change G.lin (fun k => MvPolynomial.C X ^ k.x.toNat *
      (MvPolynomial.C Y ^ k.y.toNat * phi0 { k with x := 0 })) = _
    refine lin_congr_fun fun e he => ?_
    have hq : e.1.key.q = 0 := (hGA e he).2.2.2.2
    simp only [map_mul, map_pow, mul_assoc]
    congr 2
    unfold phi0
    simp only [hq]
  have e5 := congrArg (coefAt i v) e3
  rw [map_lin, map_lin] at e5
  simp only [coefAt_phi0, coefAt_phi0'] at e5
  have e6 : pol2.lin (fun k => if k.v = v ∧ k.q = i then (1 : ℤ) else 0) = pol2.coef ⟨0, 0, i, v⟩ := by
    unfold lin coef
    congr 1
    apply List.map_congr_left
    intro e he
    obtain ⟨a1, a2⟩ := h3 e he
    rcases hk : e.1.key with ⟨a, b, c, d⟩
    rw [hk] at a1 a2
    simp only at a1 a2
    subst a1; subst a2
    simp only [Key.mk.injEq, true_and]
    by_cases hh : d = v ∧ c = i
    · rw [if_pos hh, if_pos ⟨hh.2, hh.1⟩]; simp
    · rw [if_neg hh, if_neg (fun h => hh ⟨h.2, h.1⟩)]; simp
  rw [← e6, e5, hG]
  have t1 : (((p : ℤ) + 1).toNat) = p + 1 := by omega
  have hite : ∀ (c : Prop) [Decidable c] (A : LaurentSeries ℤ), (if c then A.coeff i else 0) = (if c then A else 0).coeff i := by
    intro c _ A; split_ifs <;> rfl
  simp only [t1, Int.toNat_natCast, Int.toNat_zero, pow_zero, mul_one, one_mul, hite]
  unfold genericCoef
  simp only [HahnSeries.coeff_add, HahnSeries.coeff_sum]

theorem toQPower_spec {P Q : Poly} {n : ℕ} (hn : 0 < n) (hP : P.All (fun k => k.x = 0 ∧ k.y = 0 ∧ k.v = none))
    (h : P.toQPower n = .ok Q) :
    Q.All (fun k => k.x = 0 ∧ k.y = 0 ∧ k.v = none) ∧ laurentOf Q = qPow n hn (laurentOf P) := by
  unfold toQPower at h
  have hf : ∀ e ∈ P.entries, ∀ u, (Term.from' e.1 e.2).toQPower n = .ok u →
      u.monomial.key = Key.scale 1 1 n e.1.key ∧ u.coef = e.2 := by
    intro e _ u hu
    obtain ⟨_, rfl⟩ := Term.toQPower_eq_ok.1 hu
    refine ⟨?_, rfl⟩
    simp [Monomial.key, Key.scale, Term.xpow, Term.ypow, Term.qpow, Term.var, Term.from']
  have hi : ∀ e ∈ P.entries, ∀ e' ∈ P.entries, Key.scale 1 1 n e.1.key = Key.scale 1 1 n e'.1.key →
      e.1.key = e'.1.key := fun e _ e' _ h => Key.scale_inj (by norm_num) (by norm_num) (by omega) h
  constructor
  · rw [all_iff]
    intro k v hk
    obtain ⟨e, he, hke⟩ := ((pass_fs h hf hi).2.2 k v).1 hk
    rw [hke.1]
    obtain ⟨a1, a2, a3⟩ := hP e he
    exact ⟨by simp [Key.scale, a1], by simp [Key.scale, a2], by simp [Key.scale, a3]⟩
  · unfold laurentOf
    rw [pass_lin h hf hi]
    have := map_lin (qPow n hn).toAddMonoidHom (fun k => HahnSeries.single k.q (1 : ℤ)) P
    refine Eq.trans ?_ this.symm
    unfold lin
    congr 1
    apply List.map_congr_left
    intro e _
    congr 1
    change _ = qPow n hn (HahnSeries.single e.1.key.q 1)
    rw [qPow_single]
    simp only [Key.scale]
    rw [mul_comm (n : ℤ)]


/-- The truncated `j`. -/
theorem jInvariantQ_laurent {N : ℤ} (hN : -1 ≤ N) (hN' : 3 * (N + 1) ≤ 2147483647) :
    ∃ j, jInvariantQ N = .ok j ∧ j.All (QKey N 1) ∧
      (∀ n, (laurentOf j).coeff n = if -1 ≤ n ∧ n ≤ N then PowerSeries.coeff (n + 1).toNat seriesJ1 else 0) := by
  obtain ⟨j, hj, hjA, hjc⟩ := C36_j_invariant N hN hN'
  have hA : j.All (QKey N 1) := by
    intro e he
    obtain ⟨h1, h2, h3, h4, h5⟩ := hjA e he
    exact ⟨h1, h2, SubVar.key_eq_none.2 h3, h4, by rw [mul_one]; exact h5⟩
  refine ⟨j, hj, hA, ?_⟩
  intro n
  rw [laurentOf_coeff (hA.mono fun k h => ⟨h.1, h.2.1, h.2.2.1⟩)]
  by_cases hn : -1 ≤ n
  · rw [hjc n hn]
    simp only [hn, true_and]
  · rw [if_neg (by tauto)]
    unfold coef
    apply List.sum_eq_zero
    intro x hx
    obtain ⟨e, he, rfl⟩ := List.mem_map.1 hx
    rw [if_neg]
    intro h
    have := (hA e he).2.2.2.1
    rw [h] at this
    simp only at this
    omega

/-- What is needed of the truncated `j`. -/
structure JTrunc (N : ℤ) (X : LaurentSeries ℤ) : Prop where
  lead : Lead (-1) X
  diff : OL (N + 1) (X - jLaurent)

theorem jTrunc_of {N : ℤ} (hN : -1 ≤ N) {X : LaurentSeries ℤ}
    (h : ∀ n, X.coeff n = if -1 ≤ n ∧ n ≤ N then PowerSeries.coeff (n + 1).toNat seriesJ1 else 0) : JTrunc N X := by
  have hd : OL (N + 1) (X - jLaurent) := by
    intro n hn
    rw [HahnSeries.coeff_sub, h, jLaurent_coeff]
    by_cases h1 : -1 ≤ n
    · rw [if_pos ⟨h1, by omega⟩, if_pos h1, sub_self]
    · rw [if_neg (by tauto), if_neg h1, sub_self]
  refine ⟨⟨?_, ?_⟩, hd⟩
  · rw [h, if_pos ⟨le_rfl, hN⟩]
    have := jLaurent_lead.1
    rw [jLaurent_coeff, if_pos le_rfl] at this
    exact this
  · intro n hn
    rw [h, if_neg (by omega)]

/-- The stored `q`-polynomial: for a prime `p ≤ 214` it is returned, has no `x` and `y`, and the
coefficient of `q^i c_v` is the one of the generic polynomial at a truncated `j`. -/
theorem polQ_spec {p : ℕ} (hp : p.Prime) (hb : p ≤ 214) :
    ∃ Q X, subscriptedVariableModularPolynomialQ p = .ok Q ∧ Q.All (fun k => k.x = 0 ∧ k.y = 0) ∧
      JTrunc ((p : ℤ) * p + p) X ∧
      ∀ i ≤ 0, ∀ v, Q.coef ⟨0, 0, i, v⟩ = (genericCoef p X (qPow p hp.pos X) v).coeff i := by
  have hp2 := hp.two_le
  have hbz : (p : ℤ) ≤ 214 := by exact_mod_cast hb
  have hp0 : (2 : ℤ) ≤ p := by exact_mod_cast hp2
  have hpp : (p : ℤ) * p ≤ 214 * 214 := by nlinarith
  obtain ⟨G, hG, -, hGA, hGL⟩ := generic_spec hp (by omega)
  set N : ℤ := (p : ℤ) * p + p with hN
  have hN0 : 0 ≤ N := by nlinarith
  obtain ⟨j, hj, hjA, hjc⟩ := jInvariantQ_laurent (N := N) (by omega) (by omega)
  have hjA' : j.All (fun k => k.x = 0 ∧ k.y = 0 ∧ k.v = none) := hjA.mono fun k h => ⟨h.1, h.2.1, h.2.2.1⟩
  have hNp : N * p ≤ 2147483647 := by nlinarith
  obtain ⟨jq, hjq⟩ : ∃ jq, j.toQPower p = .ok jq := by
    unfold toQPower
    refine foldlM_insert_ok _ (fun e he => ?_)
    obtain ⟨h1, h2, h3, h4, h5⟩ := hjA e he
    change -1 ≤ e.1.qpow at h4
    change e.1.qpow ≤ N * 1 at h5
    exact ⟨_, Term.toQPower_eq_ok.2 ⟨⟨by simp only [Term.qpow, Term.from']; nlinarith,
      by simp only [Term.qpow, Term.from']; nlinarith⟩, rfl⟩⟩
  obtain ⟨hjqA', hjqL⟩ := toQPower_spec hp.pos hjA' hjq
  have hjqA : jq.All (QKey N p) := by
    have h := hjq
    unfold toQPower at h
    rw [all_iff]
    intro k v hk
    obtain ⟨e, he, hke⟩ := ((pass_fs (g := Key.scale 1 1 p) (c := fun e => e.2) h (by
      intro e _ u hu
      obtain ⟨_, rfl⟩ := Term.toQPower_eq_ok.1 hu
      refine ⟨?_, rfl⟩
      simp [Monomial.key, Key.scale, Term.xpow, Term.ypow, Term.qpow, Term.var, Term.from'])
      (fun e _ e' _ h => Key.scale_inj (by norm_num) (by norm_num) (by omega) h)).2.2 k v).1 hk
    rw [hke.1]
    obtain ⟨a1, a2, a3, a4, a5⟩ := hjA e he
    refine ⟨by simp [Key.scale, a1], by simp [Key.scale, a2], by simp [Key.scale, a3], ?_, ?_⟩
    · simp only [Key.scale]; nlinarith
    · simp only [Key.scale]; nlinarith
  have hGS : G.All (SubKey N ((p : ℤ) + 1) ((p : ℤ) + 1) 0) := by
    intro e he
    obtain ⟨a1, a2, a3, a4, a5⟩ := hGA e he
    exact ⟨a1, a2, a3, a4, by rw [a5]; simp, by rw [a5]; simp⟩
  have hb1 : N * (0 + 1 * ((p : ℤ) + 1) + p * (p + 1)) ≤ 2147483647 := by
    have e1 : N * (0 + 1 * ((p : ℤ) + 1) + p * (p + 1)) = p * ((p + 1) * ((p + 1) * (p + 1))) := by rw [hN]; ring
    rw [e1]
    have hp1 : (p : ℤ) + 1 ≤ 215 := by omega
    have h1 : ((p : ℤ) + 1) * (p + 1) ≤ 215 * 215 := mul_le_mul hp1 hp1 (by omega) (by norm_num)
    have h2 : ((p : ℤ) + 1) * ((p + 1) * (p + 1)) ≤ 215 * (215 * 215) :=
      mul_le_mul hp1 h1 (by positivity) (by norm_num)
    exact (mul_le_mul hbz h2 (by positivity) (by norm_num)).trans (by norm_num)
  have hb2 : N * (0 + 1 * ((p : ℤ) + 1)) ≤ 2147483647 := by nlinarith
  obtain ⟨pol1, hpol1, hpol1A⟩ := evalXPolynomial_ok hjA hGS hN0 (by norm_num) (by omega) le_rfl (by omega) hb2 (by omega)
  obtain ⟨pol2, hpol2, hpol2A⟩ := evalYPolynomial_ok hjqA hpol1A hN0 (by omega) (by omega) (by omega) (by omega) hb1
    (by nlinarith)
  have h2A : pol2.All (fun k => k.x = 0 ∧ k.y = 0) := hpol2A.mono fun k h => ⟨le_antisymm h.2.1 h.1, le_antisymm h.2.2.2.1 h.2.2.1⟩
  obtain ⟨Q, hQ⟩ := omitHighOrderQ_ok (P := pol2) (N := 0) (fun e he => (h2A e he).1) (fun e he => (h2A e he).2)
    ⟨by norm_num, by norm_num⟩
  have hQe := (omitHighOrderQ_eq_ok hQ).2.2.2
  refine ⟨Q, laurentOf j, ?_, ?_, jTrunc_of (by omega) hjc, ?_⟩
  · unfold subscriptedVariableModularPolynomialQ
    rw [hG, Res.ok_bind, chk_of ⟨by nlinarith, by omega⟩, Res.ok_bind, chk_of ⟨by omega, by omega⟩, Res.ok_bind, hj,
      Res.ok_bind, hjq, Res.ok_bind, hpol1, Res.ok_bind, hpol2, Res.ok_bind, hQ]
  · intro e he
    rw [hQe, List.mem_filter] at he
    exact h2A e he.1
  · intro i hi v
    rw [← hjqL, ← substitution_coef hGA hGL hjA' hjqA' hpol1 hpol2 h2A]
    unfold coef
    rw [hQe]
    generalize pol2.entries = l
    induction l with
    | nil => rfl
    | cons a t ih =>
      rw [List.filter_cons]
      split_ifs with h
      · rw [List.map_cons, List.map_cons, List.sum_cons, List.sum_cons, ih]
      · rw [List.map_cons, List.sum_cons, ih, if_neg, zero_add]
        intro hk
        apply h
        have : a.1.qpow = i := congrArg Key.q hk
        simpa [this] using hi

end EC
