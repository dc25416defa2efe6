import Verif.Spec.QSeries
import Verif.Model.QSeries
import Verif.Lemmas.PolyMap3
import Verif.Props.BigInt

/-! Lemmas about `/repo/src/eisenstein.rs`, `/repo/src/delta.rs` and `/repo/src/j_invariant.rs`. -/

namespace EC
namespace Poly

open PowerSeries (coeff)

/-- Monomials `q^i` with `0 ≤ i ≤ N`. -/
def QT (N : ℤ) (k : Key) : Prop := k.x = 0 ∧ k.y = 0 ∧ 0 ≤ k.q ∧ k.q ≤ N ∧ k.v = none

theorem QT.isQ {N : ℤ} {k : Key} (h : QT N k) : k.IsQ := ⟨h.1, h.2.1, h.2.2.1, h.2.2.2.2⟩
theorem QT.nonneg {N : ℤ} {k : Key} (h : QT N k) : k.Nonneg := ⟨by rw [h.1], by rw [h.2.1], h.2.2.1⟩
theorem QT.mono {N M : ℤ} (hNM : N ≤ M) {k : Key} (h : QT N k) : QT M k :=
  ⟨h.1, h.2.1, h.2.2.1, h.2.2.2.1.trans hNM, h.2.2.2.2⟩

theorem qt_graded : Graded 2147483647 (fun N k => QT N k) := by
  refine ⟨⟨rfl, rfl, le_rfl, le_rfl, rfl⟩, ?_, ?_⟩
  · rintro m n k k' ⟨a1, a2, a3, a4, a5⟩ ⟨b1, b2, b3, b4, b5⟩
    refine ⟨?_, ?_, ?_, ?_, ?_⟩ <;> simp only [Key.mul]
    · omega
    · omega
    · omega
    · omega
    · simp [a5, b5]
  · rintro m n k k' ⟨a1, a2, a3, a4, a5⟩ ⟨b1, b2, b3, b4, b5⟩ h
    refine ⟨Or.inl a5, ?_, ?_, ?_⟩ <;> constructor <;> omega

/-- `a ≡ b` modulo `q^(N+1)`. -/
def ModX (N : ℤ) (a b : PowerSeries ℤ) : Prop := (PowerSeries.X : PowerSeries ℤ) ^ (N + 1).toNat ∣ a - b

theorem ModX.refl {N : ℤ} (a : PowerSeries ℤ) : ModX N a a := by simp [ModX]
theorem ModX.symm {N : ℤ} {a b : PowerSeries ℤ} (h : ModX N a b) : ModX N b a := by
  unfold ModX at *; rw [← neg_sub, dvd_neg]; exact h
theorem ModX.trans {N : ℤ} {a b c : PowerSeries ℤ} (h : ModX N a b) (h' : ModX N b c) : ModX N a c := by
  unfold ModX at *; have := dvd_add h h'; simpa using this
theorem ModX.add {N : ℤ} {a b c d : PowerSeries ℤ} (h : ModX N a b) (h' : ModX N c d) :
    ModX N (a + c) (b + d) := by
  unfold ModX at *; rw [add_sub_add_comm]; exact dvd_add h h'
theorem ModX.sub {N : ℤ} {a b c d : PowerSeries ℤ} (h : ModX N a b) (h' : ModX N c d) :
    ModX N (a - c) (b - d) := by
  unfold ModX at *; rw [sub_sub_sub_comm]; exact dvd_sub h h'
theorem ModX.mul {N : ℤ} {a b c d : PowerSeries ℤ} (h : ModX N a b) (h' : ModX N c d) :
    ModX N (a * c) (b * d) := by
  unfold ModX at *
  have : a * c - b * d = (a - b) * c + b * (c - d) := by ring
  rw [this]; exact dvd_add (h.mul_right _) (h'.mul_left _)
theorem ModX.pow {N : ℤ} {a b : PowerSeries ℤ} (h : ModX N a b) (n : ℕ) : ModX N (a ^ n) (b ^ n) := by
  induction n with
  | zero => simpa using ModX.refl 1
  | succ n ih => rw [pow_succ, pow_succ]; exact ih.mul h

theorem modX_iff {N : ℤ} {a b : PowerSeries ℤ} : ModX N a b ↔ ∀ n : ℕ, (n : ℤ) ≤ N → coeff n a = coeff n b := by
  unfold ModX
  rw [PowerSeries.X_pow_dvd_iff]
  constructor
  · intro h n hn
    have := h n (by omega)
    rwa [map_sub, sub_eq_zero] at this
  · intro h n hn
    rw [map_sub, h n (by omega), sub_self]

theorem series_eq_lin (P : Poly) : P.series = P.lin (Key.evalAt 0 0 PowerSeries.X 0) := rfl

theorem series_one : one.series = 1 := by
  rw [series_eq_lin, lin_one]; simp [Key.evalAt, Key.one]

theorem coeff_series {P : Poly} (hP : P.All Key.IsQ) (n : ℕ) :
    coeff n P.series = P.coef { x := 0, y := 0, q := n, v := none } := by
  unfold series evalAt coef
  rw [map_list_sum, List.map_map]
  congr 1
  refine List.map_congr_left fun e he => ?_
  obtain ⟨h1, h2, h3, h4⟩ := hP e he
  have hk : Key.evalAt (0 : PowerSeries ℤ) 0 PowerSeries.X 0 e.1.key = PowerSeries.X ^ e.1.key.q.toNat := by
    simp [Key.evalAt, h1, h2, h4]
  simp only [Function.comp, hk, map_zsmul, PowerSeries.coeff_X_pow]
  have : (e.1.key = { x := 0, y := 0, q := (n : ℤ), v := none }) ↔ n = e.1.key.q.toNat := by
    constructor
    · intro h; rw [h]; simp
    · intro h; rcases hk : e.1.key with ⟨x, y, q, v⟩; rw [hk] at h1 h2 h3 h4 h
      simp only at h1 h2 h3 h4 h
      simp only [h1, h2, h4, Key.mk.injEq, true_and, and_true]; omega
  by_cases h : n = e.1.key.q.toNat
  · rw [if_pos (this.2 h), if_pos h]; simp
  · rw [if_neg (mt this.1 h), if_neg h]; simp

theorem coeff_series_of_gt {N : ℤ} {P : Poly} (hP : P.All (QT N)) {n : ℕ} (hn : N < n) :
    coeff n P.series = 0 := by
  rw [coeff_series (hP.mono fun _ h => h.isQ)]
  unfold coef
  apply List.sum_eq_zero
  intro x hx
  obtain ⟨e, he, rfl⟩ := List.mem_map.1 hx
  rw [if_neg]
  intro h
  have := (hP e he).2.2.2.1
  rw [h] at this
  simp only at this; omega

/-- `q^n` as a polynomial. -/
theorem qpow_toPol {n : ℤ} (c : ℤ) (hn : 0 ≤ n) :
    ((TermBuilder.new.coef c).qpow n).build.toPol.All (QT n) ∧
    ((TermBuilder.new.coef c).qpow n).build.toPol.series = c • (PowerSeries.X : PowerSeries ℤ) ^ n.toNat := by
  constructor
  · exact all_toPol (fun _ => ⟨rfl, rfl, hn, le_rfl, rfl⟩)
  · rw [series_eq_lin, lin_toPol]
    have : ((TermBuilder.new.coef c).qpow n).build.monomial.key = { x := 0, y := 0, q := n, v := none } := rfl
    rw [this]
    simp only [Key.evalAt, Int.toNat_zero, pow_zero, one_mul, mul_one]
    rfl

theorem qpow_toPol' {n : ℤ} (hn : 0 ≤ n) :
    (TermBuilder.new.qpow n).build.toPol.All (QT n) ∧
    (TermBuilder.new.qpow n).build.toPol.series = (PowerSeries.X : PowerSeries ℤ) ^ n.toNat := by
  have := qpow_toPol 1 hn
  rw [one_smul] at this
  exact this

/-! ### Eisenstein series -/

theorem eisenstein4_spec {N : ℤ} (hN : 0 ≤ N) (hN' : N < 2147483647) :
    ∃ f, eisenstein4 N = .ok f ∧ f.All (QT N) ∧ ModX N f.series seriesE4 := by
  unfold eisenstein4
  rw [chk_of ⟨by omega, by omega⟩, Res.ok_bind]
  obtain ⟨f, hf, hA, hS⟩ := foldlM_total (fun pol n => do
      let sigma ← sigmaDivisor n 3
      let t := ((TermBuilder.new.coef (240 * sigma)).qpow n).build.toPol
      .ok (Poly.addAssign pol t))
    (fun pre P => P.All (QT N) ∧ ∀ n : ℕ, coeff n P.series =
      if n = 0 then 1 else if (n : ℤ) ∈ pre then 240 * (ArithmeticFunction.sigma 3 n : ℤ) else 0)
    (irange 1 (N + 1)) one ⟨all_one ⟨rfl, rfl, le_rfl, hN, rfl⟩, by
      intro n; rw [series_one, PowerSeries.coeff_one]; simp⟩ (by
    rintro pre a b ⟨suf, hs⟩ ⟨hb, hbS⟩
    have ha : 1 ≤ a ∧ a < N + 1 := mem_irange.1 (by rw [hs]; simp)
    have hnd : a ∉ pre := by
      have := nodup_irange 1 (N + 1)
      rw [hs] at this
      intro h
      have := (List.nodup_append.1 this).2.2 a h a (by simp)
      exact this rfl
    obtain ⟨k, rfl⟩ := Int.eq_ofNat_of_zero_le (show 0 ≤ a by omega)
    have hsig : sigmaDivisor (k : ℤ) 3 = .ok (ArithmeticFunction.sigma 3 k : ℕ) :=
      C06_sigma_divisor k 3 (by omega) (by omega)
    obtain ⟨t1, t2⟩ := qpow_toPol (240 * ((ArithmeticFunction.sigma 3 k : ℕ) : ℤ)) (show (0:ℤ) ≤ k by omega)
    refine ⟨_, by simp only [hsig, Res.ok_bind], all_addAssign hb (t1.mono fun _ h => h.mono (by omega)), ?_⟩
    intro n
    rw [series_eq_lin, lin_addAssign, ← series_eq_lin, ← series_eq_lin, map_add, hbS, t2, map_zsmul,
      PowerSeries.coeff_X_pow]
    by_cases h0 : n = 0
    · subst h0
      have : ¬ (0 = k) := by omega
      simp [this]
    · by_cases hk : n = k
      · subst hk
        simp [h0, hnd]
      · have : ¬ (n = (k : ℤ).toNat) := by omega
        simp [h0, this, hk])
  refine ⟨f, hf, hA, modX_iff.2 ?_⟩
  intro n hn
  rw [hS, seriesE4, PowerSeries.coeff_mk]
  by_cases h0 : n = 0
  · simp [h0]
  · rw [if_neg h0, if_neg h0, if_pos]
    exact mem_irange.2 ⟨by omega, by omega⟩

/-! ### Delta -/

theorem mulSeries {N M : ℤ} {a b : Poly} (ha : a.All (QT N)) (hb : b.All (QT M)) (h : N + M ≤ 2147483647) :
    ∃ c, a.mul b = .ok c ∧ c.All (QT (N + M)) ∧ c.series = a.series * b.series := by
  obtain ⟨c, hc, hA⟩ := qt_graded.mul ha hb h
  exact ⟨c, hc, hA, evalAt_mul 0 0 _ 0 (ha.mono fun _ h => h.nonneg) (hb.mono fun _ h => h.nonneg) hc⟩

theorem omitSeries {N M : ℤ} {a : Poly} (ha : a.All (QT M)) (hN : 0 ≤ N) (hN' : N < 2147483647) :
    ∃ c, a.omitHighOrderQ N = .ok c ∧ c.All (QT N) ∧ ModX N c.series a.series := by
  obtain ⟨c, hc⟩ := omitHighOrderQ_ok (P := a) (N := N) (fun e he => (ha e he).1)
    (fun e he => (ha e he).2.1) ⟨by omega, by omega⟩
  refine ⟨c, hc, (all_omit ha hc).mono fun k h => ⟨h.1.1, h.1.2.1, h.1.2.2.1, h.2, h.1.2.2.2.2⟩, ?_⟩
  exact ModX.symm (omit_dvd 0 0 PowerSeries.X 0 hc)

theorem powOmitSeries {N M : ℤ} {a : Poly} (ha : a.All (QT M)) (n : ℤ) (hN : 0 ≤ N) (hN' : N < 2147483647)
    (hNM : N + M ≤ 2147483647) :
    ∃ c, a.powerOmitHighOrderQ n N = .ok c ∧ c.All (QT N) ∧ ModX N c.series (a.series ^ n.toNat) := by
  obtain ⟨c, hc, hA⟩ := powerOmit_ok (P := a) (n := n) (m := M) ha hN (by omega) hNM
  exact ⟨c, hc, hA, ModX.symm (powerOmit_spec 0 0 PowerSeries.X 0 (ha.mono fun _ h => h.nonneg) hN hc).2⟩

theorem subSeries {N : ℤ} {a b : Poly} (ha : a.All (QT N)) (hb : b.All (QT N)) :
    (a.sub b).All (QT N) ∧ (a.sub b).series = a.series - b.series :=
  ⟨all_sub ha hb, lin_sub _ a b⟩

theorem all_one_qt {N : ℤ} (hN : 0 ≤ N) : one.All (QT N) := all_one ⟨rfl, rfl, le_rfl, hN, rfl⟩

theorem modX_prodDelta {N : ℤ} {M : ℕ} (h : N ≤ M) : ModX N (prodDelta M) seriesDelta :=
  modX_iff.2 fun n hn => coeff_prodDelta (by omega)

theorem delta1_spec {N : ℤ} (hN : 0 ≤ N) (hN' : 2 * N ≤ 2147483647) :
    ∃ f, delta1 N = .ok f ∧ f.All (QT N) ∧ ModX N f.series seriesDelta := by
  unfold delta1
  rw [chk_of ⟨by omega, by omega⟩, Res.ok_bind]
  obtain ⟨f, hf, hA, hS⟩ := foldlM_total (fun pol n => do
      let t := (TermBuilder.new.qpow n).build.toPol
      let u ← (Poly.one.sub t).powerOmitHighOrderQ 24 N
      let pol ← Poly.mulAssign pol u
      pol.omitHighOrderQ N)
    (fun pre P => P.All (QT N) ∧ ModX N P.series (prodDelta pre.length))
    (irange 1 (N + 1)) one ⟨all_one_qt hN, by
      rw [series_one]; simpa [prodDelta] using ModX.refl 1⟩ (by
    rintro pre a b ⟨suf, hs⟩ ⟨hb, hbS⟩
    have hlen : a = pre.length + 1 := by
      have h1 : (irange 1 (N + 1))[pre.length]? = some a := by rw [hs]; simp
      rw [irange, List.getElem?_map] at h1
      simp only [Option.map_eq_some_iff] at h1
      obtain ⟨i, hi, rfl⟩ := h1
      have := List.getElem?_eq_some_iff.1 hi
      obtain ⟨_, h2⟩ := this
      rw [List.getElem_range] at h2
      omega
    have ha : 1 ≤ a ∧ a < N + 1 := mem_irange.1 (by rw [hs]; simp)
    obtain ⟨t1, t2⟩ := qpow_toPol' (show 0 ≤ a by omega)
    obtain ⟨s1, s2⟩ := subSeries (all_one_qt (N := a) (by omega)) t1
    obtain ⟨u, hu, huA, huS⟩ := powOmitSeries s1 24 hN (by omega) (by omega)
    obtain ⟨m, hm, hmA, hmS⟩ := mulSeries hb huA (by omega)
    obtain ⟨r, hr, hrA, hrS⟩ := omitSeries hmA hN (by omega)
    refine ⟨r, by simp only [mulAssign, hu, hm, Res.ok_bind, hr], hrA, hrS.trans ?_⟩
    rw [hmS, List.length_append, List.length_singleton, prodDelta_succ]
    refine hbS.mul (huS.trans ?_)
    rw [s2, series_one, t2]
    have : a.toNat = pre.length + 1 := by omega
    rw [this]
    exact ModX.refl _)
  refine ⟨f, hf, hA, hS.trans (modX_prodDelta ?_)⟩
  rw [length_irange]; omega

theorem delta1Inverse_spec {N : ℤ} (hN : 0 ≤ N) (hN' : 2 * N ≤ 2147483647) :
    ∃ f, delta1Inverse N = .ok f ∧ f.All (QT N) ∧ ModX N (f.series * seriesDelta) 1 := by
  obtain ⟨d, hd, hdA, hdS⟩ := delta1_spec hN hN'
  unfold delta1Inverse
  rw [hd, Res.ok_bind, chk_of ⟨by omega, by omega⟩, Res.ok_bind]
  obtain ⟨s1, s2⟩ := subSeries (all_one_qt hN) hdA
  rw [series_one] at s2
  obtain ⟨f, hf, hA, hS⟩ := foldlM_total (fun pol n => do
      let t ← (Poly.one.sub d).powerOmitHighOrderQ n N
      .ok (Poly.addAssign pol t))
    (fun pre P => P.All (QT N) ∧ ModX N P.series (∑ i ∈ Finset.range (pre.length + 1), (1 - d.series) ^ i))
    (irange 1 (N + 1)) one ⟨all_one_qt hN, by
      rw [series_one]; simpa using ModX.refl 1⟩ (by
    rintro pre a b ⟨suf, hs⟩ ⟨hb, hbS⟩
    have hlen : a = pre.length + 1 := by
      have h1 : (irange 1 (N + 1))[pre.length]? = some a := by rw [hs]; simp
      rw [irange, List.getElem?_map] at h1
      simp only [Option.map_eq_some_iff] at h1
      obtain ⟨i, hi, rfl⟩ := h1
      have := List.getElem?_eq_some_iff.1 hi
      obtain ⟨_, h2⟩ := this
      rw [List.getElem_range] at h2
      omega
    obtain ⟨u, hu, huA, huS⟩ := powOmitSeries s1 a hN (by omega) (by omega)
    refine ⟨_, by simp only [hu, Res.ok_bind], all_addAssign hb huA, ?_⟩
    rw [series_eq_lin, lin_addAssign, ← series_eq_lin, ← series_eq_lin, List.length_append,
      List.length_singleton, Finset.sum_range_succ]
    refine hbS.add ?_
    have : a.toNat = pre.length + 1 := by omega
    rw [← this, ← s2]
    exact huS)
  refine ⟨f, hf, hA, ?_⟩
  have h1 : ModX N (f.series * seriesDelta) (f.series * d.series) := (ModX.refl _).mul hdS.symm
  refine h1.trans ((hS.mul (ModX.refl _)).trans ?_)
  have h2 : (∑ i ∈ Finset.range ((irange 1 (N + 1)).length + 1), (1 - d.series) ^ i) * d.series =
      1 - (1 - d.series) ^ ((irange 1 (N + 1)).length + 1) := by
    have := geom_sum_mul (1 - d.series) ((irange 1 (N + 1)).length + 1)
    have e : (1 - d.series) - 1 = -d.series := by ring
    rw [e] at this
    linear_combination -this
  rw [h2]
  unfold ModX
  have h3 : (PowerSeries.X : PowerSeries ℤ) ∣ 1 - d.series := by
    rw [PowerSeries.X_dvd_iff, map_sub]
    have := modX_iff.1 hdS 0 (by simpa using hN)
    rw [PowerSeries.coeff_zero_eq_constantCoeff_apply, PowerSeries.coeff_zero_eq_constantCoeff_apply,
      constantCoeff_seriesDelta] at this
    rw [this]; simp
  have h4 : (irange 1 (N + 1)).length + 1 = (N + 1).toNat := by rw [length_irange]; omega
  rw [h4]
  have h5 : (1 : PowerSeries ℤ) - (1 - d.series) ^ (N + 1).toNat - 1 = -((1 - d.series) ^ (N + 1).toNat) := by ring
  rw [h5, dvd_neg]
  exact pow_dvd_pow_of_dvd h3 _

/-! ### j -/

theorem jInvariant1_spec {N : ℤ} (hN : 0 ≤ N) (hN' : 3 * N ≤ 2147483647) :
    ∃ f, jInvariant1 N = .ok f ∧ f.All (QT N) ∧ ModX N f.series seriesJ1 := by
  obtain ⟨di, hdi, hdiA, hdiS⟩ := delta1Inverse_spec hN (by omega)
  obtain ⟨e, he, heA, heS⟩ := eisenstein4_spec hN (by omega)
  obtain ⟨c, hc, hcA⟩ := qt_graded.power (n := 3) (by omega) hN heA (by omega)
  have hcS : c.series = e.series ^ 3 :=
    (MulFn.power (mulFn_evalAt 0 0 (PowerSeries.X : PowerSeries ℤ) 0) (heA.mono fun _ h => h.nonneg) hc).2.2
  obtain ⟨r, hr, hrA, hrS⟩ := omitSeries hcA hN (by omega)
  obtain ⟨m, hm, hmA, hmS⟩ := mulSeries hdiA hrA (by omega)
  obtain ⟨f, hf, hfA, hfS⟩ := omitSeries hmA hN (by omega)
  refine ⟨f, ?_, hfA, ?_⟩
  · unfold jInvariant1
    simp only [hdi, he, hc, hr, hm, hf, Res.ok_bind]
  · refine hfS.trans ?_
    rw [hmS]
    have h1 : ModX N r.series (seriesE4 ^ 3) := hrS.trans (by rw [hcS]; exact heS.pow 3)
    have h2 : ModX N di.series (PowerSeries.invOfUnit seriesDelta 1) := by
      have hinv := PowerSeries.mul_invOfUnit seriesDelta 1 (by simp [constantCoeff_seriesDelta])
      have h3 := hdiS.mul (ModX.refl (PowerSeries.invOfUnit seriesDelta 1))
      rw [mul_assoc, hinv, mul_one, one_mul] at h3
      exact h3
    rw [mul_comm]
    exact h1.mul h2

end Poly
end EC
