import Verif.Lemmas.DEIff
import Verif.Props.SchoofModFive

/-! Property C84: exactly when `schoof` returns. -/

namespace EC
open Poly Polynomial WeierstrassCurve EDS

theorem dvd_of_smul {G : Type*} [AddCommGroup G] {l : ℕ} (hl : l.Prime) {P : G} (hP : P ≠ 0) (hlP : (l : ℤ) • P = 0)
    {k : ℤ} (h : k • P = 0) : (l : ℤ) ∣ k := by
  by_contra hc
  obtain ⟨u, v, huv⟩ := (Nat.prime_iff_prime_int.1 hl).irreducible.coprime_iff_not_dvd.2 hc
  apply hP
  rw [← one_smul ℤ P, ← huv, add_smul, mul_smul, mul_smul, hlP, h, smul_zero, smul_zero, add_zero]

section
variable (K : Type) [Field K] [DecidableEq K] [IsAlgClosed K] {a b q : ℤ} [Fact (Nat.Prime q.toNat)]
  [CharP K q.toNat] {fuel : ℕ}

local notation "φ" => frobPoint q.toNat a b

/-- No `j` passes the test if `l` divides the trace. -/
theorem not_congr (h2K : (2 : K) ≠ 0) (hd : 4 * (a : K) ^ 3 + 27 * (b : K) ^ 2 ≠ 0) {l : ℕ} (hl : l.Prime) (hl2 : l ≠ 2)
    (hlK : (l : K) ≠ 0) (hlq : ¬ (l : ℤ) ∣ q) {t : ℤ} (ht : (l : ℤ) ∣ t)
    (hF : ∀ P : Pt (a : K) b, φ (φ P) + q • P = t • φ P) {j : ℤ} (hj : ¬ (l : ℤ) ∣ j) : ¬ SchoofCongr K a b q l j := by
  intro hc
  have hlp := hl.two_le
  have hodd := hl.eq_two_or_odd.resolve_left hl2
  obtain ⟨P, hP, hlP, -⟩ := exists_tors_y (a := (a : K)) (b := b) h2K hd hodd (by omega) hlK
  have hlP' : (l : ℤ) • P = 0 := by rw [natCast_zsmul]; exact hlP
  have hg := (frobPoint_ne (q := q) hP).1
  have hlF : (l : ℤ) • φ P = 0 := by rw [← frob_zsmul h2K, hlP', frob_zero]
  have e : φ (φ P) + q • P = 0 := by
    rw [hF P]
    obtain ⟨k, rfl⟩ := ht
    rw [mul_comm, mul_smul, hlF, smul_zero]
  rcases hc P hlP' with h | h | h
  · rw [h] at e
    have := dvd_of_smul hl hP hlP' (k := 2 * q) (by linear_combination (norm := module) e)
    rcases Int.Prime.dvd_mul' hl this with h1 | h1
    · have := (Nat.prime_dvd_prime_iff_eq hl Nat.prime_two).1 (by exact_mod_cast h1)
      exact hl2 this
    · exact hlq h1
  · rw [e] at h
    exact hj (dvd_of_smul hl hg hlF h.symm)
  · rw [e] at h
    exact hj (dvd_of_smul hl hg hlF (neg_eq_zero.1 h.symm))

/-- Some `j` passes the test if `l` does not divide the trace. -/
theorem exists_congr (h2K : (2 : K) ≠ 0) {l : ℕ} (hodd : l % 2 = 1) {t : ℤ} (ht : ¬ (l : ℤ) ∣ t)
    (hF : ∀ P : Pt (a : K) b, φ (φ P) + q • P = t • φ P) : ∃ j : ℤ, 1 ≤ j ∧ 2 * j < l ∧ SchoofCongr K a b q l j := by
  have hτ0 : t % l ≠ 0 := fun h0 => ht (Int.dvd_of_emod_eq_zero h0)
  have hb := Int.emod_lt_of_pos t (show 0 < (l : ℤ) by omega)
  have hn := Int.emod_nonneg t (show (l : ℤ) ≠ 0 by omega)
  have hmul := Int.mul_ediv_add_emod t l
  have hlF : ∀ R : Pt (a : K) (b : K), (l : ℤ) • R = 0 → (l : ℤ) • φ R = 0 := by
    intro R hR
    rw [← frob_zsmul h2K, hR, frob_zero]
  have redu : ∀ P : Pt (a : K) (b : K), (l : ℤ) • P = 0 → t • φ P = (t % l) • φ P := by
    intro R hR
    nth_rewrite 1 [← hmul]
    rw [add_smul, mul_comm, mul_smul, hlF R hR, smul_zero, zero_add]
  by_cases hc : 2 * (t % l) < l
  · refine ⟨t % l, by omega, hc, fun R hR => .inr (.inl ?_)⟩
    rw [hF R, redu R hR]
  · refine ⟨l - t % l, by omega, by omega, fun R hR => .inr (.inr ?_)⟩
    rw [hF R, redu R hR, sub_smul, hlF R hR, zero_sub, neg_neg]

/-- The primes between 21842 and 21845. -/
theorem prime_gap (hq : Nat.Prime q.toNat) (h : q ≤ 21845) : q ≤ 21841 := by
  by_contra hc
  have : q = 21842 ∨ q = 21843 ∨ q = 21844 ∨ q = 21845 := by omega
  rcases this with rfl | rfl | rfl | rfl <;> revert hq <;> norm_num [show Int.toNat 21842 = 21842 from rfl,
    show Int.toNat 21843 = 21843 from rfl, show Int.toNat 21844 = 21844 from rfl, show Int.toNat 21845 = 21845 from rfl]

theorem ql_data {l : ℕ} (hl : l = 3 ∨ l = 5) (hlq : (l : ℤ) < q) :
    ¬ (l : ℤ) ∣ q ∧ 1 ≤ q % l ∧ q % l ≤ 4 := by
  have hpr : Nat.Prime q.toNat := Fact.out
  have hlp : l.Prime := by rcases hl with rfl | rfl <;> norm_num
  have hql0 : ¬ (l : ℤ) ∣ q := by
    intro h0
    have : l ∣ q.toNat := by
      rw [← Int.natCast_dvd_natCast, Int.toNat_of_nonneg (by omega)]; exact h0
    have := (Nat.prime_dvd_prime_iff_eq hlp hpr).1 this
    omega
  refine ⟨hql0, ?_, ?_⟩ <;> rcases hl with rfl | rfl <;> push_cast at * <;> omega

theorem step_ok (hns : ¬ q ∣ 4 * a ^ 3 + 27 * b ^ 2) {l : ℕ} (hl : l = 3 ∨ l = 5)
    (hlq : (l : ℤ) < q) {t : ℤ} (hF : ∀ P : Pt (a : K) b, φ (φ P) + q • P = t • φ P) {r : ModResult}
    (h : schoofL fuel a b q l = .ok r) : q ≤ 26754 ∧ StepReturns a b q t l := by
  have hpr : Nat.Prime q.toNat := Fact.out
  have hlp : l.Prime := by rcases hl with rfl | rfl <;> norm_num
  have h3l : 3 ≤ l := by omega
  have hl5 : l ≤ 5 := by omega
  have h2 : q ≠ 2 := by omega
  have hodd : l % 2 = 1 := by rcases hl with rfl | rfl <;> rfl
  obtain ⟨hq0, hq1, hq4⟩ := ql_data hl hlq
  obtain ⟨h2K, h3K, hd⟩ := char_nonzero_data (K := K) (a := a) (b := b) h2 hns (by omega)
  have hlK : (l : K) ≠ 0 := by
    intro h0
    have := (CharP.cast_eq_zero_iff K q.toNat l).1 h0
    have := Nat.le_of_dvd (by omega) this
    omega
  obtain ⟨n, hn⟩ : ∃ n : ℕ, q % l = n := ⟨(q % l).toNat, by omega⟩
  unfold schoofL at h
  obtain ⟨nd, hnd, h⟩ := Res.bind_eq_ok.1 h
  obtain ⟨ps, hps, h⟩ := Res.bind_eq_ok.1 h
  obtain ⟨psL, hpsL, h⟩ := Res.bind_eq_ok.1 h
  obtain ⟨o, ho, h⟩ := Res.bind_eq_ok.1 h
  rw [fmod_pos_eq (by omega), hn] at h hnd
  have hq2 : q ≤ 26754 := by
    by_contra hc
    exact numDen1_large (by omega) (by omega) (by omega) _ hnd
  refine ⟨hq2, ?_⟩
  have hjm : ∀ j ∈ irange 1 (((l : ℤ) - 1).tdiv 2 + 1), 1 ≤ j ∧ 2 * j < l := by
    rcases hl with rfl | rfl <;> decide
  have hT := findJ_iff (T := fun j => SchoofCongr K a b q l j) _ (by
    intro j hj r hr
    have hj2 := hjm j hj
    obtain ⟨j, rfl⟩ : ∃ j' : ℕ, j = j' := ⟨j.toNat, by omega⟩
    rw [xTest_iff (K := K) h2 hns hlp (by omega) hlq hn (by omega) (by omega) hnd hps hpsL hr]
    simp only [SchoofCongr, natCast_zsmul]) o ho
  cases o with
  | some jj =>
    obtain ⟨pre, post, h4, h5, -⟩ := hT
    have hj2 := hjm jj (by rw [h4]; simp)
    refine ⟨fun _ => prime_gap hpr ?_, fun ht => ?_⟩
    · by_contra hc
      exact schoofY_large (by omega) (by omega) (by omega) _ h
    · exact absurd h5 (not_congr K h2K hd hlp (by omega) hlK hq0 ht hF fun h0 => by
        have := Int.le_of_dvd (by omega) h0
        omega)
  | none =>
    refine ⟨fun ht => ?_, fun _ h1 hz => ?_⟩
    · obtain ⟨j, h1, h3, h4⟩ := exists_congr K h2K hodd ht hF
      refine absurd h4 (hT j ?_)
      rw [mem_irange]
      refine ⟨h1, ?_⟩
      have : ((l : ℤ) - 1).tdiv 2 = (l - 1) / 2 := Int.tdiv_eq_ediv_of_nonneg (by omega)
      rw [this]
      omega
    · have hn1 : (n : ℤ) = 1 := by omega
      rw [hn1] at h
      exact schoofDE_one_ok K hl hlq h1 (by omega) h2 hns r h hz

theorem step_total (hns : ¬ q ∣ 4 * a ^ 3 + 27 * b ^ 2) {l : ℕ} (hl : l = 3 ∨ l = 5)
    (hlq : (l : ℤ) < q) (hq2 : q ≤ 26754) {t : ℤ} (hF : ∀ P : Pt (a : K) b, φ (φ P) + q • P = t • φ P)
    (hS : StepReturns a b q t l) : Tot (fun fuel => schoofL fuel a b q l) fun _ => True := by
  have hpr : Nat.Prime q.toNat := Fact.out
  have hlp : l.Prime := by rcases hl with rfl | rfl <;> norm_num
  have h3l : 3 ≤ l := by omega
  have hl5 : l ≤ 5 := by omega
  have h2 : q ≠ 2 := by omega
  have hodd : l % 2 = 1 := by rcases hl with rfl | rfl <;> rfl
  obtain ⟨hq0, hq1, hq4⟩ := ql_data hl hlq
  obtain ⟨h2K, h3K, hd⟩ := char_nonzero_data (K := K) (a := a) (b := b) h2 hns (by omega)
  have hlK : (l : K) ≠ 0 := by
    intro h0
    have := (CharP.cast_eq_zero_iff K q.toNat l).1 h0
    have := Nat.le_of_dvd (by omega) this
    omega
  obtain ⟨n, hn⟩ : ∃ n : ℕ, q % l = n := ⟨(q % l).toNat, by omega⟩
  obtain ⟨Q, hQ⟩ : ∃ Q, q ^ 2 = Q := ⟨_, rfl⟩
  have hQ1 : 0 ≤ Q := by rw [← hQ]; positivity
  have hQ2 : Q ≤ 715776516 := by rw [← hQ]; nlinarith
  unfold schoofL
  rw [fmod_pos_eq (by omega), hn]
  refine Tot.bindC' (numDen1_total (by omega) hQ hQ1 (by omega) (by omega) (by omega)) fun nd hnd bnd => ?_
  refine Tot.bindC' (bd_psi (by omega) (by omega)) fun ps hps bps => ?_
  refine Tot.bindC' (bd_rem (by omega) bps) fun psL hpsL bpsL => ?_
  obtain ⟨w1, w2, w3⟩ := psi_lead (l := l) hodd (by omega) hlq hps hpsL
  have hjm : ∀ j ∈ irange 1 (((l : ℤ) - 1).tdiv 2 + 1), 1 ≤ j ∧ 2 * j < l := by
    rcases hl with rfl | rfl <;> decide
  refine Tot.bindR (findJ_total hpr (by omega) (by omega) hQ1 (by omega) bnd.1 bnd.2 w1 w2 w3 _ (fun j hj => by
    have := hjm j hj; omega)) fun o N hN ho => ?_
  have hT := findJ_iff (T := fun j => SchoofCongr K a b q l j) _ (by
      intro j hj r hr
      have hj2 := hjm j hj
      obtain ⟨j, rfl⟩ : ∃ j' : ℕ, j = j' := ⟨j.toNat, by omega⟩
      rw [xTest_iff (K := K) h2 hns hlp (by omega) hlq hn (by omega) (by omega) hnd hps hpsL hr]
      simp only [SchoofCongr, natCast_zsmul]) o (hN N le_rfl)
  cases o with
  | some jj =>
    have hj2 := hjm jj (ho jj rfl)
    obtain ⟨pre, post, h4, h5, -⟩ := hT
    have ht : ¬ (l : ℤ) ∣ t := fun ht => not_congr K h2K hd hlp (by omega) hlK hq0 ht hF (fun h0 => by
        have := Int.le_of_dvd (by omega) h0
        omega) h5
    have hq3 := hS.1 ht
    exact schoofY_total hpr (by omega) hq3 hQ hQ1 (by rw [← hQ]; nlinarith) (by omega) (by omega) (by omega) (by omega) w1 w2 w3
  | none =>
    have ht : (l : ℤ) ∣ t := by
      by_contra ht
      obtain ⟨j, h1, h3, h4⟩ := exists_congr K h2K hodd ht hF
      refine absurd h4 (hT j ?_)
      rw [mem_irange]
      refine ⟨h1, ?_⟩
      have : ((l : ℤ) - 1).tdiv 2 = (l - 1) / 2 := Int.tdiv_eq_ediv_of_nonneg (by omega)
      rw [this]
      omega
    have hn' : n = 1 ∨ n = 2 ∨ n = 3 ∨ n = 4 := by omega
    rcases hn' with rfl | rfl | rfl | rfl
    · exact schoofDE_one_total K hl hlq hn (by omega) (hS.2 ht hn)
    · rcases hl with rfl | rfl <;> exact (schoofDE_none (by decide)).mono fun _ _ => trivial
    · rcases hl with rfl | rfl
      · omega
      · exact (schoofDE_none (by decide)).mono fun _ _ => trivial
    · rcases hl with rfl | rfl
      · omega
      · refine schoofDE_four_total K h2 (by exact_mod_cast hlq) hn (by omega) hns fun P hP => ?_
        rw [hF P]
        have hlF : (5 : ℤ) • φ P = 0 := by rw [← frob_zsmul h2K, hP, frob_zero]
        obtain ⟨k, rfl⟩ := ht
        rw [mul_comm, mul_smul]
        push_cast
        rw [hlF, smul_zero]

end

/-- C84: for a prime `q > 3` and a nonsingular curve of trace `t`, `schoof` returns if and only if `x^3 + a x + b` has a
root in GF(q), `q ≤ 26754`, and the steps for 3 and, for `q > 5`, for 5 return: `q ≤ 21841` unless `l` divides `t`; if `l`
divides `t`, `q = 1` modulo `l`, and the `l`-th division polynomial of `y^2 = x^3 + b` divides `X^q - X`, then the
coefficient `a` has to be odd, at least 3 and at most 1431655765, and `(x^3 + a x + b)^((a - 1) / 2) - 1` has to have a
common factor with the `l`-th division polynomial of the curve. -/
theorem C84_domain (a b q : ℤ) [hq : Fact (Nat.Prime q.toNat)] (h3 : 3 < q)
    (hns : ¬ q ∣ 4 * a ^ 3 + 27 * b ^ 2) (t : ℤ)
    (ht : t = q + 1 - Nat.card (shortW (a : ZMod q.toNat) (b : ZMod q.toNat)).toAffine.Point) :
    (∃ r, Returns (fun fuel => schoof fuel a b q) r) ↔
      (∃ x : ZMod q.toNat, x ^ 3 + a * x + b = 0) ∧ q ≤ 26754 ∧ StepReturns a b q t 3 ∧
        (5 < q → StepReturns a b q t 5) := by
  have hpr : Nat.Prime q.toNat := Fact.out
  let K := AlgebraicClosure (ZMod q.toNat)
  have : CharP K q.toNat := charP_of_injective_algebraMap (algebraMap (ZMod q.toNat) K).injective q.toNat
  have : DecidableEq K := Classical.decEq K
  have hF : ∀ P : Pt (a : K) b, frobPoint q.toNat a b (frobPoint q.toNat a b P) + q • P = t • frobPoint q.toNat a b P :=
    fun P => frob_char_point (by omega) hns P ht
  constructor
  · rintro ⟨r, N, h⟩
    have h' : schoof N a b q = .ok r := h N le_rfl
    have hi : q ≤ 2147483647 := by
      by_contra hc
      exact C62_large a b q (by omega) N r h'
    refine ⟨C62_root a b q hpr hi r ⟨N, h⟩, ?_⟩
    obtain ⟨r2, -, h1 | ⟨-, h5, r3, h3', -⟩ | ⟨h5, r3, r5, h3', h5', -⟩⟩ := schoof_eq_ok h'
    · omega
    · obtain ⟨s1, s2⟩ := step_ok K hns (l := 3) (.inl rfl) (by exact_mod_cast h3) hF (by exact_mod_cast h3')
      exact ⟨s1, s2, fun h => by omega⟩
    · obtain ⟨s1, s2⟩ := step_ok K hns (l := 3) (.inl rfl) (by exact_mod_cast h3) hF (by exact_mod_cast h3')
      obtain ⟨-, s4⟩ := step_ok K hns (l := 5) (.inr rfl) (by exact_mod_cast h5) hF (by exact_mod_cast h5')
      exact ⟨s1, s2, fun _ => s4⟩
  · rintro ⟨⟨x, hx⟩, hq2, hS3, hS5⟩
    suffices h : Tot (fun fuel => schoof fuel a b q) fun _ => True by
      obtain ⟨v, h, -⟩ := h
      exact ⟨v, h⟩
    have hL3 := step_total K hns (l := 3) (.inl rfl) (by exact_mod_cast h3) hq2 hF hS3
    have hL5 := fun h5 : 5 < q => step_total K hns (l := 5) (.inr rfl) (by exact_mod_cast h5) hq2 hF (hS5 h5)
    unfold schoof
    refine Tot.bindR (Q := fun _ => True) ⟨_, schoof2_root a b q (by omega) x hx, trivial⟩ fun r2 _ _ _ => ?_
    simp only [schoofLoop]
    simp only [if_neg (show ¬ 3 ≥ q by omega)]
    push_cast at hL3 hL5
    refine Tot.bindR hL3 fun r3 _ _ _ => ?_
    by_cases h5 : 5 < q
    · simp only [if_neg (show ¬ 5 ≥ q by omega)]
      exact Tot.bindR (hL5 h5) fun r5 _ _ _ => Tot.ok trivial
    · simp only [if_pos (show 5 ≥ q by omega)]
      exact Tot.ok trivial

/-- C84: `schoof` never returns for a prime `q > 26754`. -/
theorem C84_large (a b q : ℤ) [hq : Fact (Nat.Prime q.toNat)] (h : 26754 < q) (fuel : ℕ) (r : List ModResult) :
    schoof fuel a b q ≠ .ok r := by
  intro hr
  have key : ∀ r3, schoofL fuel a b q (3 : ℕ) ≠ .ok r3 := by
    intro r3 h3
    obtain ⟨-, hq1, hq4⟩ := ql_data (l := 3) (q := q) (.inl rfl) (by push_cast; omega)
    unfold schoofL at h3
    obtain ⟨nd, hnd, -⟩ := Res.bind_eq_ok.1 h3
    rw [fmod_pos_eq (by omega)] at hnd
    exact numDen1_large hq1 hq4 (by omega) _ hnd
  obtain ⟨r2, -, h1 | ⟨-, -, r3, h3, -⟩ | ⟨-, r3, r5, h3, -⟩⟩ := schoof_eq_ok hr
  · omega
  · exact key r3 (by exact_mod_cast h3)
  · exact key r3 (by exact_mod_cast h3)

/-- The left side of `C84_domain` holds for `y^2 = x^3 + x` over GF(7). Further instances, of both sides and with the last
test reached, are in `C85_representative_refuted`. -/
example : ∃ x : ZMod (7 : ℤ).toNat, x ^ 3 + ((1 : ℤ) : ZMod (7 : ℤ).toNat) * x + ((0 : ℤ) : ZMod (7 : ℤ).toNat) = 0 :=
  ((C84_domain 1 0 7 (by norm_num) (by decide) _ rfl).1 returns_7).1

/-- The first prime covered by `C84_large`. -/
example (a b : ℤ) (fuel : ℕ) (r : List ModResult) : schoof fuel a b 26759 ≠ .ok r := by
  have : Fact (Nat.Prime (26759 : ℤ).toNat) := ⟨show Nat.Prime 26759 by norm_num⟩
  exact C84_large a b 26759 (by norm_num) fuel r

end EC
