import Verif.Lemmas.SchoofTotal
import Verif.Props.SchoofModThree

/-! Property C74: when `schoof` returns. -/

namespace EC
open Poly Polynomial WeierstrassCurve EDS

section
variable {K : Type} [Field K] [DecidableEq K] [IsAlgClosed K] {a b q : ℤ} [Fact (Nat.Prime q.toNat)]
  [CharP K q.toNat] {fuel : ℕ}

local notation "φ" => frobPoint q.toNat a b

theorem schoofL_total (h2 : q ≠ 2) (hq2 : q ≤ 21841) (hns : ¬ q ∣ 4 * a ^ 3 + 27 * b ^ 2) {l : ℕ} (hl : l = 3 ∨ l = 5)
    (hlq : (l : ℤ) < q) {t : ℤ} (hF : ∀ P : Pt (a : K) b, φ (φ P) + q • P = t • φ P)
    (hDE : (l : ℤ) ∣ t → Tot (fun fuel => schoofDE fuel a b q l (q % l)) fun _ => True) :
    Tot (fun fuel => schoofL fuel a b q l) fun _ => True := by
  have hpr : Nat.Prime q.toNat := Fact.out
  have hlp : l.Prime := by rcases hl with rfl | rfl <;> norm_num
  have hl5 : l ≤ 5 := by omega
  have hql0 : q % l ≠ 0 := by
    intro h0
    have : l ∣ q.toNat := by
      rw [← Int.natCast_dvd_natCast, Int.toNat_of_nonneg (by omega)]; exact Int.dvd_of_emod_eq_zero h0
    have := (Nat.prime_dvd_prime_iff_eq hlp hpr).1 this
    omega
  have hlt := Int.emod_lt_of_pos q (show (0 : ℤ) < l by omega)
  have hnn := Int.emod_nonneg q (show (l : ℤ) ≠ 0 by omega)
  obtain ⟨n, hn⟩ : ∃ n : ℕ, q % l = n := ⟨(q % l).toNat, by omega⟩
  obtain ⟨Q, hQ⟩ : ∃ Q, q ^ 2 = Q := ⟨_, rfl⟩
  have hQ1 : 0 ≤ Q := by rw [← hQ]; positivity
  have hQ2 : Q ≤ 477029281 := by rw [← hQ]; nlinarith
  have h2K := two_ne_char (K := K) h2
  unfold schoofL
  rw [fmod_pos_eq (by omega), hn]
  refine Tot.bindC' (numDen1_total (by omega) hQ hQ1 (by omega) (by omega) (by omega)) fun nd hnd bnd => ?_
  refine Tot.bindC' (bd_psi (by omega) (by omega)) fun ps hps bps => ?_
  refine Tot.bindC' (bd_rem (by omega) bps) fun psL hpsL bpsL => ?_
  obtain ⟨w1, w2, w3⟩ := psi_lead (l := l) (by rcases hl with rfl | rfl <;> rfl) (by omega) hlq hps hpsL
  have hjm : ∀ j ∈ irange 1 (((l : ℤ) - 1).tdiv 2 + 1), 1 ≤ j ∧ 2 * j < l := by
    rcases hl with rfl | rfl <;> decide
  refine Tot.bindR (findJ_total hpr (by omega) (by omega) hQ1 (by omega) bnd.1 bnd.2 w1 w2 w3 _ (fun j hj => by
    have := hjm j hj; omega)) fun o N hN ho => ?_
  cases o with
  | some jj =>
    have := hjm jj (ho jj rfl)
    exact schoofY_total hpr (by omega) hq2 hQ hQ1 hQ2 (by omega) (by omega) (by omega) (by omega) w1 w2 w3
  | none =>
    rw [← hn]
    refine hDE ?_
    have hT := findJ_iff (T := fun j => SchoofCongr K a b q l j) _ (by
      intro j hj r hr
      have hj2 := hjm j hj
      obtain ⟨j, rfl⟩ : ∃ j' : ℕ, j = j' := ⟨j.toNat, by omega⟩
      rw [xTest_iff (K := K) h2 hns hlp (by omega) hlq hn (by omega) (by omega) hnd hps hpsL hr]
      simp only [SchoofCongr, natCast_zsmul]) none (hN N le_rfl)
    by_contra hc
    have hτ0 : t % l ≠ 0 := fun h0 => hc (Int.dvd_of_emod_eq_zero h0)
    have hb := Int.emod_lt_of_pos t (show 0 < (l : ℤ) by omega)
    have hn := Int.emod_nonneg t (show (l : ℤ) ≠ 0 by omega)
    have hmul := Int.mul_ediv_add_emod t l
    have hlF : ∀ R : Pt (a : K) (b : K), (l : ℤ) • R = 0 → (l : ℤ) • φ R = 0 := by
      intro R hR
      rw [← frob_zsmul h2K, hR, frob_zero]
    have redu : ∀ P : Pt (a : K) (b : K), (l : ℤ) • P = 0 → t • φ P = (t % l) • φ P := by
      intro R hR
      nth_rewrite 1 [← hmul]
      rw [add_smul, mul_comm, mul_smul, hlF R hR, smul_zero, zero_add]
    have hj : ∀ j : ℤ, 1 ≤ j → 2 * j < l → j ∈ irange 1 (((l : ℤ) - 1).tdiv 2 + 1) := by
      intro j h1 h3
      rw [mem_irange]
      rcases hl with rfl | rfl
      · exact ⟨h1, by have : ((((3 : ℕ) : ℤ) - 1).tdiv 2 + 1) = 2 := by decide
                      rw [this]; push_cast at h3; omega⟩
      · exact ⟨h1, by have : ((((5 : ℕ) : ℤ) - 1).tdiv 2 + 1) = 3 := by decide
                      rw [this]; push_cast at h3; omega⟩
    by_cases hc : 2 * (t % l) < l
    · refine hT (t % l) (hj _ (by omega) hc) (fun R hR => .inr (.inl ?_))
      rw [hF R, redu R hR]
    · have hodd : (l : ℤ) % 2 = 1 := by rcases hl with rfl | rfl <;> rfl
      refine hT (l - t % l) (hj _ (by omega) (by omega)) (fun R hR => .inr (.inr ?_))
      rw [hF R, redu R hR, sub_smul, hlF R hR, zero_sub, neg_neg]

end

/-- C74: for a nonsingular curve over GF(q), `q` a prime with `3 < q ≤ 21841`, of trace `t`, such that `x^3 + a x + b` has
a root in GF(q), `schoof` returns, if neither 3 nor 5 divides `t`.  If 3 divides `t` it is enough that `q = 2` modulo 3 or
that `-4 b` is not the cube of a nonzero element of GF(q); if 5 divides `t` it is enough that `q = 2` or `q = 3`
modulo 5. -/
theorem C74_returns (a b q : ℤ) [hq : Fact (Nat.Prime q.toNat)] (h3 : 3 < q) (hq2 : q ≤ 21841)
    (hns : ¬ q ∣ 4 * a ^ 3 + 27 * b ^ 2) (hx : ∃ x : ZMod q.toNat, x ^ 3 + a * x + b = 0) (t : ℤ)
    (ht : t = q + 1 - Nat.card (shortW (a : ZMod q.toNat) (b : ZMod q.toNat)).toAffine.Point)
    (h3t : (3 : ℤ) ∣ t → q % 3 = 2 ∨ ¬ ∃ c : ZMod q.toNat, c ≠ 0 ∧ c ^ 3 = -4 * (b : ZMod q.toNat))
    (h5t : 5 < q → (5 : ℤ) ∣ t → q % 5 = 2 ∨ q % 5 = 3) :
    ∃ r, Returns (fun fuel => schoof fuel a b q) r := by
  have hpr : Nat.Prime q.toNat := Fact.out
  let K := AlgebraicClosure (ZMod q.toNat)
  have : CharP K q.toNat := charP_of_injective_algebraMap (algebraMap (ZMod q.toNat) K).injective q.toNat
  have : DecidableEq K := Classical.decEq K
  have hF : ∀ P : Pt (a : K) b, frobPoint q.toNat a b (frobPoint q.toNat a b P) + q • P = t • frobPoint q.toNat a b P :=
    fun P => frob_char_point (by omega) hns P ht
  have hn3 : q % 3 ≠ 0 := by
    intro h0
    have : 3 ∣ q.toNat := by omega
    have := (Nat.prime_dvd_prime_iff_eq Nat.prime_three hpr).1 this
    omega
  obtain ⟨x, hx⟩ := hx
  have hL3 : Tot (fun fuel => schoofL fuel a b q (3 : ℕ)) fun _ => True := by
    refine schoofL_total (K := K) (by omega) hq2 hns (.inl rfl) (by push_cast; omega) hF fun hd => ?_
    push_cast at hd ⊢
    rcases h3t hd with h | h
    · rw [h]
      exact (schoofDE_none (by decide)).mono fun _ _ => trivial
    · have : q % 3 = 1 ∨ q % 3 = 2 := by omega
      rcases this with h' | h'
      · rw [h']
        exact (schoofDE_three_total (by omega) h' h).mono fun _ _ => trivial
      · rw [h']
        exact (schoofDE_none (by decide)).mono fun _ _ => trivial
  have hL5 : 5 < q → Tot (fun fuel => schoofL fuel a b q (5 : ℕ)) fun _ => True := by
    intro h5
    refine schoofL_total (K := K) (by omega) hq2 hns (.inr rfl) (by push_cast; omega) hF fun hd => ?_
    push_cast at hd ⊢
    rcases h5t h5 hd with h | h <;> rw [h] <;> exact (schoofDE_none (by decide)).mono fun _ _ => trivial
  suffices h : Tot (fun fuel => schoof fuel a b q) fun _ => True by
    obtain ⟨v, h, -⟩ := h
    exact ⟨v, h⟩
  unfold schoof
  refine Tot.bindR (Q := fun _ => True) ⟨_, schoof2_root a b q (by omega) x hx, trivial⟩ fun r2 _ _ _ => ?_
  simp only [schoofLoop]
  simp only [if_neg (show ¬ 3 ≥ q by omega)]
  push_cast at hL3 hL5
  refine Tot.bindR hL3 fun r3 _ _ _ => ?_
  by_cases h5 : 5 < q
  · simp only [if_neg (show ¬ 5 ≥ q by omega)]
    exact Tot.bindR (hL5 h5) fun r5 _ _ _ => Tot.ok trivial
  · simp only [if_pos (show 5 ≥ q by omega)]
    exact Tot.ok trivial

/-- C74: for `q = 2` modulo 3 and `q = 2` or 3 modulo 5, `schoof` returns exactly if `x^3 + a x + b` has a root in GF(q),
and runs for ever otherwise. -/
theorem C74_returns_iff (a b q : ℤ) [hq : Fact (Nat.Prime q.toNat)] (h3 : 3 < q) (hq2 : q ≤ 21841)
    (hns : ¬ q ∣ 4 * a ^ 3 + 27 * b ^ 2) (hm3 : q % 3 = 2) (hm5 : q = 5 ∨ q % 5 = 2 ∨ q % 5 = 3) :
    ((∃ r, Returns (fun fuel => schoof fuel a b q) r) ↔ ∃ x : ZMod q.toNat, x ^ 3 + a * x + b = 0) ∧
    ((¬ ∃ x : ZMod q.toNat, x ^ 3 + a * x + b = 0) → Diverges (fun fuel => schoof fuel a b q)) := by
  have hD : (¬ ∃ x : ZMod q.toNat, x ^ 3 + a * x + b = 0) → Diverges (fun fuel => schoof fuel a b q) :=
    fun h => C53_odd_trace_diverges a b q hq.out (by omega) fun x hx => h ⟨x, hx⟩
  refine ⟨⟨fun ⟨r, N, hr⟩ => ?_, fun hx => ?_⟩, hD⟩
  · by_contra hc
    have h1 := hD hc N
    have h2 := hr N le_rfl
    rw [h1] at h2
    cases h2
  · exact C74_returns a b q h3 hq2 hns hx _ rfl (fun _ => .inl hm3) (fun h5 _ => hm5.resolve_left (by omega))

instance fact_prime_7 : Fact (Nat.Prime (7 : ℤ).toNat) := ⟨show Nat.Prime 7 by norm_num⟩
instance fact_prime_17 : Fact (Nat.Prime (17 : ℤ).toNat) := ⟨show Nat.Prime 17 by norm_num⟩

/-- The hypotheses hold for `y^2 = x^3 + x` over GF(17). -/
example : ∃ r, Returns (fun fuel => schoof fuel 1 0 17) r :=
  (C74_returns_iff 1 0 17 (by norm_num) (by norm_num) (by decide) rfl (by decide)).1.2 ⟨0, by simp⟩

/-- The hypotheses hold for `y^2 = x^3 + x` over GF(7), of trace 0. -/
theorem returns_7 : ∃ r, Returns (fun fuel => schoof fuel 1 0 7) r :=
  C74_returns 1 0 7 (by norm_num) (by norm_num) (by decide) ⟨0, by simp⟩ _ rfl
    (fun _ => .inr (by rintro ⟨c, hc, h⟩; exact hc (pow_eq_zero_iff (n := 3) (by norm_num) |>.1 (by simpa using h)))) (fun _ _ => .inl rfl)

/-- The hypotheses of C73 hold for `y^2 = x^3 + x` over GF(7): the call returns a list with an entry modulo 3. -/
example : ∃ fuel r, schoof fuel 1 0 7 = .ok r ∧ ∃ e ∈ r, e.l = 3 := by
  obtain ⟨r, N, h⟩ := returns_7
  have h' := h N le_rfl
  refine ⟨N, r, h', ?_⟩
  have := (C54_shape 1 0 7 N r h').1
  norm_num at this
  have h3 : (3 : ℤ) ∈ r.map (·.l) := by rw [this]; simp
  obtain ⟨e, he, h4⟩ := List.mem_map.1 h3
  exact ⟨e, he, h4⟩

end EC
