import Verif.Lemmas.SchoofExact
import Verif.Lemmas.ThreeTors

/-! Property C66: what the search over `j` in `schoof` finds. -/

namespace EC
open Poly Polynomial WeierstrassCurve

/-- Schoof's congruence up to sign for `j` at the points of order `l` over `K`: `F^2 P = q P` or
`F^2 P + q P = ± j F P`. -/
def SchoofCongr (K : Type) [Field K] [DecidableEq K] (a b q : ℤ) [Fact (Nat.Prime q.toNat)] [CharP K q.toNat]
    (l j : ℤ) : Prop :=
  ∀ P : (shortW (a : K) (b : K)).toAffine.Point, l • P = 0 →
    frobPoint q.toNat a b (frobPoint q.toNat a b P) = q • P ∨
    frobPoint q.toNat a b (frobPoint q.toNat a b P) + q • P = j • frobPoint q.toNat a b P ∨
    frobPoint q.toNat a b (frobPoint q.toNat a b P) + q • P = -(j • frobPoint q.toNat a b P)

section
variable {K : Type} [Field K] [DecidableEq K] [IsAlgClosed K] {a b q : ℤ} [Fact (Nat.Prime q.toNat)]
  [CharP K q.toNat] {fuel : ℕ}

theorem findJ_iff {n d p : Poly} {T : ℤ → Prop} : ∀ (js : List ℤ),
    (∀ j ∈ js, ∀ r, schoofXTest fuel a b q n d p j = .ok r → (r = true ↔ T j)) → ∀ o,
    schoofFindJ fuel a b q n d p js = .ok o →
    match o with
    | some j => ∃ pre post, js = pre ++ j :: post ∧ T j ∧ ∀ i ∈ pre, ¬ T i
    | none => ∀ j ∈ js, ¬ T j := by
  intro js
  induction js with
  | nil =>
    intro _ o h
    simp only [schoofFindJ, Res.ok.injEq] at h
    subst h; simp
  | cons x t ih =>
    intro hT o h
    unfold schoofFindJ at h
    obtain ⟨c, hc, h⟩ := Res.bind_eq_ok.1 h
    have hx := hT x (by simp) c hc
    split_ifs at h with h1
    · simp only [Res.ok.injEq] at h; subst h
      exact ⟨[], t, rfl, hx.1 h1, by simp⟩
    · have := ih (fun j hj => hT j (by simp [hj])) o h
      have hnx : ¬ T x := fun hTx => h1 (hx.2 hTx)
      cases o with
      | none =>
        simp only [List.mem_cons, forall_eq_or_imp] at this ⊢
        exact ⟨hnx, this⟩
      | some j =>
        obtain ⟨pre, post, h3, h4, h5⟩ := this
        exact ⟨x :: pre, post, by rw [h3]; rfl, h4, by simpa using ⟨hnx, h5⟩⟩

theorem schoofL_exact (h2 : q ≠ 2) (hns : ¬ q ∣ 4 * a ^ 3 + 27 * b ^ 2) {l : ℕ} (hl : l.Prime) (hl2 : l ≠ 2)
    (hlq : (l : ℤ) < q) {r : ModResult} (h : schoofL fuel a b q l = .ok r) :
    (∃ j : ℤ, 1 ≤ j ∧ 2 * j < l ∧ SchoofCongr K a b q l j ∧ (∀ i : ℤ, 1 ≤ i → i < j → ¬ SchoofCongr K a b q l i) ∧
      (r.r = j ∨ r.r = l - j)) ∨
    ((∀ j : ℤ, 1 ≤ j → 2 * j < l → ¬ SchoofCongr K a b q l j) ∧ (r.r = 0 ∨ r.r ^ 2 ≡ 4 * q [ZMOD l])) := by
  have hl3 : 3 ≤ l := by have := hl.two_le; omega
  have h0 := h
  unfold schoofL at h
  obtain ⟨nd, hnd, h⟩ := Res.bind_eq_ok.1 h
  obtain ⟨ps, hps, h⟩ := Res.bind_eq_ok.1 h
  obtain ⟨psL, hpsL, h⟩ := Res.bind_eq_ok.1 h
  obtain ⟨o, ho, h⟩ := Res.bind_eq_ok.1 h
  rw [fmod_pos_eq (by omega)] at h hnd
  obtain ⟨n, hn⟩ := Int.eq_ofNat_of_zero_le (Int.emod_nonneg q (show (l : ℤ) ≠ 0 by omega))
  rw [hn] at hnd
  have hmem : ∀ j : ℤ, j ∈ irange 1 (((l : ℤ) - 1).tdiv 2 + 1) ↔ 1 ≤ j ∧ 2 * j < l := by
    intro j
    rw [mem_irange, Int.tdiv_eq_ediv_of_nonneg (by omega)]
    have : l % 2 = 1 := by
      rcases hl.eq_two_or_odd with h | h
      · exact absurd h hl2
      · exact h
    omega
  have hT := findJ_iff (T := fun j => SchoofCongr K a b q l j) (irange 1 (((l : ℤ) - 1).tdiv 2 + 1)) (by
    intro j hj r hr
    rw [hmem] at hj
    obtain ⟨j, rfl⟩ := Int.eq_ofNat_of_zero_le (show 0 ≤ j by omega)
    rw [xTest_iff (K := K) h2 hns hl hl2 hlq hn (by omega) (by omega) hnd hps hpsL hr]
    simp only [SchoofCongr, natCast_zsmul]) o ho
  cases o with
  | none =>
    right
    refine ⟨fun j h1 h3 => hT j ((hmem j).2 ⟨h1, h3⟩), ?_⟩
    obtain ⟨-, h1 | ⟨w, -, -, hw, -, hr⟩⟩ := schoofDE_shape (by omega) h
    · exact .inl h1
    · right
      have hw' : w ^ 2 ≡ q [ZMOD l] := hw
      rcases hr with hr | hr
      · rw [hr]
        calc (2 * w) ^ 2 = 4 * w ^ 2 := by ring
          _ ≡ 4 * q [ZMOD l] := hw'.mul_left 4
      · rw [hr]
        calc (l - 2 * w) ^ 2 = 4 * w ^ 2 + l * (l - 4 * w) := by ring
          _ ≡ 4 * w ^ 2 [ZMOD l] := by
            rw [Int.ModEq, Int.add_mul_emod_self_left]
          _ ≡ 4 * q [ZMOD l] := hw'.mul_left 4
  | some jj =>
    left
    obtain ⟨pre, post, h3, h4, h5⟩ := hT
    have hj := (hmem jj).1 (by rw [h3]; simp)
    obtain ⟨-, hr⟩ := schoofY_shape hj.1 h
    refine ⟨jj, hj.1, hj.2, h4, fun i h6 h7 => h5 i ?_, hr⟩
    have hi : i ∈ irange 1 (((l : ℤ) - 1).tdiv 2 + 1) := (hmem i).2 ⟨h6, by omega⟩
    rw [h3, List.mem_append, List.mem_cons] at hi
    rcases hi with hi | rfl | hi
    · exact hi
    · omega
    · exfalso
      have hsort := sorted_irange 1 (((l : ℤ) - 1).tdiv 2 + 1)
      rw [h3, List.pairwise_append] at hsort
      have := (List.pairwise_cons.1 hsort.2.1).1 i hi
      omega

end

/-- C66: for a nonsingular curve over GF(q), `q` an odd prime, and every entry `r mod l` with `l ≥ 3` that `schoof`
returns: over an algebraically closed field `K` of characteristic `q`, either `r` or `l - r` is the least `j` in
`1 .. (l-1)/2` for which every point `P` of order `l` has `F^2 P = q P` or `F^2 P + q P = ± j F P`, or no `j` in
that range does, and `r = 0` or `r^2 = 4 q` modulo `l`. -/
theorem C66_exact (K : Type) [Field K] [DecidableEq K] [IsAlgClosed K] (a b q : ℤ) [hq : Fact (Nat.Prime q.toNat)]
    [CharP K q.toNat] (h2 : q ≠ 2) (hns : ¬ q ∣ 4 * a ^ 3 + 27 * b ^ 2) (fuel : ℕ) (r : List ModResult)
    (h : schoof fuel a b q = .ok r) (e : ModResult) (he : e ∈ r) (hl : 3 ≤ e.l) :
    (∃ j : ℤ, 1 ≤ j ∧ 2 * j < e.l ∧ SchoofCongr K a b q e.l j ∧
      (∀ i : ℤ, 1 ≤ i → i < j → ¬ SchoofCongr K a b q e.l i) ∧ (e.r = j ∨ e.r = e.l - j)) ∨
    ((∀ j : ℤ, 1 ≤ j → 2 * j < e.l → ¬ SchoofCongr K a b q e.l j) ∧ (e.r = 0 ∨ e.r ^ 2 ≡ 4 * q [ZMOD e.l])) := by
  have key : ∀ (l : ℕ) (_ : l.Prime) (_ : l ≠ 2) (_ : (l : ℤ) < q) (r : ModResult) (_ : schoofL fuel a b q l = .ok r),
      (∃ j : ℤ, 1 ≤ j ∧ 2 * j < r.l ∧ SchoofCongr K a b q r.l j ∧
        (∀ i : ℤ, 1 ≤ i → i < j → ¬ SchoofCongr K a b q r.l i) ∧ (r.r = j ∨ r.r = r.l - j)) ∨
      ((∀ j : ℤ, 1 ≤ j → 2 * j < r.l → ¬ SchoofCongr K a b q r.l j) ∧ (r.r = 0 ∨ r.r ^ 2 ≡ 4 * q [ZMOD r.l])) := by
    intro l hl hl2 hlq r h
    rw [(schoofL_shape (by have := hl.pos; omega) h).1]
    exact schoofL_exact h2 hns hl hl2 hlq h
  obtain ⟨r2, e2, hr⟩ := schoof_eq_ok h
  have hr2 : r2.l = 2 := by
    unfold schoof2 at e2
    obtain ⟨c, -, e2⟩ := Res.bind_eq_ok.1 e2
    simp only [Res.ok.injEq] at e2; subst e2; rfl
  rcases hr with ⟨-, rfl⟩ | ⟨h3, -, r3, h3', rfl⟩ | ⟨h5, r3, r5, h3', h5', rfl⟩
  · simp only [List.mem_singleton] at he; subst he; omega
  · simp only [List.mem_cons, List.not_mem_nil, or_false] at he
    rcases he with rfl | rfl
    · omega
    · exact key 3 (by norm_num) (by norm_num) (by exact_mod_cast h3) _ h3'
  · simp only [List.mem_cons, List.not_mem_nil, or_false] at he
    rcases he with rfl | rfl | rfl
    · omega
    · exact key 3 (by norm_num) (by norm_num) (by push_cast; omega) _ h3'
    · exact key 5 (by norm_num) (by norm_num) (by exact_mod_cast h5) _ h5'

theorem schoof_l_prime {a b q : ℤ} {fuel : ℕ} {r : List ModResult}
    (h : schoof fuel a b q = .ok r) {e : ModResult} (he : e ∈ r) (hl : 3 ≤ e.l) :
    ∃ l : ℕ, l.Prime ∧ e.l = l ∧ (l : ℤ) < q := by
  have h1 := (C54_shape a b q fuel r h).1
  have h2 : e.l ∈ r.map (·.l) := List.mem_map_of_mem he
  rw [h1] at h2
  split_ifs at h2
  · simp at h2; omega
  · simp at h2; exact ⟨3, by norm_num, by omega, by push_cast; omega⟩
  · simp at h2
    rcases h2 with h2 | h2 | h2
    · omega
    · exact ⟨3, by norm_num, by omega, by push_cast; omega⟩
    · exact ⟨5, by norm_num, by omega, by push_cast; omega⟩

/-- C66, for the trace: if Frobenius satisfies `F^2 P + q P = τ F P` at the points of order `l` over an algebraically
closed field (the trace of Frobenius is such a `τ`), the entry `r mod l` is `τ` modulo `l` up to sign, unless `r^2` or
`τ^2` is `4 q` modulo `l`. -/
theorem C66_trace (K : Type) [Field K] [DecidableEq K] [IsAlgClosed K] (a b q : ℤ) [hq : Fact (Nat.Prime q.toNat)]
    [CharP K q.toNat] (h2 : q ≠ 2) (hns : ¬ q ∣ 4 * a ^ 3 + 27 * b ^ 2) (fuel : ℕ) (r : List ModResult)
    (h : schoof fuel a b q = .ok r) (e : ModResult) (he : e ∈ r) (hl : 3 ≤ e.l) (τ : ℤ)
    (hτ : ∀ P : (shortW (a : K) (b : K)).toAffine.Point, e.l • P = 0 →
      frobPoint q.toNat a b (frobPoint q.toNat a b P) + q • P = τ • frobPoint q.toNat a b P) :
    e.r ≡ τ [ZMOD e.l] ∨ e.r ≡ -τ [ZMOD e.l] ∨ e.r ^ 2 ≡ 4 * q [ZMOD e.l] ∨ τ ^ 2 ≡ 4 * q [ZMOD e.l] := by
  obtain ⟨l, hlp, hle, hlq⟩ := schoof_l_prime h he hl
  have hpr : Nat.Prime q.toNat := Fact.out
  have hq2 := two_le_of_prime (p := q) hpr
  have h2K := two_ne_char (K := K) h2
  have hcast : ∀ n : ℤ, (n : K) = 0 → q ∣ n := by
    intro n hn
    have := (CharP.intCast_eq_zero_iff K q.toNat n).1 hn
    rwa [Int.toNat_of_nonneg (by omega)] at this
  have hd : 4 * (a : K) ^ 3 + 27 * (b : K) ^ 2 ≠ 0 := by
    intro h0
    apply hns
    apply hcast
    push_cast
    exact h0
  have hlK : (l : K) ≠ 0 := by
    intro h0
    have := hcast l (by exact_mod_cast h0)
    have := Int.le_of_dvd (by have := hlp.pos; omega) this
    omega
  obtain ⟨s, hs, hsP⟩ := card_torsion (a := (a : K)) (b := b) h2K hd hlK
  obtain ⟨P, hPs, hP0⟩ : ∃ P ∈ s, P ≠ 0 := by
    by_contra hc
    push Not at hc
    have : s ⊆ {0} := fun P hP => by rw [Finset.mem_singleton]; exact hc P hP
    have := Finset.card_le_card this
    rw [hs, Finset.card_singleton] at this
    have := hlp.two_le
    nlinarith
  have hlP : l • P = 0 := hsP P hPs
  have hord : addOrderOf P = l := addOrderOf_eq_prime hlP hP0 (hp := ⟨hlp⟩)
  set Q := frobPoint q.toNat a b P with hQ
  have hQ0 : Q ≠ 0 := (frobPoint_ne (q := q) hP0).1
  have hlQ : l • Q = 0 := by
    have := frob_zsmul (q := q) h2K l P
    rw [natCast_zsmul, hlP, frob_zero, natCast_zsmul] at this
    exact this.symm
  have hordQ : addOrderOf Q = l := addOrderOf_eq_prime hlQ hQ0 (hp := ⟨hlp⟩)
  have hz : ∀ n : ℤ, n • P = 0 → (l : ℤ) ∣ n := fun n hn => by
    have := addOrderOf_dvd_iff_zsmul_eq_zero.2 hn
    rwa [hord] at this
  have hzQ : ∀ n : ℤ, n • Q = 0 → (l : ℤ) ∣ n := fun n hn => by
    have := addOrderOf_dvd_iff_zsmul_eq_zero.2 hn
    rwa [hordQ] at this
  have hlodd : ¬ (l : ℤ) ∣ 2 := by
    intro h0
    have := Int.le_of_dvd (by norm_num) h0
    omega
  have hlprime : Prime (l : ℤ) := Nat.prime_iff_prime_int.1 hlp
  have hlq' : ¬ (l : ℤ) ∣ q := by
    intro h0
    have : l ∣ q.toNat := by
      rw [← Int.natCast_dvd_natCast, Int.toNat_of_nonneg (by omega)]; exact h0
    have := (Nat.prime_dvd_prime_iff_eq hlp hpr).1 this
    omega
  have hτP := hτ P (by rw [hle, natCast_zsmul]; exact hlP)
  rw [← hQ] at hτP
  -- what the congruence for `j` says about `τ`
  have hcon : ∀ j : ℤ, SchoofCongr K a b q e.l j →
      j ≡ τ [ZMOD l] ∨ j ≡ -τ [ZMOD l] ∨ τ ^ 2 ≡ 4 * q [ZMOD l] := by
    intro j hj
    rcases hj P (by rw [hle, natCast_zsmul]; exact hlP) with h3 | h3 | h3
    · right; right
      rw [← hQ] at h3
      rw [h3, ← add_smul, ← two_mul] at hτP
      -- `2 q P = τ Q`, apply Frobenius
      have h5 := congrArg (frobPoint q.toNat a b) hτP
      rw [frob_zsmul h2K, frob_zsmul h2K, ← hQ, h3] at h5
      -- `2 q Q = τ q P`
      have h6 : (τ ^ 2 * q - (2 * q) * (2 * q)) • P = 0 := by
        rw [sub_smul, pow_two, mul_assoc, mul_smul, mul_smul τ q, ← h5, smul_smul τ (2 * q), mul_comm τ, mul_smul, ← hτP,
          ← mul_smul, sub_self]
      have h7 := hz _ h6
      have h8 : τ ^ 2 * q - 2 * q * (2 * q) = q * (τ ^ 2 - 4 * q) := by ring
      rw [h8] at h7
      exact (Int.modEq_iff_dvd.2 ((hlprime.dvd_mul.1 h7).resolve_left hlq')).symm
    · left
      rw [← hQ] at h3
      exact Int.modEq_iff_dvd.2 (hzQ _ (by rw [sub_smul, ← hτP, ← h3, sub_self]))
    · right; left
      rw [← hQ] at h3
      refine Int.modEq_iff_dvd.2 (hzQ _ ?_)
      rw [sub_smul, neg_smul, ← hτP, h3, neg_neg, sub_self]
  rcases C66_exact K a b q h2 hns fuel r h e he hl with ⟨j, -, -, hj, -, hr⟩ | ⟨hno, hr⟩
  · have h3 : e.r ≡ j [ZMOD e.l] ∨ e.r ≡ -j [ZMOD e.l] := by
      rcases hr with hr | hr
      · exact .inl (by rw [hr])
      · right
        rw [hr]
        exact Int.modEq_iff_dvd.2 ⟨-1, by ring⟩
    rcases hcon j hj with h4 | h4 | h4
    · rw [← hle] at h4
      rcases h3 with h3 | h3
      · exact .inl (h3.trans h4)
      · exact .inr (.inl (h3.trans h4.neg))
    · rw [← hle] at h4
      rcases h3 with h3 | h3
      · exact .inr (.inl (h3.trans h4))
      · exact .inl ((h3.trans h4.neg).trans (by rw [neg_neg]))
    · rw [← hle] at h4
      exact .inr (.inr (.inr h4))
  · rcases hr with hr | hr
    · left
      rw [hr]
      -- `τ` is 0 modulo `l`, else a `j` exists
      by_contra hne
      have hτ0 : τ % e.l ≠ 0 := fun h0 => hne (by rw [Int.ModEq, h0, Int.zero_emod])
      have hb := Int.emod_lt_of_pos τ (show 0 < e.l by omega)
      have hn := Int.emod_nonneg τ (show e.l ≠ 0 by omega)
      have hodd : e.l % 2 = 1 := by
        rcases hlp.eq_two_or_odd with h0 | h0 <;> omega
      have hmul := Int.mul_ediv_add_emod τ e.l
      have redu : ∀ P : (shortW (a : K) (b : K)).toAffine.Point, e.l • P = 0 →
          τ • frobPoint q.toNat a b P = (τ % e.l) • frobPoint q.toNat a b P := by
        intro R hR
        have h5 : e.l • frobPoint q.toNat a b R = 0 := by
          rw [← frob_zsmul h2K, hR, frob_zero]
        nth_rewrite 1 [← hmul]
        rw [add_smul, mul_comm, mul_smul, h5, smul_zero, zero_add]
      by_cases hc : 2 * (τ % e.l) < e.l
      · refine hno (τ % e.l) (by omega) hc (fun R hR => .inr (.inl ?_))
        rw [hτ R hR, redu R hR]
      · refine hno (e.l - τ % e.l) (by omega) (by omega) (fun R hR => .inr (.inr ?_))
        have h5 : e.l • frobPoint q.toNat a b R = 0 := by
          rw [← frob_zsmul h2K, hR, frob_zero]
        rw [hτ R hR, redu R hR, sub_smul, h5, zero_sub, neg_neg]
    · exact .inr (.inr (.inl hr))

theorem zsmul_mod_three {G : Type*} [AddCommGroup G] {q : ℤ} (h3 : q % 3 = 2) {P : G} (hP : (3 : ℤ) • P = 0) :
    q • P = -P := by
  have : q = 3 * (q / 3 + 1) - 1 := by omega
  rw [this, sub_smul, mul_comm, mul_smul, hP, smul_zero, zero_sub, one_smul]

theorem no_root_of_trace {a b q : ℤ} [hq : Fact (Nat.Prime q.toNat)] (h2 : q ≠ 2) (h3 : q % 3 = 2)
    (hns : ¬ q ∣ 4 * a ^ 3 + 27 * b ^ 2) {t : ℤ}
    (ht : t = q + 1 - Nat.card (shortW (a : ZMod q.toNat) (b : ZMod q.toNat)).toAffine.Point) (htd : ¬ (3 : ℤ) ∣ t) :
    ∀ z : ZMod q.toNat, EDS.psi3 (a : ZMod q.toNat) b z ≠ 0 := by
  have hpr : Nat.Prime q.toNat := Fact.out
  have hq2 := two_le_of_prime (p := q) hpr
  have hzc : ((q.toNat : ℕ) : ℤ) = q := Int.toNat_of_nonneg (by omega)
  intro z hz
  have hd : 4 * (a : ZMod q.toNat) ^ 3 + 27 * (b : ZMod q.toNat) ^ 2 ≠ 0 := by
    intro h0
    apply hns
    have : ((4 * a ^ 3 + 27 * b ^ 2 : ℤ) : ZMod q.toNat) = 0 := by push_cast; exact h0
    rw [ZMod.intCast_zmod_eq_zero_iff_dvd, hzc] at this
    exact this
  have h4 := root_three (F := ZMod q.toNat) (by rw [ZMod.ringChar_zmod_n]; omega) hd hz
  rw [ZMod.card, hzc] at h4
  apply htd
  rcases h4 with h4 | h4
  · have h5 : (3 : ℤ) ∣ Nat.card (shortW (a : ZMod q.toNat) (b : ZMod q.toNat)).toAffine.Point := h4
    omega
  · have h5 : (3 : ℤ) ∣ 2 * q + 2 - Nat.card (shortW (a : ZMod q.toNat) (b : ZMod q.toNat)).toAffine.Point := h4
    omega

/-- C66: for `q = 2` modulo 3 and a nonsingular curve the entry `r mod 3`, zero or not, is the trace of Frobenius
modulo 3 up to sign. -/
theorem C66_mod_three (a b q : ℤ) [hq : Fact (Nat.Prime q.toNat)] (h2 : q ≠ 2) (h3 : q % 3 = 2)
    (hns : ¬ q ∣ 4 * a ^ 3 + 27 * b ^ 2) (fuel : ℕ)
    (r : List ModResult) (h : schoof fuel a b q = .ok r) (e : ModResult) (he : e ∈ r) (hl : e.l = 3) (t : ℤ)
    (ht : t = q + 1 - Nat.card (shortW (a : ZMod q.toNat) (b : ZMod q.toNat)).toAffine.Point) :
    e.r ≡ t [ZMOD 3] ∨ e.r ≡ -t [ZMOD 3] := by
  by_cases hr : e.r = 0
  swap
  · exact C64_mod_three a b q h2 h3 fuel r h e he hl hr t ht
  by_cases htd : (3 : ℤ) ∣ t
  · left; rw [hr]; exact Int.modEq_iff_dvd.2 (by simpa using htd)
  exfalso
  have hroot := no_root_of_trace h2 h3 hns ht htd
  let K := AlgebraicClosure (ZMod q.toNat)
  have : CharP K q.toNat := charP_of_injective_algebraMap (algebraMap (ZMod q.toNat) K).injective q.toNat
  have : DecidableEq K := Classical.decEq K
  obtain ⟨s, hs, hsP⟩ := three_char (K := K) (a := a) (b := b) h3 h2 hroot
  have h4 := C66_trace K a b q h2 hns fuel r h e he (by omega) s (by
    intro P hP
    rw [hl] at hP
    have hP3 : (3 : ℕ) • P = 0 := by rw [← natCast_zsmul]; exact hP
    rw [hsP P hP3]
    rw [zsmul_mod_three h3 hP]; abel)
  rw [hr, hl] at h4
  simp only [Int.ModEq] at h4
  rcases hs with rfl | rfl <;> omega

/-- The hypotheses are met by `y^2 = x^3 + 2 x` over GF(5), whose third division polynomial has no root in GF(5). -/
example (K : Type) [Field K] [DecidableEq K] [IsAlgClosed K] [Fact (Nat.Prime (5 : ℤ).toNat)] [CharP K (5 : ℤ).toNat]
    [Algebra (ZMod (5 : ℤ).toNat) K] : ∃ τ : ℤ, (τ = 1 ∨ τ = -1) ∧ SchoofCongr K 2 0 5 3 1 ∧
    (∀ P : (shortW (((2 : ℤ) : K)) ((0 : ℤ) : K)).toAffine.Point, (3 : ℤ) • P = 0 →
      frobPoint (5 : ℤ).toNat 2 0 (frobPoint (5 : ℤ).toNat 2 0 P) + (5 : ℤ) • P =
        τ • frobPoint (5 : ℤ).toNat 2 0 P) ∧
    ((2 : ℤ) ≡ τ [ZMOD 3] ∨ (2 : ℤ) ≡ -τ [ZMOD 3] ∨ (2 : ℤ) ^ 2 ≡ 4 * 5 [ZMOD 3] ∨ τ ^ 2 ≡ 4 * 5 [ZMOD 3]) := by
  have hroot : ∀ z : ZMod (5 : ℤ).toNat, EDS.psi3 ((2 : ℤ) : ZMod (5 : ℤ).toNat) ((0 : ℤ) : ZMod (5 : ℤ).toNat) z ≠ 0 := by
    have h0 : ∀ z : ZMod 5, 3 * z ^ 4 + 6 * ((2 : ℤ) : ZMod 5) * z ^ 2 + 12 * ((0 : ℤ) : ZMod 5) * z -
        ((2 : ℤ) : ZMod 5) ^ 2 ≠ 0 := by decide
    exact h0
  obtain ⟨s, hs, hsP⟩ := three_char (K := K) (a := 2) (b := 0) (q := 5) (by norm_num) (by norm_num) hroot
  have hall : ∀ P : (shortW (((2 : ℤ) : K)) ((0 : ℤ) : K)).toAffine.Point, (3 : ℤ) • P = 0 →
      frobPoint (5 : ℤ).toNat 2 0 (frobPoint (5 : ℤ).toNat 2 0 P) + (5 : ℤ) • P =
        s • frobPoint (5 : ℤ).toNat 2 0 P := by
    intro P hP
    have hP3 : (3 : ℕ) • P = 0 := by rw [← natCast_zsmul]; exact hP
    rw [hsP P hP3, zsmul_mod_three (q := 5) (by norm_num) hP]; abel
  obtain ⟨⟨N, hN⟩, -⟩ := C61_trace_mod_three_refuted
  refine ⟨s, hs, ?_, hall, C66_trace K 2 0 5 (by norm_num) (by norm_num) N _ (hN N le_rfl) ⟨3, 2⟩ (by simp) (by simp) s hall⟩
  rcases C66_exact K 2 0 5 (by norm_num) (by norm_num) N _ (hN N le_rfl) ⟨3, 2⟩ (by simp) (by simp) with
    ⟨j, h1, h2, h3, -, -⟩ | ⟨-, h1 | h1⟩
  · have : j = 1 := by simp only at h2; omega
    rw [this] at h3; exact h3
  · simp at h1
  · simp [Int.ModEq] at h1

/-- The hypotheses are met by `y^2 = x^3 + 2 x` over GF(5) (entry `2 mod 3`, trace 4). -/
example : (2 : ℤ) ≡ 4 [ZMOD 3] ∨ (2 : ℤ) ≡ -4 [ZMOD 3] := by
  obtain ⟨⟨N, hN⟩, ht⟩ := C61_trace_mod_three_refuted
  have : Fact (Nat.Prime (5 : ℤ).toNat) := ⟨by decide⟩
  exact C66_mod_three 2 0 5 (by norm_num) (by norm_num) (by norm_num) N _ (hN N le_rfl) ⟨3, 2⟩ (by simp) rfl 4 ht.symm

end EC
