import Verif.Props.ModularDomain

/-! C33-C36, C77: the `q`-expansions for every `i32` order: which calls return, and what a negative order
gives. -/

namespace EC

open Poly

theorem eq_of_entries {P Q : Poly} (h : P.entries = Q.entries) : P = Q := by
  cases P; cases Q; cases h; rfl

theorem Poly.HasQ.powerOmit {f c : Poly} {n N j : ℤ} (hn : 1 ≤ n) (h0 : f.HasQ 0) (hf : f.HasQ j) (hN : 0 ≤ N)
    (hj : j ≤ N) (h : f.powerOmitHighOrderQ n N = .ok c) : c.HasQ 0 ∧ c.HasQ j := by
  unfold powerOmitHighOrderQ at h
  simp only [Res.bind_eq_ok, rassert_eq_ok] at h
  obtain ⟨_, _, _, _, h⟩ := h
  have := foldlM_inv _ (fun pre (Q : Poly) => Q.HasQ 0 ∧ (pre ≠ [] → Q.HasQ j)) (irange 0 n) one
    ⟨hasQ_one, fun h => absurd rfl h⟩ ?_ c h
  · refine ⟨this.1, this.2 ?_⟩
    rw [irange_cons (by omega)]
    simp
  rintro pre a b b' _ ⟨hI, _⟩ hb
  simp only [Res.bind_eq_ok] at hb
  obtain ⟨b1, hb1, hb2⟩ := hb
  have h1 := (hI.mul h0 hb1).1
  have h2 := (hI.mul hf hb1).1
  rw [zero_add] at h1 h2
  exact ⟨h1.omit hN hb2, fun _ => h2.omit hj hb2⟩

theorem hasQ_one_sub {n : ℤ} (hn : 1 ≤ n) :
    (Poly.one.sub (TermBuilder.new.qpow n).build.toPol).HasQ 0 ∧
    (Poly.one.sub (TermBuilder.new.qpow n).build.toPol).HasQ n := by
  obtain ⟨t1, t2⟩ := qpow_toPol' (show 0 ≤ n by omega)
  obtain ⟨s1, s2⟩ := subSeries (all_one_qt (N := n) (by omega)) t1
  rw [t2, series_one] at s2
  have key : ∀ k : ℕ, PowerSeries.coeff k (1 - (PowerSeries.X : PowerSeries ℤ) ^ n.toNat) ≠ 0 →
      (Poly.one.sub (TermBuilder.new.qpow n).build.toPol).HasQ k := by
    intro k hk
    rw [← s2, coeff_series (s1.mono fun _ h => h.isQ)] at hk
    exact HasQ.of_coef hk
  refine ⟨key 0 ?_, ?_⟩
  · rw [map_sub, PowerSeries.coeff_X_pow, PowerSeries.coeff_one, if_pos rfl, if_neg (by omega)]
    norm_num
  · have := key n.toNat (by
      rw [map_sub, PowerSeries.coeff_X_pow, PowerSeries.coeff_one, if_pos rfl, if_neg (by omega)]
      norm_num)
    rwa [Int.toNat_of_nonneg (by omega)] at this

/-- After `k` factors every order up to `min(N, k(k+1)/2)` is stored. -/
theorem delta_fold_has {N : ℤ} (hN : 0 ≤ N) : ∀ (k : ℕ) (Q : Poly), (k : ℤ) ≤ N →
    (irange 1 (k + 1)).foldlM (fun pol n => do
      let t := (TermBuilder.new.qpow n).build.toPol
      let u ← (Poly.one.sub t).powerOmitHighOrderQ 24 N
      let pol ← Poly.mulAssign pol u
      pol.omitHighOrderQ N) Poly.one = .ok Q →
    ∀ j : ℤ, 0 ≤ j → j ≤ N → 2 * j ≤ k * (k + 1) → Q.HasQ j := by
  intro k
  induction k with
  | zero =>
    intro Q _ h j h0 _ h1
    rw [irange_of_le (by norm_num)] at h
    cases h
    obtain rfl : j = 0 := by simp at h1; omega
    exact hasQ_one
  | succ k ih =>
    intro Q hk h j h0 hj h1
    push_cast at h hk h1
    rw [irange_succ_right (by omega), List.foldlM_append] at h
    obtain ⟨P, hP, h⟩ := Res.bind_eq_ok.1 h
    rw [List.foldlM_cons] at h
    obtain ⟨Q', h, h'⟩ := Res.bind_eq_ok.1 h
    cases h'
    obtain ⟨u, hu, h⟩ := Res.bind_eq_ok.1 h
    obtain ⟨m, hm, h⟩ := Res.bind_eq_ok.1 h
    obtain ⟨o1, o2⟩ := hasQ_one_sub (n := (k : ℤ) + 1) (by omega)
    obtain ⟨u0, u1⟩ := HasQ.powerOmit (by norm_num) o1 o2 hN hk hu
    have ihP := ih P (by omega) hP
    by_cases hjk : 2 * j ≤ k * (k + 1)
    · have := ((ihP j h0 hj hjk).mul u0 hm).1
      rw [add_zero] at this
      exact this.omit hj h
    · have e1 : (k : ℤ) * (k + 1) = k * k + k := by ring
      have e2 : ((k : ℤ) + 1) * (k + 1 + 1) = k * k + 3 * k + 2 := by ring
      have e3 : (k : ℤ) ≤ k * k := by
        rcases Nat.eq_zero_or_pos k with rfl | h
        · simp
        · nlinarith [h]
      have := ((ihP (j - (k + 1)) (by rw [e1] at hjk; omega) (by omega) (by rw [e1]; omega)).mul u1 hm).1
      rw [sub_add_cancel] at this
      exact this.omit hj h

theorem delta1_bound {N : ℤ} {f : Poly} (h : delta1 N = .ok f) : 2 * N ≤ 2147483647 := by
  by_contra hb
  obtain ⟨k, rfl⟩ : ∃ k : ℕ, N = k + 1 := ⟨(N - 1).toNat, by omega⟩
  unfold delta1 at h
  obtain ⟨hi, h1, h⟩ := Res.bind_eq_ok.1 h
  obtain ⟨-, rfl⟩ := chk_eq_ok.1 h1
  rw [irange_succ_right (by omega), List.foldlM_append] at h
  obtain ⟨P, hP, h⟩ := Res.bind_eq_ok.1 h
  rw [List.foldlM_cons] at h
  obtain ⟨_, h, -⟩ := Res.bind_eq_ok.1 h
  obtain ⟨u, hu, h⟩ := Res.bind_eq_ok.1 h
  obtain ⟨m, hm, h⟩ := Res.bind_eq_ok.1 h
  obtain ⟨o1, o2⟩ := hasQ_one_sub (n := (k : ℤ) + 1) (by omega)
  obtain ⟨_, u1⟩ := HasQ.powerOmit (by norm_num) o1 o2 (by omega) le_rfl hu
  have := ((delta_fold_has (by omega) k P (by omega) hP (k + 1) (by omega) le_rfl (by nlinarith)).mul u1 hm).2
  omega

/-- **C34.**  For every `i32` order `N`, `delta1(N)` returns exactly if `2 N` is at most the largest `i32`, i.e.
`N ≤ 1073741823`; otherwise it panics.  For a negative order the result is 1. -/
theorem C34_domain (N : ℤ) (hN : InI32 N) :
    ((∃ f, delta1 N = .ok f) ↔ 2 * N ≤ 2147483647) ∧
    (¬ 2 * N ≤ 2147483647 → ∃ w, delta1 N = .panic w) ∧
    (N < 0 → delta1 N = .ok Poly.one) := by
  have hneg : N < 0 → delta1 N = .ok Poly.one := by
    intro h
    unfold delta1
    rw [chk_of ⟨by have := hN.1; omega, by omega⟩, Res.ok_bind, irange_of_le (by omega)]
    rfl
  have h : (∃ f, delta1 N = .ok f) ↔ 2 * N ≤ 2147483647 := by
    refine ⟨fun ⟨f, hf⟩ => delta1_bound hf, fun hb => ?_⟩
    rcases lt_or_ge N 0 with h0 | h0
    · exact ⟨_, hneg h0⟩
    · exact (C34_delta1 N h0 hb).imp fun f hf => hf.1
  exact ⟨h, fun hb => panics_of (delta1_ne_timeout N) fun f hf => hb (h.1 ⟨f, hf⟩), hneg⟩

/-- **C35.**  For every `i32` order `N`, `delta1_inverse(N)` returns exactly if `2 N` is at most the largest `i32`;
otherwise it panics.  For a negative order the result is 1. -/
theorem C35_domain (N : ℤ) (hN : InI32 N) :
    ((∃ f, delta1Inverse N = .ok f) ↔ 2 * N ≤ 2147483647) ∧
    (¬ 2 * N ≤ 2147483647 → ∃ w, delta1Inverse N = .panic w) ∧
    (N < 0 → delta1Inverse N = .ok Poly.one) := by
  have hneg : N < 0 → delta1Inverse N = .ok Poly.one := by
    intro h
    unfold delta1Inverse
    rw [(C34_domain N hN).2.2 h, Res.ok_bind, chk_of ⟨by have := hN.1; omega, by omega⟩, Res.ok_bind,
      irange_of_le (by omega)]
    rfl
  have h : (∃ f, delta1Inverse N = .ok f) ↔ 2 * N ≤ 2147483647 := by
    refine ⟨fun ⟨f, hf⟩ => ?_, fun hb => ?_⟩
    · unfold delta1Inverse at hf
      obtain ⟨d, hd, _⟩ := Res.bind_eq_ok.1 hf
      exact delta1_bound hd
    · rcases lt_or_ge N 0 with h0 | h0
      · exact ⟨_, hneg h0⟩
      · exact (C35_delta1_inverse N h0 hb).imp fun f hf => hf.1
  exact ⟨h, fun hb => panics_of (delta1Inverse_ne_timeout N) fun f hf => hb (h.1 ⟨f, hf⟩), hneg⟩

/-- **C33.**  For every `i32` order `N`, `eisenstein4(N)` returns exactly if `N` is not the largest `i32`. -/
theorem C33_domain (N : ℤ) (hN : InI32 N) : (∃ f, eisenstein4 N = .ok f) ↔ N ≠ 2147483647 := by
  obtain ⟨h1, h2⟩ := hN
  constructor
  · rintro ⟨f, hf⟩ rfl
    rw [(C33_eisenstein4_edge 0).2] at hf
    cases hf
  · intro h
    rcases lt_or_ge N 0 with h0 | h0
    · exact ⟨_, (C33_eisenstein4_edge N).1 h1 h0⟩
    · exact (C33_eisenstein4 N h0 (by omega)).imp fun f hf => hf.1

/-- **C77.**  For a negative order `j_invariant1` returns the zero polynomial; for an order below `-1` so does
`j_invariant`. -/
theorem C77_negative (N : ℤ) (hN : InI32 N) :
    (N < 0 → jInvariant1 N = .ok Poly.new) ∧ (N < -1 → jInvariantQ N = .ok Poly.new) := by
  have hneg : ∀ N, InI32 N → N < 0 → jInvariant1 N = .ok Poly.new := by
    intro N hN h
    obtain ⟨g, hg⟩ := C12_power_returns Poly.one 3 0 (by norm_num) le_rfl (by decide) (by norm_num)
    have hg1 : ∀ e ∈ g.entries, e.1.xpow = 0 ∧ e.1.ypow = 0 ∧ e.1.qpow = 0 := by
      have := graded_box.power (n := 3) (j := 0) (by norm_num) le_rfl
        (show Poly.one.All (Key.Box 0) from fun e he => by simp at he; subst he; exact ⟨rfl, by decide, by decide, by decide⟩) (by norm_num)
      obtain ⟨c, hc, hA⟩ := this
      cases hg.symm.trans hc
      intro e he
      obtain ⟨_, h2, h3, h4⟩ := hA e he
      simp only [mul_zero, abs_nonpos_iff] at h2 h3 h4
      exact ⟨h2, h3, h4⟩
    obtain ⟨c, hc, hce⟩ := C26_omit g N ⟨by have := hN.1; omega, by omega⟩
      (fun e he => ⟨(hg1 e he).1, (hg1 e he).2.1⟩)
    have hc0 : c = Poly.new := by
      apply eq_of_entries
      rw [hce]
      exact List.filter_eq_nil_iff.2 fun e he => by rw [(hg1 e he).2.2]; simpa using h
    subst hc0
    unfold jInvariant1
    rw [(C35_domain N hN).2.2 h, Res.ok_bind, (C33_eisenstein4_edge N).1 hN.1 h, Res.ok_bind, hg, Res.ok_bind, hc,
      Res.ok_bind, show Poly.one.mul Poly.new = .ok Poly.new from rfl, Res.ok_bind]
    obtain ⟨c, hc, hce⟩ := C26_omit Poly.new N ⟨by have := hN.1; omega, by omega⟩ (by simp [Poly.new])
    rw [hc]
    congr 1
    exact eq_of_entries hce
  refine ⟨hneg N hN, fun h => ?_⟩
  unfold jInvariantQ
  rw [chk_of ⟨by have := hN.1; omega, by omega⟩, Res.ok_bind,
    hneg (N + 1) ⟨by have := hN.1; omega, by have := hN.2; omega⟩ (by omega), Res.ok_bind]
  rfl

/-- The last order for which `delta1` works, the first one for which it does not. -/
example : (∃ f, delta1 1073741823 = .ok f) ∧ (∃ w, delta1 1073741824 = .panic w) :=
  ⟨(C34_domain _ ⟨by norm_num, by norm_num⟩).1.2 (by norm_num),
    (C34_domain _ ⟨by norm_num, by norm_num⟩).2.1 (by norm_num)⟩

example : jInvariantQ (-5) = .ok Poly.new := (C77_negative (-5) ⟨by norm_num, by norm_num⟩).2 (by norm_num)

end EC
