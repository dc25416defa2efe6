import Verif.Props.PolyMaps

/-! Property C26 for Laurent polynomials: `power_omit_high_order_q` of a polynomial with negative powers
of `q` (such as the `j`-invariant). -/

namespace EC
open Poly

/-- All coefficients at monomials with `q`-exponent at most `N` vanish. -/
def AboveQ (N : ℤ) (v : LRing) : Prop := ∀ e : Expo, e.2.2.1 ≤ N → v.coeff e = 0

theorem AboveQ.add {N : ℤ} {v w : LRing} (hv : AboveQ N v) (hw : AboveQ N w) : AboveQ N (v + w) :=
  fun e he => by rw [AddMonoidAlgebra.coeff_add, Finsupp.add_apply, hv e he, hw e he, add_zero]

theorem AboveQ.mono {M N : ℤ} {v : LRing} (hv : AboveQ N v) (h : M ≤ N) : AboveQ M v :=
  fun e he => hv e (he.trans h)

theorem AboveQ.mul {M N : ℤ} {v w : LRing} (hv : AboveQ M v) (hw : AboveQ N w) :
    AboveQ (M + N + 1) (v * w) := by
  classical
  intro e he
  rw [AddMonoidAlgebra.coeff_mul]
  refine Finset.sum_eq_zero fun a ha => Finset.sum_eq_zero fun b hb => ?_
  have h1 : M < a.2.2.1 := by
    by_contra h
    exact Finsupp.mem_support_iff.1 ha (hv a (by omega))
  have h2 : N < b.2.2.1 := by
    by_contra h
    exact Finsupp.mem_support_iff.1 hb (hw b (by omega))
  refine if_neg ?_
  rintro rfl
  have : (a + b).2.2.1 = a.2.2.1 + b.2.2.1 := rfl
  omega

theorem aboveQ_sum {N : ℤ} (l : List (Monomial × Int)) (h : ∀ e ∈ l, N < e.1.qpow) :
    AboveQ N (l.map fun e => e.2 • e.1.key.val).sum := by
  induction l with
  | nil => intro e _; rfl
  | cons a t ih =>
    rw [List.map_cons, List.sum_cons]
    refine AboveQ.add ?_ (ih fun e he => h e (List.mem_cons_of_mem _ he))
    intro e he
    have h1 := h a List.mem_cons_self
    rw [AddMonoidAlgebra.coeff_smul, Finsupp.smul_apply]
    unfold Key.val
    rw [AddMonoidAlgebra.coeff_single, Finsupp.single_eq_of_ne, smul_zero]
    rintro rfl
    change a.1.qpow ≤ N at he
    omega

/-- C26: if every exponent of `q` in `f` is at least `-m`, then for `n ≥ 1` the result of
`power_omit_high_order_q(n, N)` has no exponent above `N` and agrees with the `n`-th power in every
coefficient of order at most `N - (n - 1) m`. -/
theorem C26_power_omit_laurent (f c : Poly) (n N m : ℤ) (hn : 1 ≤ n) (hm : 0 ≤ m)
    (hf : ∀ e ∈ f.entries, -m ≤ e.1.qpow) (h : f.powerOmitHighOrderQ n N = .ok c) :
    (∀ e ∈ c.entries, e.1.qpow ≤ N) ∧
    ∀ e : Expo, e.2.2.1 ≤ N - (n - 1) * m → (f.val ^ n.toNat).coeff e = c.val.coeff e := by
  have hfv : AboveQ (-m - 1) f.val := aboveQ_sum _ fun e he => by have := hf e he; omega
  unfold powerOmitHighOrderQ at h
  simp only [Res.bind_eq_ok, rassert_eq_ok] at h
  obtain ⟨_, _, _, _, h⟩ := h
  have := foldlM_inv _ (fun pre (Q : Poly) => (pre ≠ [] → ∀ e ∈ Q.entries, e.1.qpow ≤ N) ∧
    AboveQ (N - (pre.length - 1) * m) (f.val ^ pre.length - Q.val)) (irange 0 n) one
    ⟨fun h => absurd rfl h, by
      rw [show one.val = 1 from (lin_one _).trans rfl]
      intro e _; simp⟩ ?_ c h
  · rw [length_irange] at this
    obtain ⟨t1, t2⟩ := this
    refine ⟨t1 ?_, fun e he => ?_⟩
    · intro h0
      have := congrArg List.length h0
      rw [length_irange] at this
      simp at this; omega
    · have h3 : (n - 0).toNat = n.toNat := by simp
      rw [h3] at t2
      have := t2 e (by rw [Int.toNat_of_nonneg (by omega)]; exact he)
      rw [AddMonoidAlgebra.coeff_sub, Finsupp.sub_apply] at this
      omega
  rintro pre a b b' _ ⟨_, hI2⟩ hb
  simp only [Res.bind_eq_ok] at hb
  obtain ⟨b1, hb1, hb2⟩ := hb
  obtain ⟨_, _, _, h1⟩ := omitHighOrderQ_eq_ok hb2
  constructor
  · intro _ e he
    rw [h1, List.mem_filter] at he
    exact of_decide_eq_true he.2
  · have hd : AboveQ N (b1.val - b'.val) := by
      unfold Poly.val
      rw [h1, lin_filter_add Key.val b1.entries (fun e => decide (e.1.qpow ≤ N)), add_sub_cancel_left]
      refine aboveQ_sum _ fun e he => ?_
      rw [List.mem_filter] at he
      simpa using he.2
    have h2 : b1.val = b.val * f.val := C10_mul b f b1 hb1
    have h3 : f.val ^ (pre ++ [a]).length - b'.val =
        (f.val ^ pre.length - b.val) * f.val + (b1.val - b'.val) := by
      rw [List.length_append, List.length_singleton, pow_succ, h2]; ring
    rw [h3, List.length_append, List.length_singleton]
    refine ((hI2.mul hfv).mono (le_of_eq ?_)).add (hd.mono ?_)
    · push_cast; ring
    · push_cast
      have : 0 ≤ (pre.length : ℤ) * m := by positivity
      linarith

/-- Sample `q^-1 + q`. -/
def sampleLaurent : Poly := ((TermBuilder.new.qpow (-1)).build).add (TermBuilder.new.qpow 1).build

/-- C26: with negative exponents the result need not agree with the power up to order `N`: for
`f = q^-1 + q`, `n = 2`, `N = 0` the result is `q^-2 + 1`, while `f^2 = q^-2 + 2 + q^2`. -/
theorem C26_power_omit_laurent_refuted :
    ∃ f c g : Poly, f.powerOmitHighOrderQ 2 0 = .ok c ∧ f.power 2 = .ok g ∧
      c.val.coeff (0, 0, 0, 0) = 1 ∧ g.val.coeff (0, 0, 0, 0) = 2 ∧ (f.val ^ 2).coeff (0, 0, 0, 0) = 2 := by
  obtain ⟨c, hc, hce⟩ : ∃ c, sampleLaurent.powerOmitHighOrderQ 2 0 = .ok c ∧
      c.entries.map (fun e => (e.1.key, e.2)) = [(⟨0, 0, -2, none⟩, 1), (⟨0, 0, 0, none⟩, 1)] := by
    exact ⟨_, rfl, by decide⟩
  obtain ⟨g0, hg0, hge⟩ : ∃ g, sampleLaurent.mul sampleLaurent = .ok g ∧
      g.entries.map (fun e => (e.1.key, e.2)) =
        [(⟨0, 0, -2, none⟩, 1), (⟨0, 0, 0, none⟩, 2), (⟨0, 0, 2, none⟩, 1)] := by
    exact ⟨_, rfl, by decide⟩
  have key : ∀ (P : Poly) (l : List (Key × ℤ)), P.entries.map (fun e => (e.1.key, e.2)) = l →
      P.val = (l.map fun e => e.2 • e.1.val).sum := by
    intro P l hl
    rw [← hl, List.map_map]; rfl
  have hf2 : (sampleLaurent.val ^ 2).coeff (0, 0, 0, 0) = 2 := by
    rw [pow_two, ← C10_mul _ _ _ hg0, key g0 _ hge]
    simp [Key.val, Key.expo]
  obtain ⟨g, hg⟩ := C12_power_returns sampleLaurent 2 1 (by decide) (by decide) (by decide) (by decide)
  refine ⟨sampleLaurent, c, g, hc, hg, ?_, ?_, hf2⟩
  · rw [key c _ hce]
    simp [Key.val, Key.expo]
  · rw [(C12_power _ _ _ hg).2]; exact hf2

/-- The hypotheses of `C26_power_omit_laurent` are met by `f = q^-1 + q`, `n = 2`, `N = 3`, `m = 1`:
the result is `q^-2 + 2 + q^2`, the exact square. -/
example : (∀ e ∈ sampleLaurent.entries, -1 ≤ e.1.qpow) ∧
    (sampleLaurent.powerOmitHighOrderQ 2 3 >>= fun c => .ok (c.entries.map fun e => (e.1.qpow, e.2))) =
      .ok [(-2, 1), (0, 2), (2, 1)] := by
  exact ⟨by decide, by decide⟩

end EC
