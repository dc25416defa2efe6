import Verif.Lemmas.PolyMap3
import Verif.Lemmas.PolyX

/-! Lemmas about `reduction` and `reduction_modular`. -/

namespace EC

/-- The key with its `y`-exponent replaced. -/
def Key.setY (k : Key) (j : ℤ) : Key := Key.mk k.x j k.q k.v

namespace Poly

theorem ypow_entries (j : ℤ) : (TermBuilder.new.ypow j).build.toPol.entries =
    [(Monomial.mk 0 j 0 SubVar.new, 1)] := by
  simp [TermBuilder.new, TermBuilder.ypow, TermBuilder.build, Term.toPol, Poly.insert, Poly.new,
    insertL]

theorem toPol_entries {t : Term} : t.toPol.entries = if t.coef = 0 then [] else [(t.monomial, t.coef)] := by
  unfold Term.toPol
  split <;> simp [Poly.insert, Poly.new, insertL]

theorem divY_spec {m : Monomial} {c j : ℤ} {Q : Poly}
    (h : (Term.from' m c).toPol.divAssignTerm (TermBuilder.new.ypow j).build = .ok Q) :
    Q.All (· = m.key.setY (m.ypow - j)) ∧
    ∀ {M : Type} [AddCommGroup M] (φ : Key → M), Q.lin φ = c • φ (m.key.setY (m.ypow - j)) := by
  unfold divAssignTerm at h
  obtain ⟨-, -, h3, h4⟩ := div_single (ypow_entries j) h
  have hk : ∀ m' : Monomial, m'.key.div (Monomial.mk 0 j 0 SubVar.new).key = m'.key.setY (m'.ypow - j) := by
    intro m'; simp [Key.div, Monomial.key, Key.setY]
  simp only [hk] at h3 h4
  constructor
  · rw [all_iff]
    intro k v hkv
    obtain ⟨e, he, rfl, -⟩ := (h3 k v).1 hkv
    rw [toPol_entries] at he
    split at he
    · simp at he
    · simp only [List.mem_singleton] at he; subst he; rfl
  · intro M _ φ
    rw [lin_eq_fs, h4, toPol_entries]
    split
    · rename_i hc; simp [Term.from'] at hc; simp [hc]
    · simp [Term.from']

theorem divY_ok {m : Monomial} {c j : ℤ} (hx : InI32 m.xpow) (hy : InI32 (m.ypow - j))
    (hq : InI32 m.qpow) :
    ∃ Q, (Term.from' m c).toPol.divAssignTerm (TermBuilder.new.ypow j).build = .ok Q := by
  unfold divAssignTerm
  apply div_single_ok (ypow_entries j) rfl one_ne_zero
  intro e he
  rw [toPol_entries] at he
  split at he
  · simp at he
  · simp only [List.mem_singleton] at he; subst he
    simpa [Term.from'] using ⟨hx, hy, hq⟩

/-- Loop body of both reductions: `pw y` is the polynomial put in place of `y^(2y)`. -/
def redStep (pw : ℤ → Res Poly) (t : Poly) (e : Monomial × ℤ) : Res Poly :=
  let u := Term.from' e.1 e.2
  if u.ypow ≥ 2 then do
    let y := Int.fdiv u.ypow 2
    let e ← u.toPol.divAssignTerm (TermBuilder.new.ypow (y * 2)).build
    let ee ← pw y
    let e ← e.mulAssign ee
    .ok (t.addAssign e)
  else .ok (t.addAssignTerm u)

theorem reduction_eq (f : Poly) (a b : ℤ) :
    f.reduction a b = f.entries.foldlM (redStep fun y => (curvePol a b).power y) new := rfl

theorem reductionModularAux_eq (f : Poly) (a b p : ℤ) (d : ℕ) :
    reductionModularAux a b p (d + 1) f =
      (f.entries.foldlM (redStep fun y => (curvePol a b).powerModulo y p >>= reductionModularAux a b p d)
        new >>= fun t => t.modularAssign p) := by
  rw [reductionModularAux]
  congr 2
  funext t e
  simp only [redStep, Res.bind_assoc']

theorem fdiv_two (n : ℤ) : Int.fdiv n 2 = n / 2 := Int.fdiv_eq_ediv_of_nonneg _ (by norm_num)

theorem redStep_lt {pw : ℤ → Res Poly} {t : Poly} {e : Monomial × ℤ} (h : e.1.key.y < 2) :
    redStep pw t e = .ok (t.addAssignTerm (Term.from' e.1 e.2)) := by
  unfold redStep
  have : ¬ (Term.from' e.1 e.2).ypow ≥ 2 := by
    simp only [Term.from', Term.ypow]; simp only [Monomial.key] at h; omega
  simp [this]

theorem redStep_ge {pw : ℤ → Res Poly} {t c : Poly} {e : Monomial × ℤ} (h : 2 ≤ e.1.key.y)
    (hc : redStep pw t e = .ok c) :
    ∃ Q ee d : Poly, pw (e.1.key.y / 2) = .ok ee ∧ Q.All (· = e.1.key.setY (e.1.key.y % 2)) ∧
      (∀ {M : Type} [AddCommGroup M] (φ : Key → M), Q.lin φ = e.2 • φ (e.1.key.setY (e.1.key.y % 2))) ∧
      Q.mul ee = .ok d ∧ c = t.addAssign d := by
  unfold redStep at hc
  have h2 : (Term.from' e.1 e.2).ypow ≥ 2 := h
  simp only [h2, if_true, Res.bind_eq_ok, Res.ok.injEq] at hc
  obtain ⟨Q, hQ, ee, hee, d, hd, rfl⟩ := hc
  obtain ⟨h3, h4⟩ := divY_spec hQ
  have hy : e.1.ypow - Int.fdiv (Term.from' e.1 e.2).ypow 2 * 2 = e.1.key.y % 2 := by
    simp only [fdiv_two, Term.from', Term.ypow, Monomial.key]; omega
  rw [hy] at h3
  refine ⟨Q, ee, d, ?_, h3, ?_, hd, rfl⟩
  · rw [← hee, fdiv_two]; rfl
  · intro M _ φ; rw [h4, hy]

theorem redStep_ge_ok {pw : ℤ → Res Poly} {t ee : Poly} {e : Monomial × ℤ} (h : 2 ≤ e.1.key.y)
    (hx : InI32 e.1.key.x) (hq : InI32 e.1.key.q) (hp : pw (e.1.key.y / 2) = .ok ee)
    (hee : ee.All (fun k => (e.1.key.setY (e.1.key.y % 2)).Compat k)) :
    ∃ c, redStep pw t e = .ok c := by
  unfold redStep
  have h2 : (Term.from' e.1 e.2).ypow ≥ 2 := h
  have hy : e.1.ypow - Int.fdiv (Term.from' e.1 e.2).ypow 2 * 2 = e.1.key.y % 2 := by
    simp only [fdiv_two, Term.from', Term.ypow, Monomial.key]; omega
  obtain ⟨Q, hQ⟩ := divY_ok (m := e.1) (c := e.2) (j := Int.fdiv (Term.from' e.1 e.2).ypow 2 * 2)
    hx (by rw [hy]; exact ⟨by omega, by omega⟩) hq
  obtain ⟨h3, -⟩ := divY_spec hQ
  rw [hy] at h3
  obtain ⟨d, hd⟩ := mul_ok (a := Q) (b := ee) (fun ie hie je hje => by rw [h3 ie hie]; exact hee je hje)
  have hp' : pw (Int.fdiv (Term.from' e.1 e.2).ypow 2) = .ok ee := by
    rw [← hp, fdiv_two]; rfl
  simp only [h2, if_true, hQ, hp', Res.ok_bind, mulAssign, hd]
  exact ⟨_, rfl⟩

/-- Value of the reduction loop. -/
theorem redFold_lin {R : Type} [CommRing R] {φ : Key → R} {g : R} {pw : ℤ → Res Poly} {f c : Poly}
    {W : Key → Prop}
    (hpw : ∀ y ee, 1 ≤ y → pw y = .ok ee → ee.All W ∧ ee.lin φ = g ^ y.toNat)
    (hφ : ∀ e ∈ f.entries, 2 ≤ e.1.key.y →
      φ e.1.key = φ (e.1.key.setY (e.1.key.y % 2)) * g ^ (e.1.key.y / 2).toNat)
    (hm : ∀ e ∈ f.entries, 2 ≤ e.1.key.y → ∀ k, W k → (e.1.key.setY (e.1.key.y % 2)).Compat k →
      φ ((e.1.key.setY (e.1.key.y % 2)).mul k) = φ (e.1.key.setY (e.1.key.y % 2)) * φ k)
    (h : f.entries.foldlM (redStep pw) new = .ok c) : c.lin φ = f.lin φ := by
  have := foldlM_inv (redStep pw)
    (fun l (t : Poly) => t.lin φ = (l.map fun e => e.2 • φ e.1.key).sum) f.entries new (by simp)
    (by
      intro pre e t t' he ht hs
      simp only [List.map_append, List.sum_append, List.map_cons, List.map_nil, List.sum_cons,
        List.sum_nil, add_zero, ← ht]
      by_cases hy : 2 ≤ e.1.key.y
      · obtain ⟨Q, ee, d, h1, h2, h3, h4, rfl⟩ := redStep_ge hy hs
        obtain ⟨h5, h6⟩ := hpw _ _ (by omega) h1
        rw [lin_addAssign, lin_mul (φ := φ) (ψ := φ) h4, h3, h6, hφ e he hy, smul_mul_assoc]
        intro ie hie je hje hc
        rw [h2 ie hie] at hc ⊢
        exact hm e he hy _ (h5 je hje) hc
      · rw [redStep_lt (by omega)] at hs
        cases hs
        rw [lin_addAssignTerm]; rfl) c h
  exact this

/-- Monomials of the reduction loop. -/
theorem redFold_all {pw : ℤ → Res Poly} {f c : Poly} {A B : Key → Prop} {W : ℤ → Key → Prop}
    (hpw : ∀ y ee, 1 ≤ y → pw y = .ok ee → ee.All (W y)) (hf : f.All A)
    (h1 : ∀ k, A k → k.y < 2 → B k)
    (h2 : ∀ k k', A k → 2 ≤ k.y → W (k.y / 2) k' → (k.setY (k.y % 2)).Compat k' →
      B ((k.setY (k.y % 2)).mul k'))
    (h : f.entries.foldlM (redStep pw) new = .ok c) : c.All B := by
  refine foldlM_inv (redStep pw) (fun _ (t : Poly) => t.All B) f.entries new all_new ?_ c h
  intro pre e t t' he ht hs
  by_cases hy : 2 ≤ e.1.key.y
  · obtain ⟨Q, ee, d, h3, h4, -, h5, rfl⟩ := redStep_ge hy hs
    apply all_addAssign ht
    refine all_mul h4 (hpw _ _ (by omega) h3) ?_ h5
    rintro k k' rfl hk' hc
    exact h2 _ _ (hf e he) hy hk' hc
  · rw [redStep_lt (by omega)] at hs
    cases hs
    exact all_addAssignTerm ht (h1 _ (hf e he) (by simp only [Term.from']; omega))

theorem redFold_ok {pw : ℤ → Res Poly} {f : Poly}
    (h : ∀ e ∈ f.entries, 2 ≤ e.1.key.y → InI32 e.1.key.x ∧ InI32 e.1.key.q ∧
      ∃ ee, pw (e.1.key.y / 2) = .ok ee ∧ ee.All (fun k => (e.1.key.setY (e.1.key.y % 2)).Compat k)) :
    ∃ c, f.entries.foldlM (redStep pw) new = .ok c := by
  obtain ⟨c, hc, -⟩ := foldlM_total (redStep pw) (fun _ _ => True) f.entries new trivial
    (by
      rintro pre e t ⟨suf, hsuf⟩ -
      have he : e ∈ f.entries := by rw [hsuf]; simp
      by_cases hy : 2 ≤ e.1.key.y
      · obtain ⟨h1, h2, ee, h3, h4⟩ := h e he hy
        obtain ⟨c, hc⟩ := redStep_ge_ok (t := t) hy h1 h2 h3 h4
        exact ⟨c, hc, trivial⟩
      · exact ⟨_, redStep_lt (by omega), trivial⟩)
  exact ⟨c, hc⟩

theorem redFold_congr {pw pw' : ℤ → Res Poly} (l : List (Monomial × ℤ)) (t : Poly)
    (h : ∀ e ∈ l, 2 ≤ e.1.key.y → pw (e.1.key.y / 2) = pw' (e.1.key.y / 2)) :
    l.foldlM (redStep pw) t = l.foldlM (redStep pw') t := by
  induction l generalizing t with
  | nil => rfl
  | cons e l ih =>
    rw [List.foldlM_cons, List.foldlM_cons]
    have : redStep pw t e = redStep pw' t e := by
      by_cases hy : 2 ≤ e.1.key.y
      · have h0 : Int.fdiv (Term.from' e.1 e.2).ypow 2 = e.1.key.y / 2 := by rw [fdiv_two]; rfl
        simp only [redStep, h0, h e (by simp) hy]
      · rw [redStep_lt (by omega), redStep_lt (by omega)]
    rw [this]
    congr 1
    funext t'
    exact ih t' (fun e he => h e (by simp [he]))

/-! ### The polynomial `x^3 + a x + b` -/

theorem curvePol_all (a b : ℤ) : (curvePol a b).All (fun k => k.IsX ∧ k.x ≤ 3) := by
  unfold curvePol
  apply all_addTerm
  · apply all_termAdd <;> simp [TermBuilder.new, TermBuilder.xpow, TermBuilder.coef, TermBuilder.build,
      Monomial.key, Key.IsX, SubVar.key, SubVar.new]
  · simp [TermBuilder.new, TermBuilder.coef, TermBuilder.build,
      Monomial.key, Key.IsX, SubVar.key, SubVar.new]

theorem curvePol_isX (a b : ℤ) : (curvePol a b).All Key.IsX := (curvePol_all a b).mono fun _ h => h.1

theorem curvePol_lin {M : Type*} [AddCommGroup M] (φ : Key → M) (a b : ℤ) :
    (curvePol a b).lin φ = φ (Key.xn 3) + a • φ (Key.xn 1) + b • φ (Key.xn 0) := by
  unfold curvePol
  rw [lin_addTerm, lin_termAddTerm]
  simp [TermBuilder.new, TermBuilder.xpow, TermBuilder.coef, TermBuilder.build, Monomial.key,
    Key.xn, SubVar.key, SubVar.new]

/-- `x^i`, `0 ≤ i ≤ 3n`. -/
def XLe (n : ℤ) (k : Key) : Prop := k.IsX ∧ k.x ≤ 3 * n

theorem graded_XLe : Graded 715827882 XLe where
  one_mem := by simp [XLe, Key.IsX, Key.one]
  mul_mem := by
    rintro m n ⟨x, y, q, v⟩ ⟨x', y', q', v'⟩ ⟨⟨h1, h2, h3, h4⟩, h5⟩ ⟨⟨h1', h2', h3', h4'⟩, h5'⟩
    simp only at *; subst h2 h3 h4 h2' h3' h4'
    simp only [XLe, Key.IsX, Key.mul]
    refine ⟨⟨by omega, by simp, by simp, by simp⟩, by omega⟩
  compat := by
    rintro m n ⟨x, y, q, v⟩ ⟨x', y', q', v'⟩ ⟨⟨h1, h2, h3, h4⟩, h5⟩ ⟨⟨h1', h2', h3', h4'⟩, h5'⟩ hN
    simp only at *; subst h2 h3 h4 h2' h3' h4'
    refine ⟨by simp, ⟨?_, ?_⟩, ⟨?_, ?_⟩, ⟨?_, ?_⟩⟩ <;> simp only <;> omega

theorem power_XLe {a b y : ℤ} {ee : Poly} (h : (curvePol a b).power y = .ok ee) : ee.All (XLe y) := by
  have := power_all graded_XLe.one_mem graded_XLe.mul_mem
    ((curvePol_all a b).mono (T := XLe 1) fun _ h => ⟨h.1, by linarith [h.2]⟩) h
  rwa [mul_one] at this

theorem curvePol_XLe (a b : ℤ) : (curvePol a b).All (XLe 1) :=
  (curvePol_all a b).mono fun _ h => ⟨h.1, by linarith [h.2]⟩

end Poly
end EC
