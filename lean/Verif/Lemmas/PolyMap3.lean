import Verif.Lemmas.PolyMap2
import Verif.Lemmas.Irange

/-! Evaluation, substitution, truncated powers. -/

namespace EC
namespace Poly

variable {M : Type*} [AddCommGroup M]

theorem evalAt_map {R R' : Type*} [CommRing R] [CommRing R'] (f : R →+* R') (x y q : R)
    (c : ℤ × ℤ → R) (P : Poly) :
    f (P.evalAt x y q c) = P.evalAt (f x) (f y) (f q) (fun v => f (c v)) := by
  rw [evalAt_eq_lin, evalAt_eq_lin]
  have := map_lin f.toAddMonoidHom (Key.evalAt x y q c) P
  simp only [RingHom.toAddMonoidHom_eq_coe, AddMonoidHom.coe_coe] at this
  rw [this]
  congr 1
  funext k
  simp only [Key.evalAt, map_mul, map_pow]
  cases k.v <;> simp

theorem evalXY_eq_lin (P : Poly) (x y : ℤ) :
    P.evalXY x y = P.lin (fun k => EC.power x k.x * EC.power y k.y) := by
  unfold evalXY lin
  have : ∀ (l : List (Monomial × Int)) (s : ℤ),
      l.foldl (fun sum e => sum + e.1.evalXY x y * e.2) s =
        s + (l.map fun e => e.2 • (EC.power x e.1.key.x * EC.power y e.1.key.y)).sum := by
    intro l
    induction l with
    | nil => simp
    | cons a t ih =>
      intro s
      rw [List.foldl_cons, ih, List.map_cons, List.sum_cons]
      simp only [Monomial.evalXY, Monomial.key, smul_eq_mul]; ring
  rw [this]; simp

theorem lin_foldl_addAssignTerm (f : Monomial × Int → Term) (φ : Key → M)
    (l : List (Monomial × Int)) (P : Poly) :
    (l.foldl (fun pol e => pol.addAssignTerm (f e)) P).lin φ =
      P.lin φ + (l.map fun e => (f e).coef • φ (f e).monomial.key).sum := by
  induction l generalizing P with
  | nil => simp
  | cons a t ih => rw [List.foldl_cons, ih, lin_addAssignTerm]; simp [add_assoc]

theorem all_foldl_addAssignTerm {S : Key → Prop} (f : Monomial × Int → Term)
    (l : List (Monomial × Int)) (hl : ∀ e ∈ l, S (f e).monomial.key) (P : Poly) (hP : P.All S) :
    (l.foldl (fun pol e => pol.addAssignTerm (f e)) P).All S := by
  induction l generalizing P with
  | nil => exact hP
  | cons a t ih =>
    exact ih (fun e he => hl e (by simp [he])) _ (all_addAssignTerm hP (hl a (by simp)))

theorem lin_evalX (P : Poly) (x : ℤ) (φ : Key → M) :
    (P.evalX x).lin φ = P.lin (fun k => EC.power x k.x • φ { k with x := 0 }) := by
  unfold evalX
  rw [lin_foldl_addAssignTerm, lin_new, zero_add]
  unfold lin
  congr 1
  apply List.map_congr_left
  intro e _
  rw [mul_smul]; rfl

theorem lin_evalY (P : Poly) (y : ℤ) (φ : Key → M) :
    (P.evalY y).lin φ = P.lin (fun k => EC.power y k.y • φ { k with y := 0 }) := by
  unfold evalY
  rw [lin_foldl_addAssignTerm, lin_new, zero_add]
  unfold lin
  congr 1
  apply List.map_congr_left
  intro e _
  rw [mul_smul]; rfl

theorem all_evalX {S T : Key → Prop} {P : Poly} (x : ℤ) (hP : P.All S)
    (h : ∀ k, S k → T { k with x := 0 }) : (P.evalX x).All T :=
  all_foldl_addAssignTerm _ _ (fun e he => h _ (hP e he)) _ all_new

theorem all_evalY {S T : Key → Prop} {P : Poly} (y : ℤ) (hP : P.All S)
    (h : ∀ k, S k → T { k with y := 0 }) : (P.evalY y).All T :=
  all_foldl_addAssignTerm _ _ (fun e he => h _ (hP e he)) _ all_new

/-- A polynomial whose only possible key is 1 is a scalar. -/
theorem toScalar_of_all_one {P : Poly} (h : P.All (fun k => k = Key.one)) :
    P.toScalar = .ok (P.coef Key.one) := by
  unfold toScalar coef
  have hs := P.keys_nodup
  unfold All at h
  rcases hl : P.entries with _ | ⟨⟨m, c⟩, _ | ⟨b, t⟩⟩
  · rfl
  · rw [hl] at h
    have h1 := h (m, c) (by simp)
    have hx : m.xpow = 0 := congrArg Key.x h1
    have hy : m.ypow = 0 := congrArg Key.y h1
    have hq : m.qpow = 0 := congrArg Key.q h1
    simp only at h1
    simp [hx, hy, hq, h1]
  · rw [hl] at h hs
    have h1 := h (m, c) (by simp)
    have h2 := h b (by simp)
    simp only [List.map_cons, List.nodup_cons, List.mem_cons] at hs
    exact absurd (Or.inl (h1.trans h2.symm)) hs.1

/-! ### Substitution -/

section Subst
variable {R : Type*} [CommRing R] {S : Key → Prop} {φ : Key → R}

theorem evalXPolynomial_lin (hφ : MulFn S φ) {P F Q : Poly} (hF : F.All S)
    (hP : P.All (fun k => S { k with x := 0 })) (h : P.evalXPolynomial F = .ok Q) :
    (∀ e ∈ P.entries, 0 ≤ e.1.xpow) ∧ Q.All S ∧
    Q.lin φ = (P.entries.map fun e =>
      e.2 • (F.lin φ ^ e.1.xpow.toNat * φ { e.1.key with x := 0 })).sum := by
  unfold evalXPolynomial at h
  refine foldlM_inv _ (fun pre Q => (∀ e ∈ pre, 0 ≤ e.1.xpow) ∧ Q.All S ∧ Q.lin φ = (pre.map fun e =>
      e.2 • (F.lin φ ^ e.1.xpow.toNat * φ { e.1.key with x := 0 })).sum) P.entries new
    ⟨by simp, all_new, by simp⟩ ?_ Q h
  rintro pre e b b' he ⟨hI1, hI2, hI3⟩ hb
  simp only [Res.bind_eq_ok, Res.ok.injEq, Monomial.evalXPolynomial] at hb
  obtain ⟨g, ⟨g0, hg0, hg⟩, h1, hh, rfl⟩ := hb
  obtain ⟨hx, hgA, hgL⟩ := MulFn.power hφ hF hg0
  set t := (((TermBuilder.new.ypow e.1.ypow).qpow e.1.qpow).var e.1.var).build with ht
  have htk : t.monomial.key = { e.1.key with x := 0 } := rfl
  have htA : t.toPol.All S := all_toPol (fun _ => by rw [htk]; exact hP e he)
  obtain ⟨hg1A, hg1L⟩ := MulFn.mul hφ hgA htA hg
  have hcA : ((TermBuilder.new.coef e.2).build).toPol.All S := all_toPol (fun _ => hφ.one_mem)
  obtain ⟨hhA, hhL⟩ := MulFn.mul hφ hg1A hcA hh
  refine ⟨?_, all_addAssign hI2 hhA, ?_⟩
  · intro e' he'
    rcases List.mem_append.1 he' with h | h
    · exact hI1 e' h
    · simp at h; subst h; exact hx
  · rw [lin_addAssign, hI3, hhL, hg1L, hgL, lin_toPol, lin_toPol, htk]
    have h1k : (TermBuilder.new.coef e.2).build.monomial.key = Key.one := rfl
    rw [h1k, hφ.map_one]
    have h2k : t.coef = 1 := rfl
    have h3k : (TermBuilder.new.coef e.2).build.coef = e.2 := rfl
    rw [h2k, h3k]
    simp only [List.map_append, List.map_cons, List.map_nil, List.sum_append, List.sum_cons,
      List.sum_nil, add_zero, zsmul_eq_mul, Int.cast_one, mul_one, one_mul]
    ring

theorem evalYPolynomial_lin (hφ : MulFn S φ) {P F Q : Poly} (hF : F.All S)
    (hP : P.All (fun k => S { k with y := 0 })) (h : P.evalYPolynomial F = .ok Q) :
    (∀ e ∈ P.entries, 0 ≤ e.1.ypow) ∧ Q.All S ∧
    Q.lin φ = (P.entries.map fun e =>
      e.2 • (F.lin φ ^ e.1.ypow.toNat * φ { e.1.key with y := 0 })).sum := by
  unfold evalYPolynomial at h
  refine foldlM_inv _ (fun pre Q => (∀ e ∈ pre, 0 ≤ e.1.ypow) ∧ Q.All S ∧ Q.lin φ = (pre.map fun e =>
      e.2 • (F.lin φ ^ e.1.ypow.toNat * φ { e.1.key with y := 0 })).sum) P.entries new
    ⟨by simp, all_new, by simp⟩ ?_ Q h
  rintro pre e b b' he ⟨hI1, hI2, hI3⟩ hb
  simp only [Res.bind_eq_ok, Res.ok.injEq, Monomial.evalYPolynomial] at hb
  obtain ⟨g, ⟨g0, hg0, hg⟩, h1, hh, rfl⟩ := hb
  obtain ⟨hx, hgA, hgL⟩ := MulFn.power hφ hF hg0
  set t := (((TermBuilder.new.xpow e.1.xpow).qpow e.1.qpow).var e.1.var).build with ht
  have htk : t.monomial.key = { e.1.key with y := 0 } := rfl
  have htA : t.toPol.All S := all_toPol (fun _ => by rw [htk]; exact hP e he)
  obtain ⟨hg1A, hg1L⟩ := MulFn.mul hφ hgA htA hg
  have hcA : ((TermBuilder.new.coef e.2).build).toPol.All S := all_toPol (fun _ => hφ.one_mem)
  obtain ⟨hhA, hhL⟩ := MulFn.mul hφ hg1A hcA hh
  refine ⟨?_, all_addAssign hI2 hhA, ?_⟩
  · intro e' he'
    rcases List.mem_append.1 he' with h | h
    · exact hI1 e' h
    · simp at h; subst h; exact hx
  · rw [lin_addAssign, hI3, hhL, hg1L, hgL, lin_toPol, lin_toPol, htk]
    have h1k : (TermBuilder.new.coef e.2).build.monomial.key = Key.one := rfl
    rw [h1k, hφ.map_one]
    have h2k : t.coef = 1 := rfl
    have h3k : (TermBuilder.new.coef e.2).build.coef = e.2 := rfl
    rw [h2k, h3k]
    simp only [List.map_append, List.map_cons, List.map_nil, List.sum_append, List.sum_cons,
      List.sum_nil, add_zero, zsmul_eq_mul, Int.cast_one, mul_one, one_mul]
    ring

end Subst

/-! ### Truncated powers -/

theorem omit_dvd {R : Type*} [CommRing R] (x y q : R) (c : ℤ × ℤ → R) {P Q : Poly} {N : ℤ}
    (h : P.omitHighOrderQ N = .ok Q) :
    q ^ (N + 1).toNat ∣ P.evalAt x y q c - Q.evalAt x y q c := by
  obtain ⟨_, _, _, h1⟩ := omitHighOrderQ_eq_ok h
  unfold evalAt
  rw [h1, lin_filter_add (Key.evalAt x y q c) P.entries (fun e => decide (e.1.qpow ≤ N)),
    add_sub_cancel_left]
  apply List.dvd_sum
  intro z hz
  simp only [List.mem_map, List.mem_filter, Bool.not_eq_true', decide_eq_false_iff_not, not_le] at hz
  obtain ⟨e, ⟨_, he⟩, rfl⟩ := hz
  rw [zsmul_eq_mul]
  refine Dvd.dvd.mul_left ?_ _
  unfold Key.evalAt
  refine Dvd.dvd.mul_right (Dvd.dvd.mul_left (pow_dvd_pow q ?_) _) _
  change _ ≤ e.1.qpow.toNat
  omega

theorem all_omit {S : Key → Prop} {P Q : Poly} {N : ℤ} (hP : P.All S)
    (h : P.omitHighOrderQ N = .ok Q) : Q.All (fun k => S k ∧ k.q ≤ N) := by
  obtain ⟨_, _, _, h1⟩ := omitHighOrderQ_eq_ok h
  intro e he
  rw [h1, List.mem_filter] at he
  exact ⟨hP e he.1, of_decide_eq_true he.2⟩

theorem powerOmit_spec {R : Type*} [CommRing R] (x y q : R) (c : ℤ × ℤ → R) {P Q : Poly} {n N : ℤ}
    (hP : P.All Key.Nonneg) (hN : 0 ≤ N) (h : P.powerOmitHighOrderQ n N = .ok Q) :
    Q.All (fun k => k.Nonneg ∧ k.q ≤ N) ∧
    q ^ (N + 1).toNat ∣ P.evalAt x y q c ^ n.toNat - Q.evalAt x y q c := by
  unfold powerOmitHighOrderQ at h
  simp only [Res.bind_eq_ok, rassert_eq_ok] at h
  obtain ⟨_, _, _, _, h⟩ := h
  have := foldlM_inv _ (fun pre Q => Q.All (fun k => k.Nonneg ∧ k.q ≤ N) ∧
    q ^ (N + 1).toNat ∣ P.evalAt x y q c ^ pre.length - Q.evalAt x y q c) (irange 0 n) one
    ⟨all_one (by simp [Key.one, Key.Nonneg, hN]), by
      rw [show one.evalAt x y q c = 1 from (lin_one _).trans (by simp [Key.evalAt, Key.one])]
      simp⟩ ?_ Q h
  · rw [length_irange] at this; simpa using this
  rintro pre a b b' _ ⟨hI1, hI2⟩ hb
  simp only [Res.bind_eq_ok] at hb
  obtain ⟨b1, hb1, hb2⟩ := hb
  have hbN : b.All Key.Nonneg := hI1.mono (fun _ h => h.1)
  have hb1A : b1.All Key.Nonneg := (MulFn.mul (mulFn_evalAt x y q c) hbN hP hb1).1
  refine ⟨all_omit hb1A hb2, ?_⟩
  have h1 := omit_dvd x y q c hb2
  have h2 := evalAt_mul x y q c hbN hP hb1
  rw [List.length_append, List.length_singleton, pow_succ]
  have h3 : P.evalAt x y q c ^ pre.length * P.evalAt x y q c - b'.evalAt x y q c =
      (P.evalAt x y q c ^ pre.length - b.evalAt x y q c) * P.evalAt x y q c +
      (b1.evalAt x y q c - b'.evalAt x y q c) := by rw [h2]; ring
  rw [h3]
  exact dvd_add (Dvd.dvd.mul_right hI2 _) h1

theorem powerOmit_ok {P : Poly} {n N m : ℤ}
    (hP : P.All (fun k => k.x = 0 ∧ k.y = 0 ∧ 0 ≤ k.q ∧ k.q ≤ m ∧ k.v = none))
    (hN : 0 ≤ N) (hN' : N + 1 ≤ 2147483647) (hNm : N + m ≤ 2147483647) :
    ∃ Q, P.powerOmitHighOrderQ n N = .ok Q ∧
      Q.All (fun k => k.x = 0 ∧ k.y = 0 ∧ 0 ≤ k.q ∧ k.q ≤ N ∧ k.v = none) := by
  unfold powerOmitHighOrderQ
  have hx : P.hasX = false := hasX_eq_false.2 (fun e he => (hP e he).1)
  have hy : P.hasY = false := hasY_eq_false.2 (fun e he => (hP e he).2.1)
  rw [hx, hy]
  simp only [Bool.not_false, rassert_true, Res.ok_bind]
  refine foldlM_total _ (fun _ Q => Q.All (fun k => k.x = 0 ∧ k.y = 0 ∧ 0 ≤ k.q ∧ k.q ≤ N ∧ k.v = none))
    (irange 0 n) one (all_one (by simp [Key.one, hN])) ?_
  intro pre a b _ hb
  obtain ⟨c, hc⟩ := mul_ok (a := b) (b := P) (fun ie hi je hj => by
    obtain ⟨h1, h2, h3, h4, h5⟩ := hb ie hi
    obtain ⟨g1, g2, g3, g4, g5⟩ := hP je hj
    refine ⟨Or.inl h5, ?_, ?_, ?_⟩ <;> constructor <;> omega)
  have hcA : c.All (fun k => k.x = 0 ∧ k.y = 0 ∧ 0 ≤ k.q ∧ k.v = none) :=
    all_mul hb hP (by
      rintro k k' ⟨h1, h2, h3, h4, h5⟩ ⟨g1, g2, g3, g4, g5⟩ _
      refine ⟨?_, ?_, ?_, ?_⟩ <;> simp only [Key.mul]
      · omega
      · omega
      · omega
      · simp [h5, g5]) hc
  obtain ⟨d, hd⟩ := omitHighOrderQ_ok (P := c) (N := N) (fun e he => (hcA e he).1)
    (fun e he => (hcA e he).2.1) ⟨by omega, by omega⟩
  refine ⟨d, ?_, ?_⟩
  · simp only [mulAssign, hc, Res.ok_bind, hd]
  · refine (all_omit hcA hd).mono ?_
    rintro k ⟨⟨h1, h2, h3, h4⟩, h5⟩
    exact ⟨h1, h2, h3, h5, h4⟩

end Poly
end EC
