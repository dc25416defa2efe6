import Verif.Lemmas.RootsFp
import Verif.Lemmas.Fuel
import Verif.Props.Modular
import Verif.Props.PolyDiv
import Verif.Props.Curve

/-! Properties C55, C56: the result of `sea`; and C39 in terms of evaluation. -/

namespace EC
open Poly Polynomial

/-! ### The modular polynomial as a function -/

theorem linComb_coeff (g : Key →₀ ℤ) (k : Key) :
    (Finsupp.linearCombination ℤ Key.val g).coeff k.expo = g k := by
  induction g using Finsupp.induction_linear with
  | zero => simp
  | add f g hf hg => rw [map_add, AddMonoidAlgebra.coeff_add, Finsupp.add_apply, hf, hg, Finsupp.add_apply]
  | single a b =>
    simp only [Finsupp.linearCombination_single, Key.val, AddMonoidAlgebra.smul_single, AddMonoidAlgebra.coeff_single,
      Finsupp.single_apply, Key.expo_injective.eq_iff]
    split_ifs <;> simp

theorem lin_of_val {M : Type*} [AddCommGroup M] (φ : Key → M) {f : Poly} {g : Key →₀ ℤ}
    (h : f.val = Finsupp.linearCombination ℤ Key.val g) : f.lin φ = Finsupp.linearCombination ℤ φ g := by
  have : f.fs = g := by
    ext k; rw [← val_coeff, h, linComb_coeff]
  rw [lin_eq_fs, this]

/-- The key `x^i y^j`. -/
def kxy (i j : ℤ) : Key := ⟨i, j, 0, none⟩

theorem kxy_val (i j : ℤ) : (kxy i j).val = mono i j 0 := rfl

/-- The stored terms of `modularShape`. -/
noncomputable def shapeFs (p : ℕ) (c : ℕ → ℕ → ℤ) : Key →₀ ℤ :=
  Finsupp.single (kxy (p + 1) 0) 1 + Finsupp.single (kxy 0 (p + 1)) 1 +
    ∑ i ∈ Finset.range (p + 1), Finsupp.single (kxy i i) (c i i) +
    ∑ i ∈ Finset.range (p + 1), ∑ j ∈ Finset.Ico (i + 1) (p + 1),
      (Finsupp.single (kxy i j) (c i j) + Finsupp.single (kxy j i) (c i j))

theorem shapeFs_val (p : ℕ) (c : ℕ → ℕ → ℤ) :
    modularShape p c = Finsupp.linearCombination ℤ Key.val (shapeFs p c) := by
  unfold modularShape shapeFs
  simp only [map_add, map_sum, Finsupp.linearCombination_single, kxy_val, one_smul, smul_add]

theorem evalAt_of_shape {p : ℕ} {f : Poly} {c : ℕ → ℕ → ℤ} (hc : f.val = modularShape p c)
    {R : Type} [CommRing R] (x y q : R) (v : ℤ × ℤ → R) : f.evalAt x y q v = modularAt p c x y := by
  rw [evalAt_eq_lin, lin_of_val _ (hc.trans (shapeFs_val p c))]
  unfold shapeFs modularAt
  simp only [map_add, map_sum, Finsupp.linearCombination_single, one_smul, smul_add]
  have e : ∀ i j : ℕ, (kxy i j).evalAt x y q v = x ^ i * y ^ j := by
    intro i j; simp [kxy, Key.evalAt]
  have e1 : (kxy ((p : ℤ) + 1) 0).evalAt x y q v = x ^ (p + 1) := by
    have := e (p + 1) 0; push_cast at this; rw [this]; simp
  have e2 : (kxy 0 ((p : ℤ) + 1)).evalAt x y q v = y ^ (p + 1) := by
    have := e 0 (p + 1); push_cast at this; rw [this]; simp
  simp only [e, e1, e2]

/-- C39: the value of the result of `modular_polynomial(p)` in any commutative ring. -/
theorem C39_value (p : ℕ) (f : Poly) (h : modularPolynomial p = .ok f) :
    ∃ c : ℕ → ℕ → ℤ, f.val = modularShape p c ∧ ∀ (R : Type) [CommRing R] (x y q : R) (v : ℤ × ℤ → R),
      f.evalAt x y q v = modularAt p c x y := by
  obtain ⟨-, c, hc⟩ := C39_shape p f h
  exact ⟨c, hc, fun R _ x y q v => evalAt_of_shape hc x y q v⟩

/-- C39: the stored terms of the result are `x^i y^j` with `0 ≤ i, j ≤ p + 1`. -/
theorem C39_terms (p : ℕ) (f : Poly) (h : modularPolynomial p = .ok f) :
    ∀ e ∈ f.entries, 0 ≤ e.1.xpow ∧ e.1.xpow ≤ p + 1 ∧ 0 ≤ e.1.ypow ∧ e.1.ypow ≤ p + 1 ∧ e.1.qpow = 0 ∧
      e.1.var.empty = true := by
  suffices hs : f.All (fun k => 0 ≤ k.x ∧ k.x ≤ p + 1 ∧ 0 ≤ k.y ∧ k.y ≤ p + 1 ∧ k.q = 0 ∧ k.v = none) by
    intro e he
    obtain ⟨h1, h2, h3, h4, h5, h6⟩ := hs e he
    exact ⟨h1, h2, h3, h4, h5, SubVar.key_eq_none.1 h6⟩
  obtain ⟨hp, h2, hb⟩ := modularPolynomial_prime h
  simp only [Int.toNat_natCast] at hp
  unfold modularPolynomial at h
  obtain ⟨list, -, h⟩ := Res.bind_eq_ok.1 h
  rw [new_vis hp, Res.ok_bind, count_vis (show p ≤ 46340 by omega), Res.ok_bind] at h
  obtain ⟨A, -, h⟩ := Res.bind_eq_ok.1 h
  obtain ⟨B, -, h⟩ := Res.bind_eq_ok.1 h
  obtain ⟨P, hP, h⟩ := Res.bind_eq_ok.1 h
  obtain ⟨p1, hp1, h⟩ := Res.bind_eq_ok.1 h
  rw [chk_eq_ok] at hp1
  simp only [Res.ok.injEq] at h
  subst h
  have hPA : P.All (fun k => 0 ≤ k.x ∧ k.x ≤ p + 1 ∧ 0 ≤ k.y ∧ k.y ≤ p + 1 ∧ k.q = 0 ∧ k.v = none) := by
    refine foldlM_inv _ (fun _ (P : Poly) => P.All (fun k => 0 ≤ k.x ∧ k.x ≤ p + 1 ∧ 0 ≤ k.y ∧ k.y ≤ p + 1 ∧ k.q = 0 ∧ k.v = none))
      _ _ all_new ?_ P hP
    intro _ i b b' hi hb' hs
    rw [List.mem_range, Nat.add_sub_cancel] at hi
    unfold modularAssemble at hs
    rw [variableFromIndex_vis (by omega) hi, Res.ok_bind] at hs
    simp only [Res.ok.injEq] at hs
    subst hs
    obtain ⟨u, v, huv, hv, e⟩ := mem_vis.1 (getD_vis_mem hi)
    rw [e]
    dsimp only
    split_ifs
    · refine all_addAssignTerm (all_addAssignTerm hb' ?_) ?_ <;>
        simp [TermBuilder.new, TermBuilder.coef, TermBuilder.xpow, TermBuilder.ypow, TermBuilder.build, Monomial.key, SubVar.key, SubVar.new] <;> omega
    · refine all_addAssignTerm hb' ?_
      simp [TermBuilder.new, TermBuilder.coef, TermBuilder.xpow, TermBuilder.ypow, TermBuilder.build, Monomial.key, SubVar.key, SubVar.new]
      omega
  refine all_addAssignTerm (all_addAssignTerm hPA ?_) ?_ <;>
    simp [TermBuilder.new, TermBuilder.xpow, TermBuilder.ypow, TermBuilder.build, Monomial.key, SubVar.key, SubVar.new, hp1.2] <;> omega

/-! ### Roots in GF(p) -/

section roots
variable {n : ℕ} [Fact n.Prime]

theorem frob_roots : (X ^ n - X : (ZMod n)[X]).roots = Finset.univ.val := by
  have := FiniteField.roots_X_pow_card_sub_X (ZMod n)
  rwa [ZMod.card] at this

/-- A monic divisor of `x^p - x` has as many roots in GF(p) as its degree. -/
theorem card_roots_of_dvd_frob {g : (ZMod n)[X]} (hg : g ≠ 0) (hd : g ∣ X ^ n - X) :
    (Finset.univ.filter fun x : ZMod n => g.eval x = 0).card = g.natDegree := by
  have h1 := FiniteField.X_pow_card_sub_X_natDegree_eq (ZMod n) (Fact.out (p := n.Prime)).one_lt
  have h0 : (X ^ n - X : (ZMod n)[X]) ≠ 0 := FiniteField.X_pow_card_sub_X_ne_zero _ (Fact.out (p := n.Prime)).one_lt
  have hs : (X ^ n - X : (ZMod n)[X]).Splits := by
    rw [splits_iff_card_roots, frob_roots, h1]
    simp [ZMod.card]
  have hgs : g.Splits := hs.of_dvd h0 hd
  have hnd : g.roots.Nodup := Multiset.nodup_of_le (Polynomial.roots.le_of_dvd h0 hd) (by rw [frob_roots]; exact Finset.univ.nodup)
  have : (Finset.univ.filter fun x : ZMod n => g.eval x = 0) = g.roots.toFinset := by
    ext x; simp [hg]
  rw [this, Multiset.toFinset_card_of_nodup hnd, splits_iff_card_roots.1 hgs]

/-- Counting in `{0, ..., p-1}` and in GF(p). -/
theorem length_filter_range (P : ZMod n → Prop) [DecidablePred P] :
    ((List.range n).filter fun k : ℕ => decide (P (k : ZMod n))).length = (Finset.univ.filter P).card := by
  have hinj : ∀ a ∈ List.range n, ∀ b ∈ List.range n, (a : ZMod n) = (b : ZMod n) → a = b := by
    intro a ha b hb h
    rw [List.mem_range] at ha hb
    rw [ZMod.natCast_eq_natCast_iff'] at h
    rwa [Nat.mod_eq_of_lt ha, Nat.mod_eq_of_lt hb] at h
  set L := (List.range n).filter fun k : ℕ => decide (P (k : ZMod n)) with hL
  have hsub : ∀ a ∈ L, a ∈ List.range n := fun a ha => List.mem_of_mem_filter ha
  have hnd : (L.map (fun k : ℕ => (k : ZMod n))).Nodup :=
    List.Nodup.map_on (fun a ha b hb h => hinj a (hsub a ha) b (hsub b hb) h) (List.nodup_range.filter _)
  have : Finset.univ.filter P = (L.map (fun k : ℕ => (k : ZMod n))).toFinset := by
    ext x
    have : NeZero n := ⟨(Fact.out (p := n.Prime)).ne_zero⟩
    simp only [Finset.mem_filter, Finset.mem_univ, true_and, List.mem_toFinset, List.mem_map, hL, List.mem_filter,
      List.mem_range, decide_eq_true_eq]
    constructor
    · intro h
      exact ⟨x.val, ⟨ZMod.val_lt x, by rwa [ZMod.natCast_zmod_val]⟩, ZMod.natCast_zmod_val x⟩
    · rintro ⟨k, ⟨-, h⟩, rfl⟩; exact h
  rw [this, List.toFinset_card_of_nodup hnd, List.length_map]

end roots

/-! ### The search for the roots -/

theorem sea_test {p : ℤ} (hp : 0 < p) {g : Poly} (hg : g.All Key.IsX) (x : ℤ) :
    ∃ t, (g.evalX x).modularAssign p = .ok t ∧
      (t.isZero = true ↔ (g.polyX (ZMod p.toNat)).eval (x : ZMod p.toNat) = 0) := by
  obtain ⟨t, h1, h2⟩ := modularAssign_ok (g.evalX x) hp
  refine ⟨t, h1, ?_⟩
  have hA : (g.evalX x).All (fun k => k = Key.one) := all_evalX x hg (fun k hk => by
    obtain ⟨a, b, c, d⟩ := k
    obtain ⟨-, h2, h3, h4⟩ := hk
    simp only at h2 h3 h4
    subst h2 h3 h4; rfl)
  have hX : t.All Key.IsX := (h2.all hA).mono (fun k hk => by rw [hk]; exact ⟨le_rfl, rfl, rfl, rfl⟩)
  have key : t.polyX (ZMod p.toNat) = C ((g.polyX (ZMod p.toNat)).eval (x : ZMod p.toNat)) := by
    rw [polyX_modOf hp.le h2]
    have h3 := (C22_eval_x g (fun e he => (hg e he).1) x).2 (ZMod p.toNat)[X] X 0 0 0
    unfold polyX
    rw [h3]
    have h4 := evalAt_map ((C : (ZMod p.toNat) →+* (ZMod p.toNat)[X]).comp (evalRingHom (x : ZMod p.toNat)))
      (X : (ZMod p.toNat)[X]) 0 0 0 g
    simp only [RingHom.comp_apply, coe_evalRingHom, eval_X, eval_zero, map_zero, Pi.zero_apply] at h4
    rw [h4]
    congr 1
  rw [isZero_iff]
  constructor
  · intro h
    rw [polyX_eq_zero_of_nil h] at key
    exact (C_eq_zero.1 key.symm)
  · intro h
    rw [h, C_0] at key
    exact (polyX_eq_zero_iff hp hX h2.canon (h2.reduced hp)).1 key

theorem seaRoots_spec {p : ℤ} (hp : 0 < p) {g : Poly} (hg : g.All Key.IsX) (d : ℤ) (l acc : List ℤ)
    (h1 : (acc.length : ℤ) < d) (h2 : acc.length < 2) :
    seaRoots p g d l acc = .ok (acc ++ (l.filter fun x : ℤ =>
      decide ((g.polyX (ZMod p.toNat)).eval (x : ZMod p.toNat) = 0)).take (min d.toNat 2 - acc.length)) := by
  induction l generalizing acc with
  | nil => simp [seaRoots]
  | cons x t ih =>
    obtain ⟨u, e1, e2⟩ := sea_test hp hg x
    unfold seaRoots
    rw [e1, Res.ok_bind]
    by_cases hz : (g.polyX (ZMod p.toNat)).eval (x : ZMod p.toNat) = 0
    · rw [if_pos (e2.2 hz), List.filter_cons_of_pos (by simpa using hz)]
      dsimp only
      obtain ⟨k, hk⟩ : ∃ k, min d.toNat 2 - acc.length = k + 1 := ⟨min d.toNat 2 - acc.length - 1, by omega⟩
      rw [hk, List.take_succ_cons]
      split_ifs with h3
      · rw [List.length_append, List.length_singleton] at h3
        have : k = 0 := by omega
        subst this; simp
      · rw [List.length_append, List.length_singleton] at h3
        push Not at h3
        rw [ih _ (by rw [List.length_append, List.length_singleton]; omega)
          (by rw [List.length_append, List.length_singleton]; omega), List.append_assoc, List.length_append, List.length_singleton]
        simp only [List.singleton_append]
        rw [show min d.toNat 2 - (acc.length + 1) = k by omega]
    · rw [if_neg (fun h => hz (e2.1 h)), List.filter_cons_of_neg (by simpa using hz)]
      exact ih acc h1 h2

/-! ### C55, C56 -/

/-- `Φ_l(x, j)` is monic of degree `l + 1` in `x`. -/
theorem modularAt_monic {R : Type} [CommRing R] [Nontrivial R] (l : ℕ) (c : ℕ → ℕ → ℤ) (j : R) (hl : 1 ≤ l) :
    (modularAt l c (X : R[X]) (C j)).Monic ∧ (modularAt l c (X : R[X]) (C j)).natDegree = l + 1 := by
  have hdeg : ∀ i k : ℕ, i ≤ l → (X ^ i * (C j) ^ k : R[X]).degree ≤ l := by
    intro i k hi
    rw [← C_pow, mul_comm]
    exact (degree_C_mul_X_pow_le i _).trans (by exact_mod_cast hi)
  have hsm : ∀ (z : ℤ) (P : R[X]), P.degree ≤ l → (z • P).degree ≤ l := fun z P h => (degree_smul_le _ _).trans h
  set S : R[X] := C j ^ (l + 1) + ∑ i ∈ Finset.range (l + 1), c i i • (X ^ i * C j ^ i) +
    ∑ i ∈ Finset.range (l + 1), ∑ k ∈ Finset.Ico (i + 1) (l + 1), c i k • (X ^ i * C j ^ k + X ^ k * C j ^ i) with hS
  have hSd : S.degree ≤ l := by
    refine (degree_add_le _ _).trans (max_le ((degree_add_le _ _).trans (max_le ?_ ?_)) ?_)
    · rw [← C_pow]; exact degree_C_le.trans (by exact_mod_cast Nat.zero_le l)
    · refine (degree_sum_le _ _).trans (Finset.sup_le fun i hi => hsm _ _ (hdeg _ _ ?_))
      rw [Finset.mem_range] at hi; omega
    · refine (degree_sum_le _ _).trans (Finset.sup_le fun i hi => (degree_sum_le _ _).trans (Finset.sup_le fun k hk => hsm _ _ ?_))
      rw [Finset.mem_range] at hi
      rw [Finset.mem_Ico] at hk
      exact (degree_add_le _ _).trans (max_le (hdeg _ _ (by omega)) (hdeg _ _ (by omega)))
  have e : modularAt l c (X : R[X]) (C j) = X ^ (l + 1) + S := by
    unfold modularAt; rw [hS]; ring
  have hlt : S.degree < ((l + 1 : ℕ) : WithBot ℕ) := lt_of_le_of_lt hSd (by exact_mod_cast Nat.lt_succ_self l)
  rw [e]
  exact ⟨monic_X_pow_add hlt, by
    rw [natDegree_add_eq_left_of_degree_lt (by rw [degree_X_pow]; exact hlt), natDegree_X_pow]⟩

/-- The polynomial whose gcd with `x^p - x` is taken. -/
theorem sea_pol (ec : EllipticCurve) [Fact (Nat.Prime ec.p.toNat)] (l : ℕ) (Φ : Poly) (j : ℤ)
    (hΦ : modularPolynomial l = .ok Φ) (hi : ec.p ≤ 2147483647) :
    ∃ m1 m3, Φ.modularAssign ec.p = .ok m1 ∧ (m1.evalY j).modularAssign ec.p = .ok m3 ∧ UniOK ec.p m3 ∧
      m3.polyX (ZMod ec.p.toNat) = Φ.evalAt X (C (j : ZMod ec.p.toNat)) 0 0 := by
  have hp2 := two_le_of_prime (p := ec.p) Fact.out
  have hp : 0 < ec.p := by omega
  have hT : Φ.All (fun k => 0 ≤ k.x ∧ k.x ≤ l + 1 ∧ 0 ≤ k.y ∧ k.y ≤ l + 1 ∧ k.q = 0 ∧ k.v = none) := by
    intro e he
    obtain ⟨h1, h2, h3, h4, h5, h6⟩ := C39_terms l Φ hΦ e he
    exact ⟨h1, h2, h3, h4, h5, SubVar.key_eq_none.2 h6⟩
  obtain ⟨hlp, -, hlb⟩ := modularPolynomial_prime hΦ
  obtain ⟨m1, e1, o1⟩ := modularAssign_ok Φ hp
  obtain ⟨m3, e3, o3⟩ := modularAssign_ok (m1.evalY j) hp
  have hT1 := o1.all hT
  have hT2 : (m1.evalY j).All (fun k => k.IsX ∧ k.x ≤ l + 1) :=
    all_evalY j hT1 fun k hk => ⟨⟨hk.1, rfl, hk.2.2.2.2.1, hk.2.2.2.2.2⟩, hk.2.1⟩
  have hT3 := o3.all hT2
  have hX3 : m3.All Key.IsX := hT3.mono fun _ h => h.1
  have hpoly : m3.polyX (ZMod ec.p.toNat) = Φ.evalAt X (C (j : ZMod ec.p.toNat)) 0 0 := by
    rw [polyX_modOf hp.le o3]
    have h3 := (C22_eval_y m1 (fun e he => (hT1 e he).2.2.1) j).2 (ZMod ec.p.toNat)[X] X 0 0 0
    unfold polyX
    rw [h3, evalAt_eq_lin, evalAt_eq_lin, o1.lin _ (char_smul hp.le)]
    simp
  refine ⟨m1, m3, e1, e3, ⟨hX3, ?_, ?_⟩, hpoly⟩
  · refine highest_coef_ne hp o3.canon (o3.reduced hp) ?_
    intro h0
    have h4 := polyX_eq_zero_of_nil (R := ZMod ec.p.toNat) h0
    obtain ⟨c, -, hc⟩ := C39_value l Φ hΦ
    rw [hpoly, hc] at h4
    exact (modularAt_monic l c (j : ZMod ec.p.toNat) (by rw [Int.toNat_natCast] at hlp; exact hlp.pos)).1.ne_zero h4
  · refine deg_le_of_forall (m := 2147483647) fun e he => ?_
    have := (hT3 e he).2
    simp only [Monomial.key] at this
    push_cast
    omega

theorem eval_phi {n : ℕ} (Φ : Poly) (x y : ZMod n) :
    (Φ.evalAt (X : (ZMod n)[X]) (C y) 0 0).eval x = Φ.evalAt x y 0 0 := by
  have h4 := evalAt_map (evalRingHom x) (X : (ZMod n)[X]) (C y) 0 0 Φ
  simp only [coe_evalRingHom, eval_X, eval_zero, eval_C, Pi.zero_apply] at h4
  exact h4

theorem irange_zero_eq (p : ℤ) : irange 0 p = (List.range p.toNat).map (fun n : ℕ => (n : ℤ)) := by
  unfold irange; simp

/-- C55: let `p` be a prime (in `i32`), `j` the j-invariant of the curve and `Φ` the modular polynomial of `l`.  If
`Φ(x, j)` has a root in GF(p), `sea` returns: the gcd is the monic gcd of `x^p - x` and `Φ(x, j)`, the
degree is its degree, which is the number of roots, the prime is an Elkies prime, and the listed
j-invariants are the (at most) two smallest roots in ascending order. -/
theorem C55_sea (ec : EllipticCurve) (hp : Nat.Prime ec.p.toNat) (hi : ec.p ≤ 2147483647) (l : ℕ) (Φ : Poly) (j : ℤ)
    (hΦ : modularPolynomial l = .ok Φ) (hj : ec.jInvariant = .ok j)
    (hroot : ∃ x : ZMod ec.p.toNat, Φ.evalAt x (j : ZMod ec.p.toNat) 0 0 = 0) :
    ∃ r, Returns (fun fuel => sea fuel ec l) r ∧
      (r.gcd.polyX (ZMod ec.p.toNat)).Monic ∧
      (∀ e : (ZMod ec.p.toNat)[X], e ∣ r.gcd.polyX (ZMod ec.p.toNat) ↔
        e ∣ X ^ ec.p.toNat - X ∧ e ∣ Φ.evalAt X (C (j : ZMod ec.p.toNat)) 0 0) ∧
      r.gcd.Reduced ec.p ∧ r.gcd.Canon ∧ r.gcd.All Key.IsX ∧
      r.degreeOfGcd = (r.gcd.polyX (ZMod ec.p.toNat)).natDegree ∧
      r.degreeOfGcd = ((List.range ec.p.toNat).filter fun n : ℕ =>
        decide (Φ.evalAt (n : ZMod ec.p.toNat) (j : ZMod ec.p.toNat) 0 0 = 0)).length ∧
      r.isElkiesPrime = true ∧
      r.isogenyJInvariants = (((List.range ec.p.toNat).filter fun n : ℕ =>
        decide (Φ.evalAt (n : ZMod ec.p.toNat) (j : ZMod ec.p.toNat) 0 0 = 0)).take 2).map (fun n : ℕ => (n : ℤ)) := by
  have : Fact (Nat.Prime ec.p.toNat) := ⟨hp⟩
  have hp2 := two_le_of_prime hp
  obtain ⟨m1, m3, e1, e3, hU, hpoly⟩ := sea_pol ec l Φ j hΦ hi
  set F := Φ.evalAt X (C (j : ZMod ec.p.toNat)) 0 0 with hF
  obtain ⟨hfU, hfd⟩ := UniOK_frobPol ec.p hp2 hi
  have hco : ¬ IsCoprime ((frobPol ec.p).polyX (ZMod ec.p.toNat)) (m3.polyX (ZMod ec.p.toNat)) := by
    rw [frobPol_polyX _ hp2, hpoly, isCoprime_comm, isCoprime_frob_iff]
    obtain ⟨x, hx⟩ := hroot
    intro h
    exact h x (by rw [hF, eval_phi]; exact hx)
  obtain ⟨g, h1, hgX, hgC, hgR, hgM, -, hgA⟩ := gcd_spec hp2 _ _ _ hfU hU le_rfl hco
  rw [frobPol_polyX _ hp2, hpoly] at hgA hco
  have hdvd : ∀ e : (ZMod ec.p.toNat)[X], e ∣ g.polyX (ZMod ec.p.toNat) ↔ e ∣ X ^ ec.p.toNat - X ∧ e ∣ F := by
    intro e
    rw [hgA.dvd_iff_dvd_right]
    exact ⟨fun h => ⟨h.trans (EuclideanDomain.gcd_dvd_left _ _), h.trans (EuclideanDomain.gcd_dvd_right _ _)⟩,
      fun h => EuclideanDomain.dvd_gcd h.1 h.2⟩
  have hgd := (hdvd _).1 dvd_rfl
  -- the roots of the gcd are the roots of `F`
  have hrt : ∀ x : ZMod ec.p.toNat, (g.polyX (ZMod ec.p.toNat)).eval x = 0 ↔ Φ.evalAt x (j : ZMod ec.p.toNat) 0 0 = 0 := by
    intro x
    rw [← eval_phi Φ, ← hF]
    change (g.polyX (ZMod ec.p.toNat)).IsRoot x ↔ F.IsRoot x
    rw [← dvd_iff_isRoot, ← dvd_iff_isRoot, hdvd]
    refine and_iff_right ?_
    rw [dvd_iff_isRoot]
    simp only [IsRoot.def, eval_sub, eval_pow, eval_X, ZMod.pow_card, sub_self]
  have hlen : ((List.range ec.p.toNat).filter fun n : ℕ =>
        decide (Φ.evalAt (n : ZMod ec.p.toNat) (j : ZMod ec.p.toNat) 0 0 = 0)).length =
      (g.polyX (ZMod ec.p.toNat)).natDegree := by
    rw [length_filter_range (fun x : ZMod ec.p.toNat => Φ.evalAt x (j : ZMod ec.p.toNat) 0 0 = 0),
      ← card_roots_of_dvd_frob hgM.ne_zero hgd.1]
    congr 1
    ext x
    simp only [Finset.mem_filter, Finset.mem_univ, true_and, hrt]
  have hpos : 0 < (g.polyX (ZMod ec.p.toNat)).natDegree := by
    rw [← hlen, List.length_pos_iff]
    obtain ⟨x, hx⟩ := hroot
    have : NeZero ec.p.toNat := ⟨hp.ne_zero⟩
    refine List.ne_nil_of_mem (a := x.val) (List.mem_filter.2 ⟨List.mem_range.2 (ZMod.val_lt x), ?_⟩)
    rw [ZMod.natCast_zmod_val]; simpa using hx
  have hg0 : g.isZero = false := by
    by_contra h3
    exact hgM.ne_zero (polyX_eq_zero_of_nil (isZero_iff.1 (by simpa using h3)))
  have hlead : ((g.highestTermX.coef : ℤ) : ZMod ec.p.toNat) ≠ 0 :=
    highest_coef_ne (by omega) hgC hgR (fun h => by rw [isZero_iff.2 h] at hg0; simp at hg0)
  have hdeg : g.degreeX = .ok ((g.polyX (ZMod ec.p.toNat)).natDegree : ℤ) := by
    unfold degreeX
    rw [hasY_of_isX hgX, hasQ_of_isX hgX]
    simp only [Bool.not_false, rassert_true, Res.ok_bind, hg0]
    rw [highest_xpow hgX, (polyX_natDegree hgX hlead).1]; rfl
  have hroots : seaRoots ec.p g ((g.polyX (ZMod ec.p.toNat)).natDegree : ℤ) (irange 0 ec.p) [] =
      .ok ((((List.range ec.p.toNat).filter fun n : ℕ =>
        decide (Φ.evalAt (n : ZMod ec.p.toNat) (j : ZMod ec.p.toNat) 0 0 = 0)).take 2).map (fun n : ℕ => (n : ℤ))) := by
    rw [seaRoots_spec (by omega) hgX _ _ _ (by simpa using hpos) (by simp), irange_zero_eq, List.filter_map]
    simp only [List.nil_append, List.length_nil, Nat.sub_zero, Int.toNat_natCast, ← List.map_take]
    congr 2
    have : ((fun x : ℤ => decide ((g.polyX (ZMod ec.p.toNat)).eval (x : ZMod ec.p.toNat) = 0)) ∘ fun n : ℕ => (n : ℤ)) =
        fun n : ℕ => decide (Φ.evalAt (n : ZMod ec.p.toNat) (j : ZMod ec.p.toNat) 0 0 = 0) := by
      funext n
      simp only [Function.comp, Int.cast_natCast, hrt]
    rw [this]
    rcases le_total 2 (g.polyX (ZMod ec.p.toNat)).natDegree with h | h
    · rw [min_eq_right h]
    · rw [min_eq_left h, ← hlen, List.take_of_length_le le_rfl, List.take_of_length_le (by omega)]
  refine ⟨⟨g, (g.polyX (ZMod ec.p.toNat)).natDegree, true, _⟩, ⟨(frobPol ec.p).deg + 2 * m3.deg + 2, fun fuel hf => ?_⟩, hgM, hdvd, hgR, hgC, hgX, rfl, by
    rw [hlen], rfl, rfl⟩
  have hgcd := h1 fuel hf
  unfold frobPol at hgcd
  dsimp only
  unfold sea seaWith
  rw [hΦ, Res.ok_bind, e1, Res.ok_bind, hj, Res.ok_bind]
  dsimp only
  rw [e3, Res.ok_bind, if_neg (by
    rw [not_not]; exact ⟨by omega, hi⟩)]
  rw [hgcd, Res.ok_bind, hdeg, Res.ok_bind, show decide (((g.polyX (ZMod ec.p.toNat)).natDegree : ℤ) > 0) = true by simpa using hpos]
  rw [if_pos rfl, hroots, Res.ok_bind]

/-- C56 is false: for an Atkin prime `l`, where `Φ(x, j)` has no root in GF(p), `sea` never returns. -/
theorem C56_atkin_refuted (ec : EllipticCurve) (hp : Nat.Prime ec.p.toNat) (hi : ec.p ≤ 2147483647) (l : ℕ) (Φ : Poly)
    (j : ℤ) (hΦ : modularPolynomial l = .ok Φ) (hj : ec.jInvariant = .ok j)
    (hroot : ∀ x : ZMod ec.p.toNat, Φ.evalAt x (j : ZMod ec.p.toNat) 0 0 ≠ 0) :
    Diverges (fun fuel => sea fuel ec l) := by
  have : Fact (Nat.Prime ec.p.toNat) := ⟨hp⟩
  have hp2 := two_le_of_prime hp
  obtain ⟨m1, m3, e1, e3, hU, hpoly⟩ := sea_pol ec l Φ j hΦ hi
  intro fuel
  have hgcd : Poly.gcd fuel (frobPol ec.p) m3 ec.p = .timeout := by
    refine gcd_diverges hp2 fuel _ _ (UniOK_frobPol ec.p hp2 hi).1 hU ?_
    rw [frobPol_polyX _ hp2, hpoly, isCoprime_comm, isCoprime_frob_iff]
    intro x; rw [eval_phi]; exact hroot x
  unfold frobPol at hgcd
  dsimp only
  unfold sea seaWith
  rw [hΦ, Res.ok_bind, e1, Res.ok_bind, hj, Res.ok_bind]
  dsimp only
  rw [e3, Res.ok_bind, if_neg (by
    rw [not_not]; exact ⟨by omega, hi⟩)]
  rw [hgcd]; rfl

/-- Outside these conditions `sea` panics: `l` outside the domain of `modular_polynomial`, or a modulus that does
not fit in an `i32`. -/
theorem C55_panics (ec : EllipticCurve) (l : ℤ) (fuel : ℕ) :
    (∀ w, modularPolynomial l = .panic w → sea fuel ec l = .panic w) ∧
    (∀ Φ j, modularPolynomial l = .ok Φ → ec.jInvariant = .ok j → 2147483647 < ec.p →
      sea fuel ec l = .panic .unwrapNone) := by
  constructor
  · intro w h
    unfold sea; rw [h]; rfl
  · intro Φ j h hj hp
    unfold sea seaWith
    obtain ⟨m1, e1, -⟩ := modularAssign_ok Φ (show 0 < ec.p by omega)
    obtain ⟨m3, e3, -⟩ := modularAssign_ok (m1.evalY j) (show 0 < ec.p by omega)
    rw [h, Res.ok_bind, e1, Res.ok_bind, hj, Res.ok_bind]
    dsimp only
    rw [e3, Res.ok_bind, if_pos (fun h => by have := h.2; omega)]

/-- C55, C56: together: for a prime modulus in `i32`, `sea` returns exactly when `Φ(x, j)` has a root. -/
theorem C55_returns_iff (ec : EllipticCurve) (hp : Nat.Prime ec.p.toNat) (hi : ec.p ≤ 2147483647) (l : ℕ) (Φ : Poly)
    (j : ℤ) (hΦ : modularPolynomial l = .ok Φ) (hj : ec.jInvariant = .ok j) :
    (∃ r, Returns (fun fuel => sea fuel ec l) r) ↔
      ∃ x : ZMod ec.p.toNat, Φ.evalAt x (j : ZMod ec.p.toNat) 0 0 = 0 := by
  constructor
  · rintro ⟨r, N, hN⟩
    by_contra hx
    push Not at hx
    have := hN N le_rfl
    rw [C56_atkin_refuted ec hp hi l Φ j hΦ hj hx N] at this
    simp at this
  · intro hx
    obtain ⟨r, h, -⟩ := C55_sea ec hp hi l Φ j hΦ hj hx
    exact ⟨r, h⟩

/-- The curve `y^2 = x^3 + x` over GF(5). -/
def seaSample1 : EllipticCurve := ⟨1, 0, 5, curvePol 1 0, []⟩
/-- The curve `y^2 = x^3 + x + 1` over GF(5). -/
def seaSample2 : EllipticCurve := ⟨1, 1, 5, curvePol 1 1, []⟩

theorem phi2_at (f : Poly) (h : f.val = modularShape 2 phi2) (x y : ZMod 5) :
    f.evalAt x y 0 0 = x ^ 3 + y ^ 3 - x ^ 2 * y ^ 2 + 3 * (x ^ 2 * y + x * y ^ 2) := by
  rw [evalAt_of_shape h x y 0 0]
  have h5 : (5 : ZMod 5) = 0 := by decide
  have e1 : Finset.Ico (0 + 1) (2 + 1) = {1, 2} := rfl
  have e2 : Finset.Ico (1 + 1) (2 + 1) = {2} := rfl
  have e3 : Finset.Ico (2 + 1) (2 + 1) = ∅ := rfl
  simp only [modularAt, Finset.sum_range_succ, Finset.sum_range_zero, e1, e2, e3, Finset.sum_empty, Finset.sum_singleton,
    Finset.sum_pair (show 1 ≠ 2 by norm_num), phi2, zsmul_eq_mul]
  norm_num
  linear_combination (297 * (x ^ 2 * y + x * y ^ 2) - 32400 * (x ^ 2 + y ^ 2) + 8154675 * x * y + 1749600000 * (x + y) - 31492800000000) * h5

-- an Elkies prime: the two roots 1 and 3 are found
example : ∃ r, Returns (fun fuel => sea fuel seaSample1 2) r ∧ r.isogenyJInvariants = [1, 3] := by
  obtain ⟨Φ, h1, h2, -⟩ := C40_phi2
  have hj : seaSample1.jInvariant = .ok 3 := by decide +kernel
  have hx : ∀ x : ZMod 5, Φ.evalAt x ((3 : ℤ) : ZMod 5) 0 0 = 0 ↔ x = 1 ∨ x = 3 := by
    intro x
    rw [phi2_at Φ h2]
    revert x
    decide
  obtain ⟨r, hr, -, -, -, -, -, -, -, -, h⟩ := C55_sea seaSample1 (by decide) (by decide) 2 Φ 3 h1 hj
    ⟨(1 : ZMod 5), (hx 1).2 (.inl rfl)⟩
  refine ⟨r, hr, ?_⟩
  rw [h]
  have : (List.range seaSample1.p.toNat).filter (fun n : ℕ => decide (Φ.evalAt (n : ZMod seaSample1.p.toNat)
      ((3 : ℤ) : ZMod seaSample1.p.toNat) 0 0 = 0)) = [1, 3] := by
    have e : ∀ n : ℕ, decide (Φ.evalAt (n : ZMod 5) ((3 : ℤ) : ZMod 5) 0 0 = 0) =
        decide ((n : ZMod 5) = 1 ∨ (n : ZMod 5) = 3) := by
      intro n
      rw [decide_eq_decide, hx]
    have e' := List.filter_congr (l := List.range 5) fun n _ => e n
    have e2 : (List.range 5).filter (fun n : ℕ => decide ((n : ZMod 5) = 1 ∨ (n : ZMod 5) = 3)) = [1, 3] := by decide
    exact e'.trans e2
  rw [this]; rfl

-- an Atkin prime
example : Diverges (fun fuel => sea fuel seaSample2 2) := by
  obtain ⟨Φ, h1, h2, -⟩ := C40_phi2
  have hj : seaSample2.jInvariant = .ok 2 := by decide +kernel
  have hx : ∀ x : ZMod 5, Φ.evalAt x ((2 : ℤ) : ZMod 5) 0 0 ≠ 0 := by
    intro x
    rw [phi2_at Φ h2]
    revert x
    decide
  exact C56_atkin_refuted seaSample2 (by decide) (by decide) 2 Φ 2 h1 hj hx

end EC
