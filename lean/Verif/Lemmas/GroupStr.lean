import Verif.Lemmas.FrobKer

/-! Pure mathematics: the kernel of `F + v` has exactly `v^2 + v t + q` elements when `p ∤ v (v + t)`. -/

namespace EC
open WeierstrassCurve EDS Polynomial

section
variable {F : Type} [Field F] [DecidableEq F] [Fintype F] {a b : F}
variable (h2 : (2 : F) ≠ 0) (hd : 4 * a ^ 3 + 27 * b ^ 2 ≠ 0)

local notation "q" => Fintype.card F

theorem card_tors_closed {K : Type} [Field K] [DecidableEq K] [IsAlgClosed K] {A B : K} (h2 : (2 : K) ≠ 0)
    (hd : 4 * A ^ 3 + 27 * B ^ 2 ≠ 0) {n : ℕ} (hn : (n : K) ≠ 0) : Nat.card (tors (Pt A B) n) = n ^ 2 := by
  obtain ⟨s, hs, hsn⟩ := card_torsion h2 hd hn
  have key : ∀ P : Pt A B, P ∈ s ↔ P ∈ tors (Pt A B) n := by
    intro P
    refine ⟨fun h => mem_tors.2 (hsn P h), fun h => ?_⟩
    by_contra hP
    have := card_tors_le h2 hn (insert P s) (by
      intro Q hQ
      rcases Finset.mem_insert.1 hQ with rfl | hQ
      · exact mem_tors.1 h
      · exact hsn Q hQ)
    rw [Finset.card_insert_of_notMem hP, hs] at this
    omega
  have e : (tors (Pt A B) n : Set (Pt A B)) = (s : Set (Pt A B)) := Set.ext fun P => (key P).symm
  show Nat.card (tors (Pt A B) n : Set (Pt A B)) = _
  rw [e, Nat.card_eq_fintype_card]
  simpa using hs

variable {K : Type} [Field K] [DecidableEq K] [Algebra F K]

/-- `F + v`. -/
noncomputable def fv (v : ℤ) : EPt a b K →+ EPt a b K := frobK h2 hd K + zsmulAddGroupHom v

theorem fv_apply (v : ℤ) (P : EPt a b K) : fv h2 hd v P = frobK h2 hd K P + v • P := rfl

theorem fv_comp (v w : ℤ) (d : ℤ) (hw : w = -(v + trc a b)) (hdv : d = v ^ 2 + v * trc a b + q) (P : EPt a b K) :
    fv h2 hd v (fv h2 hd w P) = - (d • P) := by
  have h := frob_char (K := K) h2 hd P
  unfold charP at h
  have h' : frobK h2 hd K (frobK h2 hd K P) = trc a b • frobK h2 hd K P - (q : ℤ) • P := by
    rw [eq_sub_iff_add_eq, ← sub_eq_zero, ← h]; abel
  rw [fv_apply, fv_apply, map_add, map_zsmul, h', hw, hdv]
  module

theorem card_ker_ge [IsAlgClosed K] {c : K} (hc : Transcendental F c) (v : ℤ) (hv : (v : F) ≠ 0) {d : ℕ}
    (hdv : (d : ℤ) = v ^ 2 + v * trc a b + q) (hfin : Finite (fv h2 hd (K := K) v).ker) :
    d ≤ Nat.card (fv h2 hd (K := K) v).ker := by
  obtain ⟨s, hs, hsn⟩ := frob_add_ker_ge h2 hd hc v hv
  have e : s.card = d := by rw [← hdv] at hs; exact_mod_cast hs
  have h1 : Nat.card s = s.card := by simp
  rw [← e, ← h1]
  exact Nat.card_le_card_of_injective (fun x : s => (⟨x.1, AddMonoidHom.mem_ker.2 (hsn x.1 x.2)⟩ : (fv h2 hd (K := K) v).ker))
    fun x y h => Subtype.ext (Subtype.mk.inj h)

theorem ker_le_tors (v : ℤ) {d : ℕ} (hdv : (d : ℤ) = v ^ 2 + v * trc a b + q) :
    (fv h2 hd (K := K) v).ker ≤ tors (EPt a b K) d := by
  intro P hP
  have h := fv_comp (K := K) h2 hd (-(v + trc a b)) v (d : ℤ) (by ring) (by rw [hdv]; ring) P
  rw [AddMonoidHom.mem_ker.1 hP, map_zero] at h
  rw [mem_tors, ← natCast_zsmul]
  exact neg_eq_zero.1 h.symm

/-- `F + v` kills exactly `v^2 + v t + q` points. -/
theorem card_ker_fv [IsAlgClosed K] {c : K} (hc : Transcendental F c) (v : ℤ) (hv : (v : F) ≠ 0)
    (hvt : ((v + trc a b : ℤ) : F) ≠ 0) {d : ℕ} (hdv : (d : ℤ) = v ^ 2 + v * trc a b + q) :
    Nat.card (fv h2 hd (K := K) v).ker = d := by
  have hdF : (d : F) ≠ 0 := by
    have : (d : F) = v * (v + trc a b : ℤ) := by
      rw [← Int.cast_natCast, hdv]
      push_cast
      rw [FiniteField.cast_card_eq_zero]
      ring
    rw [this]
    exact mul_ne_zero hv hvt
  have hdK : (d : K) ≠ 0 := by
    rw [← map_natCast (algebraMap F K)]
    exact (_root_.map_ne_zero _).2 hdF
  have hd0 : 0 < d := Nat.pos_of_ne_zero (by rintro rfl; simp at hdF)
  have c1 := card_tors_closed (two_ne_ext h2 K) (disc_ext hd K) hdK
  have c2 := card_tors_closed (n := d * d) (two_ne_ext h2 K) (disc_ext hd K) (by push_cast; exact mul_ne_zero hdK hdK)
  have fin : Finite (tors (EPt a b K) d) := Nat.finite_of_card_ne_zero (by rw [c1]; positivity)
  have hdw : (d : ℤ) = (-(v + trc a b)) ^ 2 + (-(v + trc a b)) * trc a b + q := by rw [hdv]; ring
  have f1 : Finite (fv h2 hd (K := K) v).ker := Finite.of_injective _ (AddSubgroup.inclusion_injective (ker_le_tors h2 hd v hdv))
  have f2 : Finite (fv h2 hd (K := K) (-(v + trc a b))).ker :=
    Finite.of_injective _ (AddSubgroup.inclusion_injective (ker_le_tors h2 hd _ hdw))
  have g1 := card_ker_ge h2 hd hc v hv hdv f1
  have g2 := card_ker_ge h2 hd hc (-(v + trc a b)) (by push_cast at hvt ⊢; exact neg_ne_zero.2 hvt) hdw f2
  have ek : (-(fv h2 hd (K := K) (-(v + trc a b)))).ker = (fv h2 hd (K := K) (-(v + trc a b))).ker := by
    ext P
    rw [AddMonoidHom.mem_ker, AddMonoidHom.mem_ker, AddMonoidHom.neg_apply, neg_eq_zero]
  refine card_ker_eq hd0 c1 (c2.trans (by ring)) (fv h2 hd v) (-(fv h2 hd (K := K) (-(v + trc a b)))) ?_ ?_ g1 (by rw [ek]; exact g2)
  · intro P
    rw [AddMonoidHom.neg_apply, map_neg, fv_comp (K := K) h2 hd v _ (d : ℤ) rfl hdv, neg_neg, natCast_zsmul]
  · intro P
    rw [AddMonoidHom.neg_apply, fv_comp (K := K) h2 hd _ v (d : ℤ) (by ring) hdw, neg_neg, natCast_zsmul]

end

/-! The `m` of the group structure divides `q - 1`. -/

section
variable {F : Type} [Field F] [DecidableEq F] [Fintype F] {a b : F}
variable (h2 : (2 : F) ≠ 0) (hd : 4 * a ^ 3 + 27 * b ^ 2 ≠ 0)

local notation "q" => Fintype.card F

include h2 hd in
/-- If all `m`-torsion is rational (`m^2` points killed by `m`), `p ∤ m`, then `m^2` divides `v^2+vt+q` whenever
`m ∣ v + 1` and `p ∤ v (v + t)`. -/
theorem sq_dvd (m : ℕ) (hm : Nat.card (tors (Pt a b) m) = m ^ 2) (v : ℤ) (hmv : (m : ℤ) ∣ v + 1) (hv : (v : F) ≠ 0)
    (hvt : ((v + trc a b : ℤ) : F) ≠ 0) : (m : ℤ) ^ 2 ∣ v ^ 2 + v * trc a b + q := by
  let K := AlgebraicClosure (RatFunc F)
  let _ : DecidableEq K := Classical.decEq _
  have hx : Transcendental F (algebraMap (RatFunc F) K RatFunc.X) := by
    rw [transcendental_algebraMap_iff (algebraMap (RatFunc F) K).injective]
    refine RatFunc.transcendental_of_ne_C _ ?_
    rintro ⟨c, hc⟩
    have := congrArg ht hc
    rw [ht_X, ht_C] at this
    omega
  obtain ⟨s, hs, -⟩ := frob_add_ker_ge (a := a) (b := b) h2 hd hx v hv
  have hk := card_ker_fv (a := a) (b := b) h2 hd hx v hv hvt hs
  rw [← hs]
  suffices h : m ^ 2 ∣ s.card by exact_mod_cast h
  rw [← hk, ← hm]
  let g : Pt a b →+ EPt a b K := extHom (a := a) (b := b) (K := F) (K' := K) h2 hd
  have hfix : ∀ P, frobK h2 hd K (g P) = g P := by
    intro P
    have h1 : frobK (a := a) (b := b) h2 hd F P = P := by
      by_cases hP : P = 0
      · rw [hP, map_zero]
      · obtain ⟨p1, p2, p3⟩ := frobK_ne (a := a) (b := b) (K := F) h2 hd hP
        refine EDS.ext p1 hP ?_ ?_
        · rw [p2, FiniteField.pow_card]
        · rw [p3, FiniteField.pow_card]
    have := extHom_frob (a := a) (b := b) (K := F) (K' := K) h2 hd P
    rw [h1] at this
    exact this.symm
  have hmem : ∀ x : tors (Pt a b) m, g x.1 ∈ (fv h2 hd (K := K) v).ker := by
    intro x
    obtain ⟨j, hj⟩ := hmv
    rw [AddMonoidHom.mem_ker, fv_apply, hfix, show v = -1 + j * m by rw [← sub_eq_iff_eq_add']; linarith, add_zsmul, mul_zsmul,
      natCast_zsmul, ← map_nsmul, mem_tors.1 x.2, map_zero, zsmul_zero, add_zero, neg_one_zsmul, add_neg_cancel]
  exact AddSubgroup.card_dvd_of_injective ((g.comp (tors (Pt a b) m).subtype).codRestrict _ hmem) (by
    intro x y hxy
    have h1 : g x.1 = g y.1 := congrArg Subtype.val hxy
    have h3 : g (x.1 - y.1) = 0 := by rw [map_sub, h1, sub_self]
    exact Subtype.ext (sub_eq_zero.1 (extHom_inj (a := a) (b := b) (K := F) (K' := K) h2 hd h3)))

include h2 hd in
theorem dvd_card_sub_one [CharP F q] (hq : (q).Prime) (m n : ℕ) (hm : 0 < m) (hn : 0 < n) (hmn : m ∣ n)
    (e : ZMod m × ZMod n ≃+ Pt a b) (hpm : ¬ q ∣ m) : m ∣ q - 1 := by
  have hE : Nat.card (Pt a b) = m * n := by rw [← Nat.card_congr e.toEquiv, Nat.card_prod, Nat.card_zmod, Nat.card_zmod]
  have : Finite (Pt a b) := Nat.finite_of_card_ne_zero (by rw [hE]; positivity)
  have ht : Nat.card (tors (Pt a b) m) = m ^ 2 := by
    rw [card_tors_prod hm hn e, Nat.gcd_self, Nat.gcd_eq_right hmn, sq]
  obtain ⟨r, hr0, hrt⟩ : ∃ r : ℕ, (r : F) ≠ 0 ∧ ((r : F) + (trc a b : ℤ)) ≠ 0 := by
    by_cases h1 : (1 : F) + (trc a b : ℤ) = 0
    · refine ⟨2, by exact_mod_cast h2, fun h => ?_⟩
      have : (1 : F) = 0 := by push_cast at h; linear_combination h - h1
      exact one_ne_zero this
    · exact ⟨1, by simp, by simpa using h1⟩
  have hco : (m ^ 2).Coprime q := Nat.Coprime.pow_left 2 ((Nat.coprime_comm.1 ((Nat.Prime.coprime_iff_not_dvd hq).2 hpm)))
  obtain ⟨v, hv1, hv2⟩ := Nat.chineseRemainder hco (m ^ 2 + m - 1) r
  have hvF : (v : F) = r := by
    have := (CharP.natCast_eq_natCast F q).2 hv2
    exact this
  have hvm : (m : ℤ) ^ 2 ∣ (v : ℤ) + 1 - m := by
    have h3 := (Nat.modEq_iff_dvd.1 hv1)
    have hc : ((m ^ 2 + m - 1 : ℕ) : ℤ) = m ^ 2 + m - 1 := by
      rw [Nat.cast_sub (by omega)]; push_cast; ring
    rw [hc] at h3
    push_cast at h3
    have := dvd_sub (dvd_refl ((m : ℤ) ^ 2)) h3
    rwa [show (m : ℤ) ^ 2 - (m ^ 2 + m - 1 - v) = v + 1 - m by ring] at this
  obtain ⟨j, hj⟩ := hvm
  have key := sq_dvd h2 hd m ht (v : ℤ) ⟨1 + m * j, by linear_combination hj⟩ (by rw [Int.cast_natCast, hvF]; exact hr0)
    (by push_cast; rw [hvF]; exact hrt)
  have hE' : (m : ℤ) ^ 2 ∣ q + 1 - trc a b := by
    obtain ⟨c, hc⟩ := hmn
    unfold trc
    rw [hE, hc]
    exact ⟨c, by push_cast; ring⟩
  have h4 : (m : ℤ) ^ 2 ∣ ((v : ℤ) + 1) * (v - 1 + trc a b) := by
    have := dvd_sub key hE'
    rwa [show (v : ℤ) ^ 2 + v * trc a b + q - (q + 1 - trc a b) = (v + 1) * (v - 1 + trc a b) by ring] at this
  have hm0 : (m : ℤ) ≠ 0 := by exact_mod_cast hm.ne'
  have h5 : (m : ℤ) ∣ (1 + m * j) * (v - 1 + trc a b) := by
    apply Int.dvd_of_mul_dvd_mul_left (a := (m : ℤ)) hm0
    rwa [show (m : ℤ) * ((1 + m * j) * (v - 1 + trc a b)) = (v + 1) * (v - 1 + trc a b) by
      linear_combination -(v - 1 + trc a b) * hj, ← sq]
  have h6 : (m : ℤ) ∣ trc a b - 2 := by
    have := dvd_sub h5 (dvd_mul_right (m : ℤ) ((1 + m * j) ^ 2 + j * (trc a b - 2)))
    rwa [show (1 + m * j) * (v - 1 + trc a b) - m * ((1 + m * j) ^ 2 + j * (trc a b - 2)) = trc a b - 2 by
      linear_combination (1 + m * j) * hj] at this
  have h7 : (m : ℤ) ∣ (q : ℤ) - 1 := by
    have h8 : (m : ℤ) ∣ q + 1 - trc a b := (Dvd.intro_left _ (by rw [sq])).trans hE'
    have := dvd_add h8 h6
    rwa [show (q : ℤ) + 1 - trc a b + (trc a b - 2) = q - 1 by ring] at this
  have : ((q - 1 : ℕ) : ℤ) = (q : ℤ) - 1 := by rw [Nat.cast_sub hq.one_le]; simp
  rw [← this] at h7
  exact_mod_cast h7

include h2 hd in
theorem card_lt_sq (hq : (q).Prime) : Nat.card (Pt a b) < q ^ 2 := by
  have h := hasse (a := a) (b := b) h2 hd
  have hp2 := hq.two_le
  have hp3 : q ≠ 2 := by
    intro h0
    apply h2
    have := FiniteField.cast_card_eq_zero F
    rw [h0] at this
    exact_mod_cast this
  have h3 : (3 : ℤ) ≤ q := by exact_mod_cast (show 3 ≤ q by omega)
  by_contra hc
  have hc' : (q : ℤ) ^ 2 ≤ Nat.card (Pt a b) := by exact_mod_cast not_lt.1 hc
  have ht : trc a b ≤ -(2 * q - 1) := by unfold trc; nlinarith
  nlinarith

include h2 hd in
theorem card_tors_le_sq [Finite (Pt a b)] [CharP F q] (hq : (q).Prime) (k : ℕ) (hk : 0 < k) : Nat.card (tors (Pt a b) k) ≤ k ^ 2 := by
  have key : ∀ l : ℕ, ¬ q ∣ l → Nat.card (tors (Pt a b) l) ≤ l ^ 2 := by
    intro l hl
    have hl' : (l : F) ≠ 0 := fun h0 => hl ((CharP.cast_eq_zero_iff F q l).1 h0)
    have fin : Fintype (tors (Pt a b) l) := Fintype.ofFinite _
    have := card_tors_le h2 hl' ((Finset.univ : Finset (tors (Pt a b) l)).map ⟨Subtype.val, Subtype.val_injective⟩) (by
      intro P hP
      obtain ⟨x, -, rfl⟩ := Finset.mem_map.1 hP
      exact mem_tors.1 x.2)
    rwa [Finset.card_map, Finset.card_univ, ← Nat.card_eq_fintype_card] at this
  obtain ⟨e, l, hl, rfl⟩ := Nat.exists_eq_pow_mul_and_not_dvd hk.ne' q hq.ne_one
  rcases Nat.eq_zero_or_pos e with rfl | he
  · rw [pow_zero, one_mul]; exact key l hl
  · have hco : (q ^ e).Coprime l := Nat.Coprime.pow_left e ((Nat.Prime.coprime_iff_not_dvd hq).2 hl)
    refine (card_tors_mul_le hco).trans ((Nat.mul_le_mul (card_tors_prime_pow hq (card_lt_sq h2 hd hq) e) (key l hl)).trans ?_)
    rw [mul_pow]
    refine Nat.mul_le_mul_right _ ?_
    rw [← pow_mul]
    exact Nat.le_self_pow (by omega) _

include h2 hd in
/-- The group of points over a field with a prime number of elements. -/
theorem group_structure [Finite (Pt a b)] [CharP F q] (hq : (q).Prime) :
    ∃ m n : ℕ, 0 < m ∧ 0 < n ∧ m ∣ n ∧ m ∣ q - 1 ∧ Nonempty (ZMod m × ZMod n ≃+ Pt a b) := by
  obtain ⟨m, n, hm, hn, hmn, ⟨e⟩⟩ := two_gen (card_tors_le_sq h2 hd hq)
  refine ⟨m, n, hm, hn, hmn, dvd_card_sub_one h2 hd hq m n hm hn hmn e fun hqm => ?_, ⟨e⟩⟩
  have hE : Nat.card (Pt a b) = m * n := by rw [← Nat.card_congr e.toEquiv, Nat.card_prod, Nat.card_zmod, Nat.card_zmod]
  have h1 := card_lt_sq (a := a) (b := b) h2 hd hq
  rw [hE] at h1
  have h3 := Nat.le_of_dvd hm hqm
  have h4 := Nat.le_of_dvd hn hmn
  nlinarith

end
end EC
