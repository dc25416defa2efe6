import Mathlib.GroupTheory.SpecificGroups.Cyclic
import Mathlib.GroupTheory.Exponent
import Mathlib.GroupTheory.Index
import Mathlib.GroupTheory.QuotientGroup.Basic
import Mathlib.Data.ZMod.QuotientGroup

/-! A finite abelian group with at most `k^2` elements of order dividing `k`, for every `k`, is a product of two cyclic
groups. -/

namespace EC

/-- The elements killed by `k`. -/
abbrev tors (A : Type*) [AddCommGroup A] (k : ℕ) : AddSubgroup A := (nsmulAddMonoidHom k : A →+ A).ker

theorem mem_tors {A : Type*} [AddCommGroup A] {k : ℕ} {x : A} : x ∈ tors A k ↔ k • x = 0 := AddMonoidHom.mem_ker

variable {A : Type*} [AddCommGroup A] [Finite A]

theorem lift_tors {g : A} {N : ℕ} (hg : addOrderOf g = N) (hN : ∀ x : A, N • x = 0) {k : ℕ} (hk : k ∣ N) (hN0 : N ≠ 0)
    {b : A ⧸ AddSubgroup.zmultiples g} (hb : k • b = 0) :
    ∃ x : A, k • x = 0 ∧ QuotientAddGroup.mk' (AddSubgroup.zmultiples g) x = b := by
  obtain ⟨y, rfl⟩ := QuotientAddGroup.mk'_surjective _ b
  rw [← map_nsmul] at hb
  have h1 : k • y ∈ AddSubgroup.zmultiples g := by
    rw [← QuotientAddGroup.eq_zero_iff]; exact hb
  obtain ⟨j, hj⟩ := AddSubgroup.mem_zmultiples_iff.1 h1
  obtain ⟨l, rfl⟩ := hk
  have hl : l ≠ 0 := by rintro rfl; simp at hN0
  have hk0 : k ≠ 0 := by rintro rfl; simp at hN0
  have h2 : ((l : ℤ) * j) • g = 0 := by
    rw [mul_zsmul, hj, natCast_zsmul, ← mul_nsmul, hN]
  rw [← addOrderOf_dvd_iff_zsmul_eq_zero, hg] at h2
  have h3 : (k : ℤ) ∣ j := by
    push_cast at h2
    rw [mul_comm] at h2
    exact (mul_dvd_mul_iff_left (by exact_mod_cast hl)).1 h2
  obtain ⟨i, rfl⟩ := h3
  refine ⟨y - i • g, ?_, ?_⟩
  · rw [nsmul_sub, ← hj, mul_zsmul, natCast_zsmul, sub_self]
  · rw [map_sub, sub_eq_self]
    exact (QuotientAddGroup.eq_zero_iff _).2 (AddSubgroup.zsmul_mem_zmultiples g i)

theorem card_tors_quot {g : A} {N : ℕ} (hg : addOrderOf g = N) (hN : ∀ x : A, N • x = 0) {k : ℕ} (hk : k ∣ N)
    (hN0 : N ≠ 0) : k * Nat.card (tors (A ⧸ AddSubgroup.zmultiples g) k) ∣ Nat.card (tors A k) := by
  let f : tors A k →+ A ⧸ AddSubgroup.zmultiples g :=
    (QuotientAddGroup.mk' (AddSubgroup.zmultiples g)).comp (tors A k).subtype
  have hr : f.range = tors (A ⧸ AddSubgroup.zmultiples g) k := by
    ext b
    rw [AddMonoidHom.mem_range, mem_tors]
    constructor
    · rintro ⟨x, rfl⟩
      rw [← map_nsmul]
      have : k • x = 0 := Subtype.ext (mem_tors.1 x.2)
      rw [this, map_zero]
    · intro hb
      obtain ⟨x, h1, h2⟩ := lift_tors hg hN hk hN0 hb
      exact ⟨⟨x, mem_tors.2 h1⟩, h2⟩
  have h1 := AddSubgroup.card_mul_index f.ker
  rw [AddSubgroup.index_ker, hr] at h1
  rw [← h1]
  refine Nat.mul_dvd_mul_right ?_ _
  obtain ⟨l, hl⟩ := hk
  have hl0 : l ≠ 0 := by rintro rfl; simp at hl; omega
  have hz : k • (l • g) = 0 := by rw [← mul_nsmul', ← hl, hN]
  have ho : addOrderOf (l • g) = k := by
    rw [addOrderOf_nsmul' g hl0, hg, hl, Nat.gcd_eq_right (Dvd.intro_left _ rfl), Nat.mul_div_cancel _ (by omega)]
  let u : f.ker := ⟨⟨l • g, mem_tors.2 hz⟩, by
    rw [AddMonoidHom.mem_ker]
    exact (QuotientAddGroup.eq_zero_iff _).2 (AddSubgroup.nsmul_mem _ (AddSubgroup.mem_zmultiples g) l)⟩
  have hu : addOrderOf u = k := by
    refine Eq.trans ?_ ho
    rw [← addOrderOf_injective f.ker.subtype Subtype.val_injective u,
      ← addOrderOf_injective (tors A k).subtype Subtype.val_injective]
    rfl
  have := addOrderOf_dvd_natCard u
  exact hu.symm.dvd.trans this

/-- A finite abelian group with at most `k^2` elements killed by `k`, for every `k ≥ 1`, is `Z/m × Z/n` with `m ∣ n`. -/
theorem two_gen (h : ∀ k : ℕ, 0 < k → Nat.card (tors A k) ≤ k ^ 2) :
    ∃ m n : ℕ, 0 < m ∧ 0 < n ∧ m ∣ n ∧ Nonempty (ZMod m × ZMod n ≃+ A) := by
  classical
  have hex : AddMonoid.ExponentExists A := AddMonoid.ExponentExists.of_finite
  obtain ⟨g, hg⟩ := AddMonoid.exists_addOrderOf_eq_exponent hex
  set N := AddMonoid.exponent A with hNd
  have hN0 : N ≠ 0 := hex.exponent_ne_zero
  have hN : ∀ x : A, N • x = 0 := AddMonoid.exponent_nsmul_eq_zero
  set B := A ⧸ AddSubgroup.zmultiples g with hB
  have hNB : ∀ b : B, N • b = 0 := fun b => by
    obtain ⟨y, rfl⟩ := QuotientAddGroup.mk'_surjective _ b
    rw [← map_nsmul, hN, map_zero]
  have : Fintype B := Fintype.ofFinite B
  have hcyc : IsAddCyclic B := by
    apply isAddCyclic_of_card_nsmul_eq_zero_le
    intro k hk
    have hd0 : 0 < k.gcd N := Nat.gcd_pos_of_pos_left _ hk
    have h1 := card_tors_quot hg hN (Nat.gcd_dvd_right k N) hN0
    have h2 := h (k.gcd N) hd0
    have h3 := Nat.le_of_dvd Nat.card_pos h1
    have h4 : Nat.card (tors B (k.gcd N)) ≤ k.gcd N := by
      have : k.gcd N * Nat.card (tors B (k.gcd N)) ≤ k.gcd N * k.gcd N := by rw [← pow_two]; exact h3.trans h2
      exact Nat.le_of_mul_le_mul_left this hd0
    refine le_trans ?_ (h4.trans (Nat.gcd_le_left _ hk))
    rw [Nat.card_eq_fintype_card, ← Fintype.card_coe]
    refine Fintype.card_le_of_injective (fun x => (⟨x.1, ?_⟩ : tors B (k.gcd N))) fun x y hxy => ?_
    · have hx := (Finset.mem_filter.1 x.2).2
      rw [mem_tors, ← addOrderOf_dvd_iff_nsmul_eq_zero]
      exact Nat.dvd_gcd (addOrderOf_dvd_iff_nsmul_eq_zero.2 hx) (addOrderOf_dvd_iff_nsmul_eq_zero.2 (hNB _))
    · exact Subtype.ext (by simpa using hxy)
  obtain ⟨b, hb⟩ := hcyc.exists_generator
  set m := Nat.card B with hm
  have hbo : addOrderOf b = m := by
    rw [hm, ← Nat.card_zmultiples, (AddSubgroup.eq_top_iff' _).2 hb]
    simp
  have hm0 : 0 < m := Nat.card_pos
  have hmN : m ∣ N := by rw [← hbo]; exact addOrderOf_dvd_iff_nsmul_eq_zero.2 (hNB b)
  obtain ⟨x, hx1, hx2⟩ := lift_tors hg hN hmN hN0 (b := b) (by rw [← hbo]; exact addOrderOf_nsmul_eq_zero b)
  have : NeZero m := ⟨hm0.ne'⟩
  have : NeZero N := ⟨hN0⟩
  let f1 : ZMod m →+ A := ZMod.lift m ⟨(zmultiplesHom A) x, by simp [hx1]⟩
  let f2 : ZMod N →+ A := ZMod.lift N ⟨(zmultiplesHom A) g, by simp [hN]⟩
  let f : ZMod m × ZMod N →+ A := f1.coprod f2
  have hsurj : Function.Surjective f := by
    intro y
    obtain ⟨i, hi⟩ := AddSubgroup.mem_zmultiples_iff.1 (hb (QuotientAddGroup.mk' _ y))
    have h1 : y - i • x ∈ AddSubgroup.zmultiples g := by
      rw [← QuotientAddGroup.eq_zero_iff]
      show QuotientAddGroup.mk' _ (y - i • x) = 0
      rw [map_sub, map_zsmul, hx2, hi, sub_self]
    obtain ⟨j, hj⟩ := AddSubgroup.mem_zmultiples_iff.1 h1
    refine ⟨((i : ZMod m), (j : ZMod N)), ?_⟩
    show f1 (i : ZMod m) + f2 (j : ZMod N) = y
    have e1 : f1 (i : ZMod m) = i • x := ZMod.lift_coe m _ i
    have e2 : f2 (j : ZMod N) = j • g := ZMod.lift_coe N _ j
    rw [e1, e2, hj, add_sub_cancel]
  have hcard : Nat.card (ZMod m × ZMod N) = Nat.card A := by
    rw [Nat.card_prod, Nat.card_zmod, Nat.card_zmod, AddSubgroup.card_eq_card_quotient_mul_card_addSubgroup (AddSubgroup.zmultiples g),
      Nat.card_zmultiples, hg]
  exact ⟨m, N, hm0, Nat.pos_of_ne_zero hN0, hmN,
    ⟨AddEquiv.ofBijective f ((Nat.bijective_iff_surjective_and_card f).2 ⟨hsurj, hcard⟩)⟩⟩

/-- The number of elements of `Z/m × Z/n` killed by `k`. -/
theorem card_tors_prod {m n : ℕ} (hm : 0 < m) (hn : 0 < n) (e : ZMod m × ZMod n ≃+ A) (k : ℕ) :
    Nat.card (tors A k) = m.gcd k * n.gcd k := by
  have : NeZero m := ⟨hm.ne'⟩
  have : NeZero n := ⟨hn.ne'⟩
  have h1 := IsAddCyclic.card_nsmulAddMonoidHom_ker (ZMod m) k
  have h2 := IsAddCyclic.card_nsmulAddMonoidHom_ker (ZMod n) k
  rw [Nat.card_zmod] at h1 h2
  rw [← h1, ← h2, ← Nat.card_prod]
  refine Nat.card_congr
    { toFun := fun x => (⟨(e.symm x.1).1, ?_⟩, ⟨(e.symm x.1).2, ?_⟩)
      invFun := fun y => ⟨e (y.1.1, y.2.1), ?_⟩
      left_inv := fun x => by simp
      right_inv := fun y => by simp }
  · have := congrArg e.symm (mem_tors.1 x.2)
    rw [map_nsmul, map_zero] at this
    exact mem_tors.2 (congrArg Prod.fst this)
  · have := congrArg e.symm (mem_tors.1 x.2)
    rw [map_nsmul, map_zero] at this
    exact mem_tors.2 (congrArg Prod.snd this)
  · rw [mem_tors, ← map_nsmul, AddEquiv.map_eq_zero_iff]
    exact Prod.ext (mem_tors.1 y.1.2) (mem_tors.1 y.2.2)

end EC
