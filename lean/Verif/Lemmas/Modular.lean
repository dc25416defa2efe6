import Verif.Model.ModularPolynomial
import Verif.Spec.Modular
import Verif.Lemmas.PolyMap3
import Verif.Lemmas.QSeries
import Verif.Lemmas.Irange

/-! Lemmas about `/repo/src/modular_polynomial.rs`. -/

namespace EC
open Poly Finset

theorem sum_irange {M : Type} [AddCommMonoid M] (a b : ℕ) (f : ℤ → M) :
    ((irange a b).map f).sum = ∑ k ∈ Ico a b, f k := by
  rw [Finset.sum_Ico_eq_sum_range]
  simp only [irange, List.map_map]
  have h1 : ((b : Int) - a).toNat = b - a := by omega
  rw [h1]
  change _ = ((List.range (b - a)).map _).sum
  congr 1

/-- The monomials of the generic polynomial. -/
def GenKey (p : ℕ) (k : Key) : Prop :=
  0 ≤ k.x ∧ k.x ≤ p + 1 ∧ 0 ≤ k.y ∧ k.y ≤ p + 1 ∧ k.q = 0

theorem subTermPol_ok {i j k l : ℤ} (hk : 0 ≤ k) (hl : 0 ≤ l) :
    ∃ t : Term, subTermPol i j k l = .ok t.toPol ∧ t.coef = 1 ∧ t.monomial.key = ⟨i, j, 0, some (k, l)⟩ := by
  unfold subTermPol TermBuilder.variableIJ
  simp only [ge_iff_le, hk, hl, decide_true, rassert_true, Res.ok_bind]
  exact ⟨_, rfl, rfl, rfl⟩

theorem generic_spec {p : ℕ} (hp : p.Prime) (h : (p : ℤ) + 1 ≤ 2147483647) :
    ∃ G, subscriptedVariableModularPolynomial p = .ok G ∧ G.Canon ∧ G.All (GenKey p) ∧
      ∀ (M : Type) [AddCommGroup M] (φ : Key → M), G.lin φ = φ ⟨p + 1, 0, 0, none⟩ + φ ⟨0, p + 1, 0, none⟩ +
        ∑ i ∈ range (p + 1), φ ⟨i, i, 0, some (i, i)⟩ +
        ∑ i ∈ range (p + 1), ∑ j ∈ Ico (i + 1) (p + 1),
          (φ ⟨i, j, 0, some (i, j)⟩ + φ ⟨j, i, 0, some (i, j)⟩) := by
  have hp2 := hp.two_le
  unfold subscriptedVariableModularPolynomial
  have h1 : decide ((p : ℤ) ≥ 2) = true := by simp; omega
  have h2 : isPrime (p : ℤ).toNat = true := by simp [isPrime, hp]
  rw [h1, h2, chk_of ⟨by omega, h⟩]
  simp only [rassert_true, Res.ok_bind]
  set base := (TermBuilder.new.xpow ((p : ℤ) + 1)).build.toPol.addAssign
    (TermBuilder.new.ypow ((p : ℤ) + 1)).build.toPol with hbase
  have b1 : base.Canon := canon_addAssign (canon_toPol _) (canon_toPol _)
  have b2 : base.All (GenKey p) := by
    refine all_addAssign (all_toPol fun _ => ?_) (all_toPol fun _ => ?_)
    · exact ⟨by change (0 : ℤ) ≤ p + 1; omega, le_rfl, le_rfl, by change (0 : ℤ) ≤ p + 1; omega, rfl⟩
    · exact ⟨le_rfl, by change (0 : ℤ) ≤ p + 1; omega, by change (0 : ℤ) ≤ p + 1; omega, le_rfl, rfl⟩
  have b3 : ∀ (M : Type) [AddCommGroup M] (φ : Key → M), base.lin φ = φ ⟨p + 1, 0, 0, none⟩ + φ ⟨0, p + 1, 0, none⟩ := by
    intro M _ φ
    rw [hbase, lin_addAssign, lin_toPol, lin_toPol]
    change (1 : ℤ) • _ + (1 : ℤ) • _ = _
    rw [one_smul, one_smul]; rfl
  -- first loop
  obtain ⟨G1, hG1, hI1⟩ := foldlM_total (fun (pol : Poly) (i : ℤ) => do
      Res.ok (Poly.addAssign pol (← subTermPol i i i i)))
    (fun pre pol => pol.Canon ∧ pol.All (GenKey p) ∧ ∀ (M : Type) [AddCommGroup M] (φ : Key → M),
      pol.lin φ = base.lin φ + (pre.map fun i => φ ⟨i, i, 0, some (i, i)⟩).sum)
    (irange 0 ((p : ℤ) + 1)) base ⟨b1, b2, fun M _ φ => by simp⟩ (by
      rintro pre i pol ⟨suf, hsuf⟩ ⟨c1, c2, c3⟩
      have hi : i ∈ irange 0 ((p : ℤ) + 1) := by rw [hsuf]; simp
      rw [mem_irange] at hi
      obtain ⟨t, ht, htc, htk⟩ := subTermPol_ok (i := i) (j := i) hi.1 hi.1
      refine ⟨pol.addAssign t.toPol, by rw [ht]; rfl, canon_addAssign c1 (canon_toPol _), ?_, ?_⟩
      · refine all_addAssign c2 (all_toPol fun _ => ?_)
        rw [htk]
        exact ⟨hi.1, by simp only; omega, hi.1, by simp only; omega, rfl⟩
      · intro M _ φ
        rw [lin_addAssign, c3, lin_toPol, htc, htk]
        simp [add_assoc])
  simp only [hG1, Res.ok_bind]
  obtain ⟨c1, c2, c3⟩ := hI1
  -- second loop
  obtain ⟨G, hG, d1, d2, d3⟩ := foldlM_total (fun (pol : Poly) (i : ℤ) =>
      (irange (i + 1) ((p : ℤ) + 1)).foldlM (fun pol j => do
        let pol := Poly.addAssign pol (← subTermPol i j i j)
        Res.ok (Poly.addAssign pol (← subTermPol j i i j))) pol)
    (fun pre pol => pol.Canon ∧ pol.All (GenKey p) ∧ ∀ (M : Type) [AddCommGroup M] (φ : Key → M),
      pol.lin φ = G1.lin φ + (pre.map fun i => ((irange (i + 1) ((p : ℤ) + 1)).map fun j =>
        φ ⟨i, j, 0, some (i, j)⟩ + φ ⟨j, i, 0, some (i, j)⟩).sum).sum)
    (irange 0 ((p : ℤ) + 1)) G1 ⟨c1, c2, fun M _ φ => by simp⟩ (by
      rintro pre i pol ⟨suf, hsuf⟩ ⟨c1, c2, c3⟩
      have hi : i ∈ irange 0 ((p : ℤ) + 1) := by rw [hsuf]; simp
      rw [mem_irange] at hi
      obtain ⟨P, hP, e1, e2, e3⟩ := foldlM_total (fun (pol : Poly) (j : ℤ) => do
          let pol := Poly.addAssign pol (← subTermPol i j i j)
          Res.ok (Poly.addAssign pol (← subTermPol j i i j)))
        (fun pre' pol' => pol'.Canon ∧ pol'.All (GenKey p) ∧ ∀ (M : Type) [AddCommGroup M] (φ : Key → M),
          pol'.lin φ = pol.lin φ + (pre'.map fun j =>
            φ ⟨i, j, 0, some (i, j)⟩ + φ ⟨j, i, 0, some (i, j)⟩).sum)
        (irange (i + 1) ((p : ℤ) + 1)) pol ⟨c1, c2, fun M _ φ => by simp⟩ (by
          rintro pre' j pol' ⟨suf', hsuf'⟩ ⟨c1', c2', c3'⟩
          have hj : j ∈ irange (i + 1) ((p : ℤ) + 1) := by rw [hsuf']; simp
          rw [mem_irange] at hj
          obtain ⟨t, ht, htc, htk⟩ := subTermPol_ok (i := i) (j := j) (k := i) (l := j) hi.1 (by omega)
          obtain ⟨u, hu, huc, huk⟩ := subTermPol_ok (i := j) (j := i) (k := i) (l := j) hi.1 (by omega)
          refine ⟨(pol'.addAssign t.toPol).addAssign u.toPol, by rw [ht, hu]; rfl,
            canon_addAssign (canon_addAssign c1' (canon_toPol _)) (canon_toPol _), ?_, ?_⟩
          · refine all_addAssign (all_addAssign c2' (all_toPol fun _ => ?_)) (all_toPol fun _ => ?_)
            · rw [htk]
              exact ⟨hi.1, by simp only; omega, by simp only; omega, by simp only; omega, rfl⟩
            · rw [huk]
              exact ⟨by simp only; omega, by simp only; omega, hi.1, by simp only; omega, rfl⟩
          · intro M _ φ
            rw [lin_addAssign, lin_addAssign, c3', lin_toPol, lin_toPol, htc, htk, huc, huk]
            simp [add_assoc])
      refine ⟨P, hP, e1, e2, ?_⟩
      intro M _ φ
      rw [e3, c3]
      simp [add_assoc])
  refine ⟨G, hG, d1, d2, ?_⟩
  intro M _ φ
  rw [d3, c3, b3]
  have e0 : irange 0 ((p : ℤ) + 1) = irange ((0 : ℕ) : ℤ) ((p + 1 : ℕ) : ℤ) := by push_cast; rfl
  rw [e0, sum_irange, sum_irange, Nat.Ico_zero_eq_range]
  congr 1
  refine Finset.sum_congr rfl fun i _ => ?_
  have e1 : irange ((i : ℤ) + 1) ((p : ℤ) + 1) = irange ((i + 1 : ℕ) : ℤ) ((p + 1 : ℕ) : ℤ) := by push_cast; rfl
  rw [e1, sum_irange]

end EC
