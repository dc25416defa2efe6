import Verif.Spec.Modular
import Verif.Lemmas.Res
import Mathlib.Tactic.Positivity

/-! Order estimates for Laurent series. -/

namespace EC
open HahnSeries

/-- All coefficients below `m` are zero. -/
def OL (m : ℤ) (f : LaurentSeries ℤ) : Prop := ∀ n < m, f.coeff n = 0

theorem ol_iff {m : ℤ} {f : LaurentSeries ℤ} : OL m f ↔ (m : WithTop ℤ) ≤ f.orderTop := by
  rw [HahnSeries.le_orderTop_iff_forall]
  constructor
  · intro h n hn
    exact h n (by exact_mod_cast hn)
  · intro h n hn
    exact h n (by exact_mod_cast hn)

theorem OL.mono {m m' : ℤ} {f : LaurentSeries ℤ} (h : OL m f) (hm : m' ≤ m) : OL m' f :=
  fun n hn => h n (by omega)

theorem OL.add {m : ℤ} {f g : LaurentSeries ℤ} (h : OL m f) (h' : OL m g) : OL m (f + g) :=
  fun n hn => by rw [HahnSeries.coeff_add, h n hn, h' n hn, add_zero]

theorem OL.sub {m : ℤ} {f g : LaurentSeries ℤ} (h : OL m f) (h' : OL m g) : OL m (f - g) :=
  fun n hn => by rw [HahnSeries.coeff_sub, h n hn, h' n hn, sub_zero]

theorem OL.zero {m : ℤ} : OL m 0 := fun _ _ => rfl

theorem OL.mul {m m' : ℤ} {f g : LaurentSeries ℤ} (h : OL m f) (h' : OL m' g) : OL (m + m') (f * g) := by
  rw [ol_iff] at *
  refine le_trans ?_ HahnSeries.orderTop_add_le_mul
  push_cast
  exact add_le_add h h'

theorem OL.one : OL 0 1 := by
  intro n hn
  rw [HahnSeries.coeff_one, if_neg (by omega)]

theorem OL.pow {m : ℤ} {f : LaurentSeries ℤ} (h : OL m f) (n : ℕ) : OL (n * m) (f ^ n) := by
  induction n with
  | zero => simpa using OL.one
  | succ n ih =>
    rw [pow_succ]
    refine (ih.mul h).mono ?_
    push_cast; ring_nf; exact le_rfl

theorem OL.pow_sub {m e : ℤ} {f g : LaurentSeries ℤ} (hf : OL m f) (hg : OL m g) (h : OL e (f - g)) (a : ℕ) :
    OL (e + (a - 1) * m) (f ^ a - g ^ a) := by
  induction a with
  | zero => simpa using OL.zero
  | succ a ih =>
    have e1 : f ^ (a + 1) - g ^ (a + 1) = f ^ a * (f - g) + (f ^ a - g ^ a) * g := by ring
    rw [e1]
    refine OL.add (((hf.pow a).mul h).mono ?_) ((ih.mul hg).mono ?_)
    · push_cast; ring_nf; exact le_rfl
    · push_cast; ring_nf; exact le_rfl

theorem OL.mul_sub {m m' e e' : ℤ} {f g F G : LaurentSeries ℤ} (hf : OL m f) (hG : OL m' G)
    (h : OL e (f - g)) (h' : OL e' (F - G)) {r : ℤ} (h1 : r ≤ m + e') (h2 : r ≤ e + m') :
    OL r (f * F - g * G) := by
  have e1 : f * F - g * G = f * (F - G) + (f - g) * G := by ring
  rw [e1]
  exact OL.add ((hf.mul h').mono h1) ((h.mul hG).mono h2)

/-- The lowest term is `q^m`. -/
def Lead (m : ℤ) (f : LaurentSeries ℤ) : Prop := f.coeff m = 1 ∧ OL m f

theorem lead_iff {m : ℤ} {f : LaurentSeries ℤ} : Lead m f ↔ OL (m + 1) (f - single m 1) := by
  constructor
  · rintro ⟨h1, h2⟩ n hn
    rw [HahnSeries.coeff_sub, HahnSeries.coeff_single]
    by_cases h : n = m
    · subst h; simp [h1]
    · rw [if_neg h, h2 n (by omega), sub_zero]
  · intro h
    constructor
    · have := h m (by omega)
      rw [HahnSeries.coeff_sub, HahnSeries.coeff_single, if_pos rfl] at this
      omega
    · intro n hn
      have := h n (by omega)
      rw [HahnSeries.coeff_sub, HahnSeries.coeff_single, if_neg (by omega)] at this
      omega

theorem ol_single (m : ℤ) (c : ℤ) : OL m (single m c) := by
  intro n hn
  rw [HahnSeries.coeff_single, if_neg (by omega)]

theorem Lead.mul {m m' : ℤ} {f g : LaurentSeries ℤ} (h : Lead m f) (h' : Lead m' g) : Lead (m + m') (f * g) := by
  rw [lead_iff]
  have e1 : (single (m + m') 1 : LaurentSeries ℤ) = single m 1 * single m' 1 := by
    rw [HahnSeries.single_mul_single, one_mul]
  rw [e1]
  exact OL.mul_sub h.2 (ol_single m' 1) (lead_iff.1 h) (lead_iff.1 h') (by omega) (by omega)

theorem Lead.one : Lead 0 1 := by
  refine ⟨by simp [HahnSeries.coeff_one], OL.one⟩

theorem Lead.pow {m : ℤ} {f : LaurentSeries ℤ} (h : Lead m f) (n : ℕ) : Lead (n * m) (f ^ n) := by
  induction n with
  | zero => simpa using Lead.one
  | succ n ih =>
    rw [pow_succ]
    have := ih.mul h
    have e : (n : ℤ) * m + m = ((n + 1 : ℕ) : ℤ) * m := by push_cast; ring
    rwa [e] at this

theorem Lead.add {m : ℤ} {f g : LaurentSeries ℤ} (h : Lead m f) (h' : OL (m + 1) g) : Lead m (f + g) :=
  ⟨by rw [HahnSeries.coeff_add, h.1, h' m (by omega), add_zero], h.2.add (h'.mono (by omega))⟩

/-! ### `j(q)` and `j(q^p)` -/

theorem jLaurent_coeff (n : ℤ) : jLaurent.coeff n = if -1 ≤ n then PowerSeries.coeff (n + 1).toNat seriesJ1 else 0 := by
  unfold jLaurent
  rw [HahnSeries.coeff_single_mul, one_mul]
  rw [show n - -1 = n + 1 by ring]
  split_ifs with h
  · conv_lhs => rw [show n + 1 = (((n + 1).toNat : ℕ) : ℤ) by omega]
    exact HahnSeries.ofPowerSeries_apply_coeff _ _
  · rw [HahnSeries.ofPowerSeries_apply]
    apply HahnSeries.embDomain_of_notMem_range
    rintro ⟨k, hk⟩
    simp at hk
    omega

theorem qPow_coeff_mul {p : ℕ} (hp : 0 < p) (f : LaurentSeries ℤ) (n : ℤ) : (qPow p hp f).coeff (p * n) = f.coeff n := by
  exact HahnSeries.embDomain_coeff (f := ⟨⟨AddMonoidHom.mulLeft (p : ℤ), _⟩, _⟩) (x := f) (a := n)

theorem qPow_coeff_of_not_dvd {p : ℕ} (hp : 0 < p) (f : LaurentSeries ℤ) {n : ℤ} (h : ¬ (p : ℤ) ∣ n) :
    (qPow p hp f).coeff n = 0 := by
  apply HahnSeries.embDomain_of_notMem_range
  rintro ⟨k, hk⟩
  exact h ⟨k, hk.symm⟩

theorem qPow_single {p : ℕ} (hp : 0 < p) (n c : ℤ) : qPow p hp (single n c) = single (p * n) c := by
  exact HahnSeries.embDomain_single

theorem qPow_ol {p : ℕ} (hp : 0 < p) {m : ℤ} {f : LaurentSeries ℤ} (h : OL m f) : OL (p * m) (qPow p hp f) := by
  intro n hn
  by_cases hd : (p : ℤ) ∣ n
  · obtain ⟨k, rfl⟩ := hd
    rw [qPow_coeff_mul]
    exact h k (by
      have : (0 : ℤ) < p := by omega
      exact lt_of_mul_lt_mul_left hn this.le)
  · exact qPow_coeff_of_not_dvd hp f hd

theorem qPow_lead {p : ℕ} (hp : 0 < p) {m : ℤ} {f : LaurentSeries ℤ} (h : Lead m f) : Lead (p * m) (qPow p hp f) :=
  ⟨by rw [qPow_coeff_mul]; exact h.1, qPow_ol hp h.2⟩

theorem jLaurent_lead : Lead (-1) jLaurent := by
  constructor
  · rw [jLaurent_coeff, if_pos le_rfl]
    have : PowerSeries.coeff ((-1 : ℤ) + 1).toNat seriesJ1 = 1 := by
      change PowerSeries.coeff 0 seriesJ1 = 1
      unfold seriesJ1
      rw [PowerSeries.coeff_zero_eq_constantCoeff_apply, map_mul, map_pow]
      have h4 : PowerSeries.constantCoeff seriesE4 = 1 := by
        rw [← PowerSeries.coeff_zero_eq_constantCoeff_apply, seriesE4, PowerSeries.coeff_mk]
        rfl
      rw [h4, PowerSeries.constantCoeff_invOfUnit]
      simp
    exact this
  · intro n hn
    rw [jLaurent_coeff, if_neg (by omega)]

end EC
