import Verif.Lemmas.PolyDiv
import Verif.Model.Schoof

/-! The fuel only matters for running out: every function with a fuel argument that does not time out
gives the same outcome for every larger fuel. -/

namespace EC
open Poly

/-- If the call does not run out of fuel, more fuel changes nothing. -/
def Mono {α : Type} (f : ℕ → Res α) : Prop := ∀ n, f n ≠ .timeout → ∀ m, f (n + m) = f n

namespace Mono

theorem const {α : Type} (x : Res α) : Mono (fun _ => x) := fun _ _ _ => rfl

theorem bind {α β : Type} {f : ℕ → Res α} {g : ℕ → α → Res β} (hf : Mono f) (hg : ∀ a, Mono (fun n => g n a)) :
    Mono (fun n => f n >>= g n) := by
  intro n h m
  have h1 : f n ≠ .timeout := fun h1 => h (by simp only [h1, Res.timeout_bind])
  simp only [hf n h1 m]
  cases h2 : f n with
  | panic w => rfl
  | timeout => rfl
  | ok a =>
    simp only [h2, Res.ok_bind] at h ⊢
    exact hg a n h m

theorem ite {α : Type} {c : Prop} [Decidable c] {f g : ℕ → Res α} (hf : Mono f) (hg : Mono g) :
    Mono (fun n => if c then f n else g n) := by
  by_cases h : c <;> simp only [h, if_true, if_false] <;> assumption

theorem returns {α : Type} {f : ℕ → Res α} (hf : Mono f) {n : ℕ} {v : α} (h : f n = .ok v) : Returns f v :=
  ⟨n, fun k hk => by
    have := hf n (by rw [h]; simp) (k - n)
    rwa [Nat.add_sub_cancel' hk, h] at this⟩

theorem unique {α : Type} {f : ℕ → Res α} (hf : Mono f) {n : ℕ} {u v : α} (h : f n = .ok u) (hr : Returns f v) :
    u = v := by
  obtain ⟨N, hN⟩ := hr
  obtain ⟨M, hM⟩ := hf.returns h
  have h1 := hN (max N M) (le_max_left _ _)
  rw [hM (max N M) (le_max_right _ _)] at h1
  exact Res.ok.inj h1

end Mono

theorem mono_polynomialModular (f g : Poly) (p : ℤ) : Mono (fun n => f.polynomialModular n g p) :=
  fun _ h m => polynomialModular_mono h m

theorem mono_gcd (f g : Poly) (p : ℤ) : Mono (fun n => Poly.gcd n f g p) := by
  intro n
  induction n generalizing f g with
  | zero => intro h; exact absurd rfl h
  | succ n ih =>
    intro h m
    rw [show n + 1 + m = (n + m) + 1 by omega]
    dsimp only at h ⊢
    rw [Poly.gcd] at h ⊢
    conv_rhs => rw [Poly.gcd]
    split
    · rename_i h1
      rw [if_pos h1] at h
      exact ih _ _ h m
    · rename_i h1
      rw [if_neg h1] at h
      have hm : f.polynomialModular n g p ≠ .timeout := fun h2 => h (by rw [h2]; rfl)
      rw [polynomialModular_mono hm m]
      cases h2 : f.polynomialModular n g p with
      | panic w => rfl
      | timeout => rfl
      | ok r =>
        rw [h2] at h; simp only [Res.ok_bind] at h ⊢
        split
        · rfl
        · rename_i h3
          rw [if_neg h3] at h
          exact ih _ _ h m

theorem mono_isGcdOne (f g : Poly) (p : ℤ) : Mono (fun n => Poly.isGcdOne n f g p) :=
  (mono_gcd f g p).bind fun _ => .const _

theorem mono_schoof2 (a b q : ℤ) : Mono (fun n => schoof2 n a b q) :=
  (mono_isGcdOne _ _ _).bind fun _ => .const _

theorem mono_schoofXTest (a b q : ℤ) (num1 den1 psiL : Poly) (j : ℤ) :
    Mono (fun n => schoofXTest n a b q num1 den1 psiL j) := by
  unfold schoofXTest
  repeat' first
    | exact mono_polynomialModular _ _ _
    | exact Mono.const _
    | refine Mono.bind ?_ fun _ => ?_

theorem mono_schoofFindJ (a b q : ℤ) (num1 den1 psiL : Poly) (l : List ℤ) :
    Mono (fun n => schoofFindJ n a b q num1 den1 psiL l) := by
  induction l with
  | nil => exact .const _
  | cons j t ih =>
    refine Mono.bind (mono_schoofXTest _ _ _ _ _ _ _) fun b => ?_
    exact Mono.ite (.const _) ih

theorem mono_schoofY (a b q l ql jj : ℤ) (psiL : Poly) : Mono (fun n => schoofY n a b q l ql jj psiL) := by
  unfold schoofY
  repeat' first
    | exact mono_polynomialModular _ _ _
    | exact Mono.const _
    | refine Mono.bind ?_ fun _ => ?_
  dsimp only
  repeat' first
    | exact mono_polynomialModular _ _ _
    | exact Mono.const _
    | refine Mono.bind ?_ fun _ => ?_
    | refine Mono.ite ?_ ?_

theorem mono_schoofDE (a b q l ql : ℤ) : Mono (fun n => schoofDE n a b q l ql) := by
  unfold schoofDE
  cases (irange 1 l).find? (fun i => decide (Int.fmod (i ^ 2) l = ql)) with
  | none => exact .const _
  | some w =>
    dsimp only
    repeat' first
      | exact mono_polynomialModular _ _ _
      | exact mono_isGcdOne _ _ _
      | exact Mono.const _
      | refine Mono.bind ?_ fun _ => ?_
      | refine Mono.ite ?_ ?_

theorem mono_schoofL (a b q l : ℤ) : Mono (fun n => schoofL n a b q l) := by
  unfold schoofL
  refine Mono.bind (.const _) fun nd => ?_
  refine Mono.bind (.const _) fun _ => ?_
  refine Mono.bind (.const _) fun _ => ?_
  refine Mono.bind (mono_schoofFindJ _ _ _ _ _ _ _) fun o => ?_
  cases o with
  | none => exact mono_schoofDE _ _ _ _ _
  | some jj => exact mono_schoofY _ _ _ _ _ _ _

theorem mono_schoofLoop (a b q : ℤ) (l : List ℤ) (acc : List ModResult) :
    Mono (fun n => schoofLoop n a b q l acc) := by
  induction l generalizing acc with
  | nil => exact .const _
  | cons x t ih =>
    unfold schoofLoop
    exact Mono.ite (.const _) (Mono.bind (mono_schoofL _ _ _ _) fun r => ih _)

theorem mono_schoof (a b q : ℤ) : Mono (fun n => schoof n a b q) :=
  Mono.bind (mono_schoof2 _ _ _) fun _ => mono_schoofLoop _ _ _ _ _

theorem mono_seaWith (ec : EllipticCurve) (m : Poly) : Mono (fun n => seaWith n ec m) := by
  unfold seaWith
  repeat' first
    | exact mono_gcd _ _ _
    | exact Mono.const _
    | refine Mono.bind ?_ fun _ => ?_
    | refine Mono.ite ?_ ?_

theorem mono_sea (ec : EllipticCurve) (l : ℤ) : Mono (fun n => sea n ec l) :=
  Mono.bind (.const _) fun _ => mono_seaWith _ _

end EC
