import Verif.Model.Basic
import Mathlib.Tactic.SplitIfs
import Mathlib.Logic.Basic
import Mathlib.Tactic.NormNum
import Mathlib.Tactic.Ring
import Mathlib.Tactic.Linarith
import Mathlib.Tactic.LinearCombination

/-! Helper lemmas about the outcome monad. -/

namespace EC

namespace Res

@[simp] theorem ok_bind {α β : Type} (a : α) (f : α → Res β) : ((Res.ok a) >>= f) = f a := rfl
@[simp] theorem panic_bind {α β : Type} (w : Panic) (f : α → Res β) :
    ((Res.panic w : Res α) >>= f) = Res.panic w := rfl
@[simp] theorem timeout_bind {α β : Type} (f : α → Res β) :
    ((Res.timeout : Res α) >>= f) = Res.timeout := rfl
@[simp] theorem pure_eq {α : Type} (a : α) : (pure a : Res α) = Res.ok a := rfl

theorem bind_eq_ok {α β : Type} {x : Res α} {f : α → Res β} {b : β} :
    (x >>= f) = .ok b ↔ ∃ a, x = .ok a ∧ f a = .ok b := by
  cases x <;> simp

theorem bind_eq_timeout {α β : Type} {x : Res α} {f : α → Res β} :
    (x >>= f) = .timeout ↔ x = .timeout ∨ ∃ a, x = .ok a ∧ f a = .timeout := by
  cases x <;> simp

theorem bind_eq_panic {α β : Type} {x : Res α} {f : α → Res β} {w : Panic} :
    (x >>= f) = .panic w ↔ x = .panic w ∨ ∃ a, x = .ok a ∧ f a = .panic w := by
  cases x <;> simp

@[simp] theorem isOk_ok {α : Type} (a : α) : (Res.ok a).isOk = true := rfl

theorem bind_assoc' {α β γ : Type} (x : Res α) (f : α → Res β) (g : β → Res γ) :
    (x >>= f) >>= g = x >>= fun a => f a >>= g := by cases x <;> rfl

instance : LawfulMonad Res := LawfulMonad.mk'
  (id_map := by intro α x; cases x <;> rfl)
  (pure_bind := by intros; rfl)
  (bind_assoc := by intro α β γ x f g; cases x <;> rfl)

/-- Bind congruence on the success value. -/
theorem bind_congr_ok {α β : Type} {x : Res α} {f g : α → Res β} (h : ∀ a, x = .ok a → f a = g a) :
    (x >>= f) = (x >>= g) := by cases x <;> simp_all

end Res

@[simp] theorem rassert_true : rassert true = .ok () := rfl
@[simp] theorem rassert_false : rassert false = .panic .assertion := rfl
theorem rassert_eq_ok {c : Bool} {u : Unit} : rassert c = .ok u ↔ c = true := by
  cases c <;> simp [rassert]
theorem chk_eq_ok {n m : Int} : chk n = .ok m ↔ InI32 n ∧ m = n := by
  unfold chk; split_ifs with h <;> simp [h, eq_comm]
theorem chk_of {n : Int} (h : InI32 n) : chk n = .ok n := by simp [chk, h]
theorem chk_ne_timeout {n : Int} : chk n ≠ .timeout := by unfold chk; split_ifs <;> simp
theorem modFloor_of {a p : Int} (h : p ≠ 0) : modFloor a p = .ok (Int.fmod a p) := by
  simp [modFloor, h]
theorem modFloor_eq_ok {a p c : Int} : modFloor a p = .ok c ↔ p ≠ 0 ∧ c = Int.fmod a p := by
  unfold modFloor; split_ifs with h <;> simp [h, eq_comm]
theorem divFloor_of {a p : Int} (h : p ≠ 0) : divFloor a p = .ok (Int.fdiv a p) := by
  simp [divFloor, h]
theorem divFloor_eq_ok {a p c : Int} : divFloor a p = .ok c ↔ p ≠ 0 ∧ c = Int.fdiv a p := by
  unfold divFloor; split_ifs with h <;> simp [h, eq_comm]

theorem fmod_pos_eq {a p : Int} (h : 0 < p) : Int.fmod a p = a % p :=
  Int.fmod_eq_emod_of_nonneg a (by omega)

/-- Fold in the outcome monad: invariant rule. -/
theorem foldlM_inv {α β : Type} (f : β → α → Res β) (I : List α → β → Prop)
    (l : List α) (b0 : β) (h0 : I [] b0)
    (hs : ∀ pre a b b', a ∈ l → I pre b → f b a = .ok b' → I (pre ++ [a]) b') :
    ∀ b, l.foldlM f b0 = .ok b → I l b := by
  have key : ∀ (l' pre : List α) (b1 : β), I pre b1 → (∀ a ∈ l', a ∈ l) →
      ∀ b, l'.foldlM f b1 = .ok b → I (pre ++ l') b := by
    intro l'
    induction l' with
    | nil =>
      intro pre b1 hI _ b hb
      simp only [List.foldlM_nil, Res.pure_eq, Res.ok.injEq] at hb
      simpa [hb] using hI
    | cons a t ih =>
      intro pre b1 hI hm b hb
      rw [List.foldlM_cons, Res.bind_eq_ok] at hb
      obtain ⟨b2, h1, h2⟩ := hb
      have := ih (pre ++ [a]) b2 (hs pre a b1 b2 (hm a (by simp)) hI h1)
        (fun c hc => hm c (by simp [hc])) b h2
      simpa using this
  intro b hb
  simpa using key l [] b0 h0 (fun _ h => h) b hb

/-- Fold in the outcome monad: if each step is total on the invariant, the fold returns. -/
theorem foldlM_total {α β : Type} (f : β → α → Res β) (I : List α → β → Prop)
    (l : List α) (b0 : β) (h0 : I [] b0)
    (hs : ∀ pre a b, (∃ suf, l = pre ++ a :: suf) → I pre b → ∃ b', f b a = .ok b' ∧ I (pre ++ [a]) b') :
    ∃ b, l.foldlM f b0 = .ok b ∧ I l b := by
  have key : ∀ (l' pre : List α) (b1 : β), l = pre ++ l' → I pre b1 →
      ∃ b, l'.foldlM f b1 = .ok b ∧ I (pre ++ l') b := by
    intro l'
    induction l' with
    | nil => intro pre b1 _ hI; exact ⟨b1, rfl, by simpa using hI⟩
    | cons a t ih =>
      intro pre b1 hm hI
      obtain ⟨b2, h1, h2⟩ := hs pre a b1 ⟨t, hm⟩ hI
      obtain ⟨b, h3, h4⟩ := ih (pre ++ [a]) b2 (by simpa using hm) h2
      exact ⟨b, by rw [List.foldlM_cons, h1]; simpa using h3, by simpa using h4⟩
  simpa using key l [] b0 (by simp) h0

end EC
