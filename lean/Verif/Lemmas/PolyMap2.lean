import Verif.Lemmas.PolyMap
import Verif.Lemmas.BigInt
import Verif.Spec.Maps

/-! Semantics of the single-pass functions: power substitutions, division by a monomial,
derivatives, coefficient extraction, truncation, evaluation. -/

namespace EC
namespace Poly

variable {M : Type*} [AddCommGroup M]

/-! ### Power substitutions -/

theorem _root_.EC.Term.toFrob_eq_ok {t u : Term} {n : ℤ} :
    t.toFrob n = .ok u ↔ InI32 (t.xpow * n) ∧ InI32 (t.ypow * n) ∧
      u = { coef := t.coef, monomial := { xpow := t.xpow * n, ypow := t.ypow * n, qpow := t.qpow,
                                          var := t.var } } := by
  unfold Term.toFrob
  simp only [Res.bind_eq_ok, chk_eq_ok, Res.ok.injEq]
  constructor
  · rintro ⟨x, ⟨hx, rfl⟩, y, ⟨hy, rfl⟩, rfl⟩; exact ⟨hx, hy, rfl⟩
  · rintro ⟨hx, hy, rfl⟩; exact ⟨_, ⟨hx, rfl⟩, _, ⟨hy, rfl⟩, rfl⟩

theorem _root_.EC.Term.toYPower_eq_ok {t u : Term} {n : ℤ} :
    t.toYPower n = .ok u ↔ InI32 (t.ypow * n) ∧
      u = { coef := t.coef, monomial := { xpow := t.xpow, ypow := t.ypow * n, qpow := t.qpow,
                                          var := t.var } } := by
  unfold Term.toYPower
  simp only [Res.bind_eq_ok, chk_eq_ok, Res.ok.injEq]
  constructor
  · rintro ⟨y, ⟨hy, rfl⟩, rfl⟩; exact ⟨hy, rfl⟩
  · rintro ⟨hy, rfl⟩; exact ⟨_, ⟨hy, rfl⟩, rfl⟩

theorem _root_.EC.Term.toQPower_eq_ok {t u : Term} {n : ℤ} :
    t.toQPower n = .ok u ↔ InI32 (t.qpow * n) ∧
      u = { coef := t.coef, monomial := { xpow := t.xpow, ypow := t.ypow, qpow := t.qpow * n,
                                          var := t.var } } := by
  unfold Term.toQPower
  simp only [Res.bind_eq_ok, chk_eq_ok, Res.ok.injEq]
  constructor
  · rintro ⟨y, ⟨hy, rfl⟩, rfl⟩; exact ⟨hy, rfl⟩
  · rintro ⟨hy, rfl⟩; exact ⟨_, ⟨hy, rfl⟩, rfl⟩

/-- Exponents scaled. -/
def _root_.EC.Key.scale (a b c : ℤ) (k : Key) : Key :=
  { x := k.x * a, y := k.y * b, q := k.q * c, v := k.v }

theorem _root_.EC.Key.scale_inj {a b c : ℤ} (ha : a ≠ 0) (hb : b ≠ 0) (hc : c ≠ 0) {k k' : Key}
    (h : k.scale a b c = k'.scale a b c) : k = k' := by
  rcases k with ⟨x, y, q, v⟩; rcases k' with ⟨x', y', q', v'⟩
  simp only [Key.scale, Key.mk.injEq] at h
  obtain ⟨h1, h2, h3, h4⟩ := h
  rw [mul_right_cancel₀ ha h1, mul_right_cancel₀ hb h2, mul_right_cancel₀ hc h3, h4]

theorem substPow_val (a b c : ℤ) (k : Key) : substPow a b c k.val = (k.scale a b c).val := by
  unfold substPow Key.val
  simp only [AddMonoidAlgebra.mapDomainRingHom_apply, AddMonoidAlgebra.mapDomain_single]
  congr 1
  simp [expoScale, Key.expo, Key.scale, mul_comm]

theorem pass_scale {f : Monomial × Int → Res Term} {a b c : ℤ} {P Q : Poly}
    (h : P.entries.foldlM (fun pol e => do
      let u ← f e
      .ok (pol.insert u.monomial u.coef)) new = .ok Q)
    (hf : ∀ e ∈ P.entries, ∀ u, f e = .ok u → u.monomial.key = e.1.key.scale a b c ∧ u.coef = e.2)
    (ha : a ≠ 0) (hb : b ≠ 0) (hc : c ≠ 0) : Q.val = substPow a b c P.val := by
  rw [val_eq_lin, val_eq_lin, pass_lin (g := Key.scale a b c) (c := fun e => e.2) h hf
    (fun e _ e' _ h => Key.scale_inj ha hb hc h)]
  have := map_lin (substPow a b c).toAddMonoidHom Key.val P
  simp only [RingHom.toAddMonoidHom_eq_coe, AddMonoidHom.coe_coe, substPow_val] at this
  rw [this]; rfl

/-! ### Division by a monomial -/

theorem _root_.EC.Term.div_eq_ok {a b t : Term} :
    Term.div a b = .ok t ↔ b.var.empty = true ∧ b.coef ≠ 0 ∧ InI32 (a.xpow - b.xpow) ∧
      InI32 (a.ypow - b.ypow) ∧ InI32 (a.qpow - b.qpow) ∧
      t = Term.mk (Int.fdiv a.coef b.coef)
        (Monomial.mk (a.xpow - b.xpow) (a.ypow - b.ypow) (a.qpow - b.qpow) a.var) := by
  unfold Term.div
  split
  · rename_i h; simp at h; simp [h]
  · rename_i h
    have h' : b.var.empty = true := by simpa using h
    simp only [Res.bind_eq_ok, divFloor_eq_ok, chk_eq_ok, Res.ok.injEq, h', true_and]
    constructor
    · rintro ⟨c, ⟨hc, rfl⟩, x, ⟨hx, rfl⟩, y, ⟨hy, rfl⟩, q, ⟨hq, rfl⟩, rfl⟩
      exact ⟨hc, hx, hy, hq, rfl⟩
    · rintro ⟨hc, hx, hy, hq, rfl⟩
      exact ⟨_, ⟨hc, rfl⟩, _, ⟨hx, rfl⟩, _, ⟨hy, rfl⟩, _, ⟨hq, rfl⟩, rfl⟩

/-- Quotient of keys (the divisor has no variable). -/
def _root_.EC.Key.div (k m : Key) : Key :=
  { x := k.x - m.x, y := k.y - m.y, q := k.q - m.q, v := k.v }

theorem _root_.EC.Key.div_inj {k k' m : Key} (h : k.div m = k'.div m) : k = k' := by
  rcases k with ⟨x, y, q, v⟩; rcases k' with ⟨x', y', q', v'⟩
  simp only [Key.div, Key.mk.injEq] at h
  obtain ⟨h1, h2, h3, h4⟩ := h
  simp only [Key.mk.injEq]
  exact ⟨by omega, by omega, by omega, h4⟩

theorem _root_.EC.Key.div_val {k m : Key} (hm : m.v = none) : (k.div m).val * m.val = k.val := by
  unfold Key.val
  rw [AddMonoidAlgebra.single_mul_single, mul_one]
  congr 1
  simp [Key.div, Key.expo, hm]

theorem div_single {a b Q : Poly} {m : Monomial} {c : ℤ} (hb : b.entries = [(m, c)])
    (h : a.div b = .ok Q) :
    (a.entries ≠ [] → m.var.empty = true ∧ c ≠ 0) ∧
    (∀ e ∈ a.entries, InI32 (e.1.xpow - m.xpow) ∧ InI32 (e.1.ypow - m.ypow) ∧
      InI32 (e.1.qpow - m.qpow)) ∧
    (∀ k v, Q.look k = some v ↔ ∃ e ∈ a.entries, k = e.1.key.div m.key ∧ v = Int.fdiv e.2 c) ∧
    Q.fs = (a.entries.map fun e => Finsupp.single (e.1.key.div m.key) (Int.fdiv e.2 c)).sum := by
  unfold div at h
  rw [hb] at h
  simp only at h
  have hf : ∀ e ∈ a.entries, ∀ u, Term.div (Term.from' e.1 e.2) (Term.from' m c) = .ok u →
      u.monomial.key = e.1.key.div m.key ∧ u.coef = Int.fdiv e.2 c := by
    intro e _ u hu
    rw [Term.div_eq_ok] at hu
    obtain ⟨_, _, _, _, _, rfl⟩ := hu
    exact ⟨rfl, rfl⟩
  have hp := pass_fs (g := fun k => k.div m.key) (c := fun e => Int.fdiv e.2 c) h hf
    (fun e _ e' _ h => Key.div_inj h)
  obtain ⟨h1, h2, h3⟩ := hp
  refine ⟨?_, ?_, h3, h2⟩
  · intro hne
    obtain ⟨e, t, he⟩ := List.exists_cons_of_ne_nil hne
    obtain ⟨u, hu⟩ := h1 e (by rw [he]; simp)
    rw [Term.div_eq_ok] at hu
    exact ⟨hu.1, hu.2.1⟩
  · intro e he
    obtain ⟨u, hu⟩ := h1 e he
    rw [Term.div_eq_ok] at hu
    exact ⟨hu.2.2.1, hu.2.2.2.1, hu.2.2.2.2.1⟩

theorem div_single_ok {a b : Poly} {m : Monomial} {c : ℤ} (hb : b.entries = [(m, c)])
    (hm : m.var.empty = true) (hc : c ≠ 0)
    (h : ∀ e ∈ a.entries, InI32 (e.1.xpow - m.xpow) ∧ InI32 (e.1.ypow - m.ypow) ∧
      InI32 (e.1.qpow - m.qpow)) : ∃ Q, a.div b = .ok Q := by
  unfold div
  rw [hb]
  refine foldlM_insert_ok _ (fun e he => ?_)
  obtain ⟨h1, h2, h3⟩ := h e he
  exact ⟨_, Term.div_eq_ok.2 ⟨hm, hc, h1, h2, h3, rfl⟩⟩

theorem div_ne_timeout (a b : Poly) : a.div b ≠ .timeout := by
  unfold div
  split
  · simp
  · refine foldlM_ne_timeout (fun P e => ?_) _ _
    simp only [ne_eq, Res.bind_eq_timeout, not_or, not_exists, not_and]
    refine ⟨?_, by simp⟩
    unfold Term.div
    split
    · simp
    · simp only [Res.bind_eq_timeout, not_or, not_exists, not_and]
      refine ⟨by unfold divFloor; split_ifs <;> simp, fun _ _ => ⟨chk_ne_timeout, fun _ _ =>
        ⟨chk_ne_timeout, fun _ _ => ⟨chk_ne_timeout, by simp⟩⟩⟩⟩
  · simp

/-! ### Derivatives -/

/-- Entries of the derivative. -/
def dXEntries (l : List (Monomial × Int)) : List (Monomial × Int) :=
  (l.map fun e => ({ e.1 with xpow := e.1.xpow - 1 }, e.2 * e.1.xpow)).filter (fun e => e.2 ≠ 0)
/-- Entries of the derivative. -/
def dYEntries (l : List (Monomial × Int)) : List (Monomial × Int) :=
  (l.map fun e => ({ e.1 with ypow := e.1.ypow - 1 }, e.2 * e.1.ypow)).filter (fun e => e.2 ≠ 0)

theorem derivativeX_ok {P : Poly} (h : ∀ e ∈ P.entries, 0 ≤ e.1.xpow) :
    P.derivativeX = .ok (insAll (dXEntries P.entries) new) := by
  unfold derivativeX
  generalize new = Q
  generalize P.entries = l at h
  induction l generalizing Q with
  | nil => rfl
  | cons e t ih =>
    have h0 := h e (by simp)
    have hstep : (do
        let t ← (Term.from' e.1 e.2).derivativeX
        Res.ok (if t.coef = 0 then Q else Q.insert t.monomial t.coef)) =
        Res.ok (if e.2 * e.1.xpow = 0 then Q
          else Q.insert { e.1 with xpow := e.1.xpow - 1 } (e.2 * e.1.xpow)) := by
      unfold Term.derivativeX
      have : rassert (decide ((Term.from' e.1 e.2).xpow ≥ 0)) = .ok () := by
        simp [rassert, Term.from', Term.xpow, h0]
      rw [this, Res.ok_bind]
      by_cases h1 : e.1.xpow > 0
      · simp only [Term.from', Term.xpow, h1, if_true, Res.ok_bind]
      · have : e.1.xpow = 0 := by omega
        simp [Term.from', Term.xpow, this, TermBuilder.coef, TermBuilder.build]
    rw [List.foldlM_cons, hstep, Res.ok_bind, ih _ (fun e he => h e (by simp [he]))]
    congr 1
    unfold dXEntries
    rw [List.map_cons, List.filter_cons]
    by_cases h1 : e.2 * e.1.xpow = 0
    · rw [if_pos h1, if_neg (by simp [h1])]
    · rw [if_neg h1, if_pos (by simpa using h1)]; rfl

theorem derivativeY_ok {P : Poly} (h : ∀ e ∈ P.entries, 0 ≤ e.1.ypow) :
    P.derivativeY = .ok (insAll (dYEntries P.entries) new) := by
  unfold derivativeY
  generalize new = Q
  generalize P.entries = l at h
  induction l generalizing Q with
  | nil => rfl
  | cons e t ih =>
    have h0 := h e (by simp)
    have hstep : (do
        let t ← (Term.from' e.1 e.2).derivativeY
        Res.ok (if t.coef = 0 then Q else Q.insert t.monomial t.coef)) =
        Res.ok (if e.2 * e.1.ypow = 0 then Q
          else Q.insert { e.1 with ypow := e.1.ypow - 1 } (e.2 * e.1.ypow)) := by
      unfold Term.derivativeY
      have : rassert (decide ((Term.from' e.1 e.2).ypow ≥ 0)) = .ok () := by
        simp [rassert, Term.from', Term.ypow, h0]
      rw [this, Res.ok_bind]
      by_cases h1 : e.1.ypow > 0
      · simp only [Term.from', Term.ypow, h1, if_true, Res.ok_bind]
      · have : e.1.ypow = 0 := by omega
        simp [Term.from', Term.ypow, this, TermBuilder.coef, TermBuilder.build]
    rw [List.foldlM_cons, hstep, Res.ok_bind, ih _ (fun e he => h e (by simp [he]))]
    congr 1
    unfold dYEntries
    rw [List.map_cons, List.filter_cons]
    by_cases h1 : e.2 * e.1.ypow = 0
    · rw [if_pos h1, if_neg (by simp [h1])]
    · rw [if_neg h1, if_pos (by simpa using h1)]; rfl

theorem sum_filter_ne_zero {l : List (Monomial × Int)} (φ : Monomial × Int → M) :
    ((l.filter fun e => e.2 ≠ 0).map fun e => e.2 • φ e).sum = (l.map fun e => e.2 • φ e).sum := by
  induction l with
  | nil => rfl
  | cons a t ih =>
    rw [List.filter_cons, List.map_cons, List.sum_cons, ← ih]
    by_cases h : a.2 = 0
    · rw [if_neg (by simpa using h), h]; simp
    · rw [if_pos (by simpa using h)]; simp

theorem lin_insAll_new {l : List (Monomial × Int)} (hl : (l.map (·.1.key)).Nodup) (φ : Key → M) :
    (insAll l new).lin φ = (l.map fun e => e.2 • φ e.1.key).sum := by
  rw [lin_eq_fs, fs_insAll_new hl, map_list_sum, List.map_map]
  congr 1
  apply List.map_congr_left
  intro e _
  simp

theorem nodup_dX (P : Poly) : ((dXEntries P.entries).map (·.1.key)).Nodup := by
  unfold dXEntries
  refine List.Nodup.sublist (List.Sublist.map _ List.filter_sublist) ?_
  rw [List.map_map]
  have : (P.entries.map ((fun e : Monomial × Int => e.1.key) ∘
      fun e => ({ e.1 with xpow := e.1.xpow - 1 }, e.2 * e.1.xpow))) =
      (P.entries.map (·.1.key)).map (fun k => { k with x := k.x - 1 }) := by
    rw [List.map_map]; rfl
  rw [this]
  refine List.Nodup.map ?_ P.keys_nodup
  rintro ⟨x, y, q, v⟩ ⟨x', y', q', v'⟩ h
  simp only [Key.mk.injEq] at h ⊢
  exact ⟨by omega, h.2⟩

theorem nodup_dY (P : Poly) : ((dYEntries P.entries).map (·.1.key)).Nodup := by
  unfold dYEntries
  refine List.Nodup.sublist (List.Sublist.map _ List.filter_sublist) ?_
  rw [List.map_map]
  have : (P.entries.map ((fun e : Monomial × Int => e.1.key) ∘
      fun e => ({ e.1 with ypow := e.1.ypow - 1 }, e.2 * e.1.ypow))) =
      (P.entries.map (·.1.key)).map (fun k => { k with y := k.y - 1 }) := by
    rw [List.map_map]; rfl
  rw [this]
  refine List.Nodup.map ?_ P.keys_nodup
  rintro ⟨x, y, q, v⟩ ⟨x', y', q', v'⟩ h
  simp only [Key.mk.injEq] at h ⊢
  exact ⟨h.1, by omega, h.2.2⟩

theorem canon_insAll_new {l : List (Monomial × Int)} (hl : (l.map (·.1.key)).Nodup)
    (h : ∀ e ∈ l, e.2 ≠ 0) : (insAll l new).Canon := by
  rw [canon_iff]
  intro k hk
  rw [look_insAll_new hl] at hk
  obtain ⟨e, he, _, h0⟩ := lookL_eq_some hk
  exact h e he h0

theorem derivativeX_neg {P : Poly} (h : ∃ e ∈ P.entries, e.1.xpow < 0) :
    P.derivativeX = .panic .assertion := by
  unfold derivativeX
  generalize new = Q
  generalize P.entries = l at h
  induction l generalizing Q with
  | nil => simp at h
  | cons e t ih =>
    rw [List.foldlM_cons]
    by_cases h0 : 0 ≤ e.1.xpow
    · have ht : ∃ e ∈ t, e.1.xpow < 0 := by
        obtain ⟨e', he', h1⟩ := h
        rcases List.mem_cons.1 he' with rfl | he'
        · omega
        · exact ⟨e', he', h1⟩
      have : rassert (decide ((Term.from' e.1 e.2).xpow ≥ 0)) = .ok () := by
        simp [rassert, Term.from', Term.xpow, h0]
      unfold Term.derivativeX
      rw [this, Res.ok_bind]
      split_ifs <;> simp only [Res.ok_bind] <;> exact ih _ ht
    · have : rassert (decide ((Term.from' e.1 e.2).xpow ≥ 0)) = .panic .assertion := by
        simp [rassert, Term.from', Term.xpow, h0]
      unfold Term.derivativeX
      rw [this]; rfl

theorem derivativeY_neg {P : Poly} (h : ∃ e ∈ P.entries, e.1.ypow < 0) :
    P.derivativeY = .panic .assertion := by
  unfold derivativeY
  generalize new = Q
  generalize P.entries = l at h
  induction l generalizing Q with
  | nil => simp at h
  | cons e t ih =>
    rw [List.foldlM_cons]
    by_cases h0 : 0 ≤ e.1.ypow
    · have ht : ∃ e ∈ t, e.1.ypow < 0 := by
        obtain ⟨e', he', h1⟩ := h
        rcases List.mem_cons.1 he' with rfl | he'
        · omega
        · exact ⟨e', he', h1⟩
      have : rassert (decide ((Term.from' e.1 e.2).ypow ≥ 0)) = .ok () := by
        simp [rassert, Term.from', Term.ypow, h0]
      unfold Term.derivativeY
      rw [this, Res.ok_bind]
      split_ifs <;> simp only [Res.ok_bind] <;> exact ih _ ht
    · have : rassert (decide ((Term.from' e.1 e.2).ypow ≥ 0)) = .panic .assertion := by
        simp [rassert, Term.from', Term.ypow, h0]
      unfold Term.derivativeY
      rw [this]; rfl

/-! ### Truncation and coefficient extraction -/

theorem omitHighOrderQ_eq_ok {P Q : Poly} {N : ℤ} (h : P.omitHighOrderQ N = .ok Q) :
    (∀ e ∈ P.entries, e.1.xpow = 0) ∧ (∀ e ∈ P.entries, e.1.ypow = 0) ∧ InI32 (N + 1) ∧
    Q.entries = P.entries.filter (fun e => e.1.qpow ≤ N) := by
  unfold omitHighOrderQ at h
  simp only [Res.bind_eq_ok, rassert_eq_ok, chk_eq_ok, Res.ok.injEq, Bool.not_eq_true',
    hasX_eq_false, hasY_eq_false] at h
  obtain ⟨_, hx, _, hy, q, ⟨hN, rfl⟩, rfl⟩ := h
  refine ⟨hx, hy, hN, ?_⟩
  unfold splitOff splitOffL
  apply List.filter_congr
  intro e he
  rw [decide_eq_decide, Monomial.cmp_lt_key, Key.lt_iff]
  have h1 := hx e he; have h2 := hy e he
  simp only [Monomial.key, h1, h2, lt_irrefl, false_or, true_and]
  constructor
  · rintro (h | ⟨_, h⟩)
    · omega
    · exfalso
      simp only [Key.rep] at h
      revert h
      cases e.1.var.key <;> simp [SubVar.cmp, SubVar.key, SubVar.new]
  · intro h; left; omega

theorem omitHighOrderQ_ok {P : Poly} {N : ℤ} (hx : ∀ e ∈ P.entries, e.1.xpow = 0)
    (hy : ∀ e ∈ P.entries, e.1.ypow = 0) (hN : InI32 (N + 1)) :
    ∃ Q, P.omitHighOrderQ N = .ok Q := by
  unfold omitHighOrderQ
  rw [hasX_eq_false.2 hx, hasY_eq_false.2 hy, chk_of hN]
  exact ⟨_, rfl⟩

end Poly
end EC
