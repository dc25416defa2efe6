import Verif.Lemmas.Value

/-! Semantics of the basic polynomial operations: coefficients (`fs`), linear functionals (`lin`),
stored keys (`All`) and stored zeros (`Canon`). -/

namespace EC
namespace Poly

variable {M : Type*} [AddCommGroup M]

theorem fs_insert (P : Poly) (m : Monomial) (c : Int) :
    (P.insert m c).fs = P.fs + Finsupp.single m.key (c - P.fs m.key) := by
  ext k
  simp only [fs_apply, look_insert, Finsupp.add_apply, Finsupp.single_apply, eq_comm (a := m.key)]
  split_ifs with h
  · subst h; simp
  · simp

theorem fs_remove (P : Poly) (m : Monomial) :
    (P.remove m).fs = P.fs + Finsupp.single m.key (- P.fs m.key) := by
  ext k
  simp only [fs_apply, look_remove, Finsupp.add_apply, Finsupp.single_apply, eq_comm (a := m.key)]
  split_ifs with h
  · subst h; simp
  · simp

theorem fs_addEntry (P : Poly) (e : Monomial × Int) :
    (addEntry P e).fs = P.fs + Finsupp.single e.1.key e.2 := by
  unfold addEntry
  rw [get?_eq]
  have h := P.fs_apply e.1.key
  cases hg : P.look e.1.key with
  | none => simp only [hg] at h; simp [fs_insert, h]
  | some av =>
    simp only [hg, Option.getD_some] at h
    simp only
    split_ifs with h0
    · rw [fs_remove, h]; congr 2; omega
    · rw [fs_insert, h]; congr 2; omega

theorem fs_subEntry (P : Poly) (e : Monomial × Int) :
    (subEntry P e).fs = P.fs - Finsupp.single e.1.key e.2 := by
  unfold subEntry
  rw [get?_eq, sub_eq_add_neg, ← Finsupp.single_neg]
  have h := P.fs_apply e.1.key
  cases hg : P.look e.1.key with
  | none => simp only [hg] at h; simp [fs_insert, h]
  | some av =>
    simp only [hg, Option.getD_some] at h
    simp only
    split_ifs with h0
    · rw [fs_remove, h]; congr 2; omega
    · rw [fs_insert, h]; congr 2; omega

theorem fs_mulAcc (P : Poly) (l : Term) :
    (mulAcc P l).fs = P.fs + Finsupp.single l.monomial.key l.coef := by
  unfold mulAcc
  rw [get?_eq]
  have h := P.fs_apply l.monomial.key
  cases hg : P.look l.monomial.key with
  | none => simp only [hg] at h; simp [fs_insert, h]
  | some av =>
    simp only [hg, Option.getD_some] at h
    simp only [fs_insert, h]; congr 2; omega

theorem look_mulAcc_isSome (P : Poly) (l : Term) (k : Key) :
    ((mulAcc P l).look k).isSome ↔ k = l.monomial.key ∨ (P.look k).isSome := by
  unfold mulAcc
  cases hg : P.get? l.monomial <;> simp only [look_insert] <;> split_ifs with h <;> simp [h]

theorem fs_foldl_addEntry (l : List (Monomial × Int)) (P : Poly) :
    (l.foldl addEntry P).fs = P.fs + (l.map fun e => Finsupp.single e.1.key e.2).sum := by
  induction l generalizing P with
  | nil => simp
  | cons a t ih => rw [List.foldl_cons, ih, fs_addEntry]; simp [add_assoc]

theorem fs_add (a b : Poly) : (a.add b).fs = a.fs + b.fs := fs_foldl_addEntry _ _
theorem fs_addAssign (a b : Poly) : (a.addAssign b).fs = a.fs + b.fs := fs_foldl_addEntry _ _

theorem fs_addAssignTerm (a : Poly) (b : Term) :
    (a.addAssignTerm b).fs = a.fs + Finsupp.single b.monomial.key b.coef := fs_addEntry _ _

theorem fs_subAssign (a b : Poly) : (a.subAssign b).fs = a.fs - b.fs := by
  unfold subAssign
  have : ∀ (l : List (Monomial × Int)) (P : Poly),
      (l.foldl subEntry P).fs = P.fs - (l.map fun e => Finsupp.single e.1.key e.2).sum := by
    intro l
    induction l with
    | nil => simp
    | cons a t ih =>
      intro P
      rw [List.foldl_cons, ih, fs_subEntry, List.map_cons, List.sum_cons]
      abel
  exact this _ _

/-! ### Building a polynomial by successive insertion -/

/-- Successive `insert`. -/
def insAll (l : List (Monomial × Int)) (P : Poly) : Poly := l.foldl (fun pol e => pol.insert e.1 e.2) P

theorem look_insAll {l : List (Monomial × Int)} (hl : (l.map (·.1.key)).Nodup) (P : Poly) (k : Key) :
    (insAll l P).look k = (lookL k l).or (P.look k) := by
  unfold insAll
  induction l generalizing P with
  | nil => simp
  | cons a t ih =>
    rw [List.map_cons, List.nodup_cons] at hl
    rw [List.foldl_cons, ih hl.2, look_insert, lookL_cons]
    by_cases h : a.1.key = k
    · subst h
      have : lookL a.1.key t = none := by
        rw [lookL_eq_none]; intro e he h2
        exact hl.1 (List.mem_map.2 ⟨e, he, h2⟩)
      simp [this]
    · simp [h, Ne.symm h]

theorem look_insAll_new {l : List (Monomial × Int)} (hl : (l.map (·.1.key)).Nodup) (k : Key) :
    (insAll l new).look k = lookL k l := by rw [look_insAll hl]; simp

theorem fs_insAll_new {l : List (Monomial × Int)} (hl : (l.map (·.1.key)).Nodup) :
    (insAll l new).fs = (l.map fun e => Finsupp.single e.1.key e.2).sum := by
  have : ∀ (l : List (Monomial × Int)) (P : Poly), (l.map (·.1.key)).Nodup →
      (∀ e ∈ l, P.look e.1.key = none) →
      (insAll l P).fs = P.fs + (l.map fun e => Finsupp.single e.1.key e.2).sum := by
    intro l
    induction l with
    | nil => intro P _ _; simp [insAll]
    | cons a t ih =>
      intro P hl hP
      rw [List.map_cons, List.nodup_cons] at hl
      have h1 : insAll (a :: t) P = insAll t (P.insert a.1 a.2) := rfl
      rw [h1, ih _ hl.2]
      · have : P.fs a.1.key = 0 := by rw [fs_apply, hP a (by simp)]; rfl
        rw [fs_insert, this]; simp [add_assoc]
      · intro e he
        rw [look_insert, if_neg, hP e (by simp [he])]
        intro h
        exact hl.1 (List.mem_map.2 ⟨e, he, h⟩)
  simpa using this l new hl (by simp)

theorem keys_nodup (P : Poly) : (P.entries.map (·.1.key)).Nodup := by
  rw [List.Nodup, List.pairwise_map]
  exact P.sorted.imp (fun {a b} h => ((Monomial.cmp_lt_key _ _).1 h).ne)

theorem look_neg (a : Poly) (k : Key) : a.neg.look k = (a.look k).map (- ·) := by
  have h : a.neg = insAll (a.entries.map fun e => (e.1, -e.2)) new := by
    unfold neg insAll; rw [List.foldl_map]
  rw [h, look_insAll_new (by rw [List.map_map]; exact a.keys_nodup)]
  unfold look
  induction a.entries with
  | nil => rfl
  | cons e t ih => rw [List.map_cons, lookL_cons, lookL_cons, ih]; split_ifs <;> rfl

theorem fs_neg (a : Poly) : a.neg.fs = -a.fs := by
  ext k
  rw [fs_apply, look_neg, Finsupp.neg_apply, fs_apply]
  cases a.look k <;> simp

theorem fs_sub (a b : Poly) : (a.sub b).fs = a.fs - b.fs := by
  unfold sub; rw [fs_add, fs_neg, sub_eq_add_neg]

theorem look_toPol (t : Term) (k : Key) :
    t.toPol.look k = if t.coef ≠ 0 ∧ k = t.monomial.key then some t.coef else none := by
  unfold Term.toPol
  split_ifs with h1 h2 h2
  · exact absurd h1 h2.1
  · rfl
  · rw [look_insert, if_pos h2.2]
  · rw [look_insert, if_neg (fun h => h2 ⟨h1, h⟩)]; rfl

theorem fs_toPol (t : Term) : t.toPol.fs = Finsupp.single t.monomial.key t.coef := by
  unfold Term.toPol
  split_ifs with h
  · simp [h]
  · rw [fs_insert]; simp

theorem fs_termAddTerm (a b : Term) : (a.add b).fs = a.toPol.fs + b.toPol.fs := by
  have : a.add b = mulAcc a.toPol b := rfl
  rw [this, fs_mulAcc, fs_toPol b]

/-! ### `lin` versions -/

variable (φ : Key → M)

theorem lin_add (a b : Poly) : (a.add b).lin φ = a.lin φ + b.lin φ := by
  simp only [lin_eq_fs, fs_add, map_add]
theorem lin_addAssign (a b : Poly) : (a.addAssign b).lin φ = a.lin φ + b.lin φ := by
  simp only [lin_eq_fs, fs_addAssign, map_add]
theorem lin_neg (a : Poly) : a.neg.lin φ = - a.lin φ := by
  simp only [lin_eq_fs, fs_neg, map_neg]
theorem lin_sub (a b : Poly) : (a.sub b).lin φ = a.lin φ - b.lin φ := by
  simp only [lin_eq_fs, fs_sub, map_sub]
theorem lin_subAssign (a b : Poly) : (a.subAssign b).lin φ = a.lin φ - b.lin φ := by
  simp only [lin_eq_fs, fs_subAssign, map_sub]
theorem lin_toPol (t : Term) : t.toPol.lin φ = t.coef • φ t.monomial.key := by
  simp [lin_eq_fs, fs_toPol]
theorem lin_addAssignTerm (a : Poly) (b : Term) :
    (a.addAssignTerm b).lin φ = a.lin φ + b.coef • φ b.monomial.key := by
  simp only [lin_eq_fs, fs_addAssignTerm, map_add, Finsupp.linearCombination_single]
theorem lin_addTerm (a : Poly) (b : Term) :
    (a.addTerm b).lin φ = a.lin φ + b.coef • φ b.monomial.key := by
  unfold addTerm; rw [lin_add, lin_toPol]
theorem lin_termAddTerm (a b : Term) :
    (a.add b).lin φ = a.coef • φ a.monomial.key + b.coef • φ b.monomial.key := by
  simp [lin_eq_fs, fs_termAddTerm, fs_toPol]
theorem lin_insert (P : Poly) (m : Monomial) (c : Int) :
    (P.insert m c).lin φ = P.lin φ + (c - P.coef m.key) • φ m.key := by
  simp [lin_eq_fs, fs_insert, coef_eq_fs, sub_smul]
theorem lin_mulAcc (P : Poly) (l : Term) :
    (mulAcc P l).lin φ = P.lin φ + l.coef • φ l.monomial.key := by
  simp [lin_eq_fs, fs_mulAcc]

/-! ### Stored keys -/

variable {S : Key → Prop}

theorem all_new : new.All S := fun _ h => by simp [new] at h
theorem canon_new : new.Canon := fun _ h => by simp [new] at h

theorem all_insert {P : Poly} (hP : P.All S) {m : Monomial} (hm : S m.key) (c : Int) :
    (P.insert m c).All S := by
  rw [all_iff] at *
  intro k c' h
  rw [look_insert] at h
  split_ifs at h with h1
  · rw [h1]; exact hm
  · exact hP k c' h

theorem all_remove {P : Poly} (hP : P.All S) (m : Monomial) : (P.remove m).All S := by
  rw [all_iff] at *
  intro k c' h
  rw [look_remove] at h
  split_ifs at h with h1
  exact hP k c' h

theorem all_addEntry {P : Poly} (hP : P.All S) {e : Monomial × Int} (he : S e.1.key) :
    (addEntry P e).All S := by
  unfold addEntry
  split
  · split_ifs
    · exact all_remove hP _
    · exact all_insert hP he _
  · exact all_insert hP he _

theorem all_subEntry {P : Poly} (hP : P.All S) {e : Monomial × Int} (he : S e.1.key) :
    (subEntry P e).All S := by
  unfold subEntry
  split
  · split_ifs
    · exact all_remove hP _
    · exact all_insert hP he _
  · exact all_insert hP he _

theorem all_foldl {f : Poly → Monomial × Int → Poly}
    (hf : ∀ P e, P.All S → S e.1.key → (f P e).All S) {l : List (Monomial × Int)}
    (hl : ∀ e ∈ l, S e.1.key) {P : Poly} (hP : P.All S) : (l.foldl f P).All S := by
  induction l generalizing P with
  | nil => exact hP
  | cons a t ih => exact ih (fun e he => hl e (by simp [he])) (hf P a hP (hl a (by simp)))

theorem all_add {a b : Poly} (ha : a.All S) (hb : b.All S) : (a.add b).All S :=
  all_foldl (fun _ _ h1 h2 => all_addEntry h1 h2) hb ha
theorem all_addAssign {a b : Poly} (ha : a.All S) (hb : b.All S) : (a.addAssign b).All S :=
  all_foldl (fun _ _ h1 h2 => all_addEntry h1 h2) hb ha
theorem all_subAssign {a b : Poly} (ha : a.All S) (hb : b.All S) : (a.subAssign b).All S :=
  all_foldl (fun _ _ h1 h2 => all_subEntry h1 h2) hb ha
theorem all_neg {a : Poly} (ha : a.All S) : a.neg.All S :=
  all_foldl (fun _ _ h1 h2 => all_insert h1 h2 _) ha all_new
theorem all_sub {a b : Poly} (ha : a.All S) (hb : b.All S) : (a.sub b).All S := all_add ha (all_neg hb)
theorem all_toPol {t : Term} (h : t.coef ≠ 0 → S t.monomial.key) : t.toPol.All S := by
  rw [all_iff]; intro k c hk
  rw [look_toPol] at hk
  split_ifs at hk with h1
  rw [h1.2]; exact h h1.1
theorem all_addTerm {a : Poly} (ha : a.All S) {t : Term} (h : t.coef ≠ 0 → S t.monomial.key) :
    (a.addTerm t).All S := all_add ha (all_toPol h)
theorem all_addAssignTerm {a : Poly} (ha : a.All S) {t : Term} (h : S t.monomial.key) :
    (a.addAssignTerm t).All S := all_addEntry ha h
theorem all_termAdd {a b : Term} (ha : a.coef ≠ 0 → S a.monomial.key) (hb : S b.monomial.key) :
    (a.add b).All S := by
  unfold Term.add
  simp only
  split <;> exact all_insert (all_toPol ha) hb _

/-! ### Stored zeros -/

theorem canon_insert {P : Poly} (hP : P.Canon) (m : Monomial) {c : Int} (hc : c ≠ 0) :
    (P.insert m c).Canon := by
  rw [canon_iff] at *
  intro k h
  rw [look_insert] at h
  split_ifs at h with h1
  · simp at h; exact hc h
  · exact hP k h

theorem canon_remove {P : Poly} (hP : P.Canon) (m : Monomial) : (P.remove m).Canon := by
  rw [canon_iff] at *
  intro k h
  rw [look_remove] at h
  split_ifs at h with h1
  exact hP k h

theorem canon_addEntry {P : Poly} (hP : P.Canon) {e : Monomial × Int} (he : e.2 ≠ 0) :
    (addEntry P e).Canon := by
  unfold addEntry
  split
  · split_ifs with h
    · exact canon_remove hP _
    · exact canon_insert hP _ h
  · exact canon_insert hP _ he

theorem canon_subEntry {P : Poly} (hP : P.Canon) {e : Monomial × Int} (he : e.2 ≠ 0) :
    (subEntry P e).Canon := by
  unfold subEntry
  split
  · split_ifs with h
    · exact canon_remove hP _
    · exact canon_insert hP _ h
  · exact canon_insert hP _ (by simpa using he)

theorem canon_foldl {f : Poly → Monomial × Int → Poly}
    (hf : ∀ P e, P.Canon → e.2 ≠ 0 → (f P e).Canon) {l : List (Monomial × Int)}
    (hl : ∀ e ∈ l, e.2 ≠ 0) {P : Poly} (hP : P.Canon) : (l.foldl f P).Canon := by
  induction l generalizing P with
  | nil => exact hP
  | cons a t ih => exact ih (fun e he => hl e (by simp [he])) (hf P a hP (hl a (by simp)))

theorem canon_add {a b : Poly} (ha : a.Canon) (hb : b.Canon) : (a.add b).Canon :=
  canon_foldl (fun _ _ h1 h2 => canon_addEntry h1 h2) hb ha
theorem canon_addAssign {a b : Poly} (ha : a.Canon) (hb : b.Canon) : (a.addAssign b).Canon :=
  canon_foldl (fun _ _ h1 h2 => canon_addEntry h1 h2) hb ha
theorem canon_subAssign {a b : Poly} (ha : a.Canon) (hb : b.Canon) : (a.subAssign b).Canon :=
  canon_foldl (fun _ _ h1 h2 => canon_subEntry h1 h2) hb ha
theorem canon_neg {a : Poly} (ha : a.Canon) : a.neg.Canon :=
  canon_foldl (fun _ _ h1 h2 => canon_insert h1 _ (by simpa using h2)) ha canon_new
theorem canon_sub {a b : Poly} (ha : a.Canon) (hb : b.Canon) : (a.sub b).Canon :=
  canon_add ha (canon_neg hb)
theorem canon_toPol (t : Term) : t.toPol.Canon := by
  rw [canon_iff]; intro k hk
  rw [look_toPol] at hk
  split_ifs at hk with h1
  simp at hk; exact h1.1 hk
theorem canon_addTerm {a : Poly} (ha : a.Canon) (t : Term) : (a.addTerm t).Canon :=
  canon_add ha (canon_toPol t)

/-! ### Multiplication -/

/-- Product of two monomial keys (at most one of them has a variable). -/
def _root_.EC.Key.mul (a b : Key) : Key :=
  { x := a.x + b.x, y := a.y + b.y, q := a.q + b.q, v := a.v.or b.v }

/-- The code can multiply these two monomials. -/
def _root_.EC.Key.Compat (a b : Key) : Prop :=
  (a.v = none ∨ b.v = none) ∧ InI32 (a.x + b.x) ∧ InI32 (a.y + b.y) ∧ InI32 (a.q + b.q)

instance (a b : Key) : Decidable (a.Compat b) := by unfold Key.Compat; infer_instance

theorem _root_.EC.SubVar.key_eq_none {v : SubVar} : v.key = none ↔ v.empty = true := by
  unfold SubVar.key; split_ifs <;> simp_all

theorem _root_.EC.Term.mul_eq_ok {a b t : Term} (h : Term.mul a b = .ok t) :
    a.monomial.key.Compat b.monomial.key ∧ t.coef = a.coef * b.coef ∧
      t.monomial.key = a.monomial.key.mul b.monomial.key := by
  unfold Term.mul at h
  split at h
  · simp at h
  rename_i h1
  simp only [Res.bind_eq_ok, chk_eq_ok, Res.ok.injEq] at h
  obtain ⟨x, ⟨hx, rfl⟩, y, ⟨hy, rfl⟩, q, ⟨hq, rfl⟩, rfl⟩ := h
  simp only [Bool.and_eq_true, Bool.not_eq_true', not_and, Bool.not_eq_false] at h1
  refine ⟨⟨?_, hx, hy, hq⟩, rfl, ?_⟩
  · by_cases h2 : a.var.empty = true
    · left; exact SubVar.key_eq_none.2 h2
    · right; exact SubVar.key_eq_none.2 (h1 (by simpa using h2))
  · unfold Key.mul Monomial.key
    simp only [Key.mk.injEq]
    refine ⟨rfl, rfl, rfl, ?_⟩
    by_cases h2 : a.var.empty = true
    · have := SubVar.key_eq_none.2 h2
      simp only [Term.var] at *
      simp [h2, this]
    · have h3 : a.var.key ≠ none := fun h => h2 (SubVar.key_eq_none.1 h)
      rw [if_pos (by simpa using h2)]
      obtain ⟨v, hv⟩ := Option.ne_none_iff_exists'.1 h3
      simp only [Term.var] at *
      simp [hv]

theorem _root_.EC.Term.mul_ok {a b : Term} (h : a.monomial.key.Compat b.monomial.key) :
    ∃ t, Term.mul a b = .ok t := by
  obtain ⟨h1, h2, h3, h4⟩ := h
  unfold Term.mul
  rw [if_neg]
  · rw [chk_of (show InI32 (a.xpow + b.xpow) from h2), chk_of (show InI32 (a.ypow + b.ypow) from h3),
      chk_of (show InI32 (a.qpow + b.qpow) from h4)]
    exact ⟨_, rfl⟩
  · simp only [Monomial.key, SubVar.key_eq_none] at h1
    simp only [Term.var]
    rcases h1 with h1 | h1 <;> simp [h1]

theorem _root_.EC.Term.mul_ne_timeout (a b : Term) : Term.mul a b ≠ .timeout := by
  unfold Term.mul
  split
  · simp
  · simp only [ne_eq, Res.bind_eq_timeout, not_or, not_exists, not_and]
    refine ⟨chk_ne_timeout, fun _ _ => ⟨chk_ne_timeout, fun _ _ => ⟨chk_ne_timeout, fun _ _ => ?_⟩⟩⟩
    simp

/-- The inner loop of `*`. -/
def mulRow (ie : Monomial × Int) (l : List (Monomial × Int)) (P : Poly) : Res Poly :=
  l.foldlM (fun pol je => do
      let l ← Term.mul (Term.from' ie.1 ie.2) (Term.from' je.1 je.2)
      .ok (mulAcc pol l)) P

theorem mulRow_cons (ie je : Monomial × Int) (l : List (Monomial × Int)) (P : Poly) :
    mulRow ie (je :: l) P = (do
      let t ← Term.mul (Term.from' ie.1 ie.2) (Term.from' je.1 je.2)
      mulRow ie l (mulAcc P t)) := by
  unfold mulRow; rw [List.foldlM_cons, bind_assoc]; simp

/-- What a successful row does. -/
theorem mulRow_eq_ok {ie : Monomial × Int} {l : List (Monomial × Int)} {P Q : Poly}
    (h : mulRow ie l P = .ok Q) :
    (∀ je ∈ l, ie.1.key.Compat je.1.key) ∧
    Q.fs = P.fs + (l.map fun je => Finsupp.single (ie.1.key.mul je.1.key) (ie.2 * je.2)).sum ∧
    (∀ k, (Q.look k).isSome ↔ (P.look k).isSome ∨ ∃ je ∈ l, k = ie.1.key.mul je.1.key) := by
  induction l generalizing P with
  | nil =>
    simp only [mulRow, List.foldlM_nil, Res.pure_eq, Res.ok.injEq] at h
    subst h; simp
  | cons je t ih =>
    rw [mulRow_cons, Res.bind_eq_ok] at h
    obtain ⟨u, hu, h⟩ := h
    obtain ⟨h1, h2, h3⟩ := Term.mul_eq_ok hu
    obtain ⟨h4, h5, h6⟩ := ih h
    refine ⟨?_, ?_, ?_⟩
    · intro e he
      rcases List.mem_cons.1 he with rfl | he
      · exact h1
      · exact h4 e he
    · rw [h5, fs_mulAcc, h2, h3]
      simp [Term.from', add_assoc]
    · intro k
      rw [h6, look_mulAcc_isSome, h3]
      simp only [List.mem_cons, exists_eq_or_imp, Term.from']
      tauto

theorem mulRow_ok {ie : Monomial × Int} {l : List (Monomial × Int)} (P : Poly)
    (h : ∀ je ∈ l, ie.1.key.Compat je.1.key) : ∃ Q, mulRow ie l P = .ok Q := by
  induction l generalizing P with
  | nil => exact ⟨P, rfl⟩
  | cons je t ih =>
    obtain ⟨u, hu⟩ := Term.mul_ok (a := Term.from' ie.1 ie.2) (b := Term.from' je.1 je.2) (h je (by simp))
    rw [mulRow_cons, hu]
    exact ih _ (fun e he => h e (by simp [he]))

theorem mulRow_ne_timeout {ie : Monomial × Int} {l : List (Monomial × Int)} (P : Poly) :
    mulRow ie l P ≠ .timeout := by
  induction l generalizing P with
  | nil => simp [mulRow]
  | cons je t ih =>
    rw [mulRow_cons, ne_eq, Res.bind_eq_timeout]
    push Not
    exact ⟨Term.mul_ne_timeout _ _, fun _ _ => ih _⟩

theorem mul_eq_rows (a b : Poly) :
    a.mul b = a.entries.foldlM (fun pol ie => mulRow ie b.entries pol) new := rfl

private theorem mulRows_eq_ok {b : Poly} {l : List (Monomial × Int)} {P Q : Poly}
    (h : l.foldlM (fun pol ie => mulRow ie b.entries pol) P = .ok Q) :
    (∀ ie ∈ l, ∀ je ∈ b.entries, ie.1.key.Compat je.1.key) ∧
    Q.fs = P.fs + (l.map fun ie => (b.entries.map fun je =>
      Finsupp.single (ie.1.key.mul je.1.key) (ie.2 * je.2)).sum).sum ∧
    (∀ k, (Q.look k).isSome ↔ (P.look k).isSome ∨
      ∃ ie ∈ l, ∃ je ∈ b.entries, k = ie.1.key.mul je.1.key) := by
  induction l generalizing P with
  | nil =>
    simp only [List.foldlM_nil, Res.pure_eq, Res.ok.injEq] at h
    subst h; simp
  | cons ie t ih =>
    rw [List.foldlM_cons, Res.bind_eq_ok] at h
    obtain ⟨u, hu, h⟩ := h
    obtain ⟨h1, h2, h3⟩ := mulRow_eq_ok hu
    obtain ⟨h4, h5, h6⟩ := ih h
    refine ⟨?_, ?_, ?_⟩
    · intro e he
      rcases List.mem_cons.1 he with rfl | he
      · exact h1
      · exact h4 e he
    · rw [h5, h2]; simp [add_assoc]
    · intro k
      rw [h6, h3]
      simp only [List.mem_cons, exists_eq_or_imp]
      exact or_assoc

/-- What a successful multiplication does. -/
theorem mul_eq_ok {a b c : Poly} (h : a.mul b = .ok c) :
    (∀ ie ∈ a.entries, ∀ je ∈ b.entries, ie.1.key.Compat je.1.key) ∧
    c.fs = (a.entries.map fun ie => (b.entries.map fun je =>
      Finsupp.single (ie.1.key.mul je.1.key) (ie.2 * je.2)).sum).sum ∧
    (∀ k, (c.look k).isSome ↔ ∃ ie ∈ a.entries, ∃ je ∈ b.entries, k = ie.1.key.mul je.1.key) := by
  have := mulRows_eq_ok (b := b) h
  simpa using this

theorem mul_ok {a b : Poly}
    (h : ∀ ie ∈ a.entries, ∀ je ∈ b.entries, ie.1.key.Compat je.1.key) : ∃ c, a.mul b = .ok c := by
  obtain ⟨c, hc, _⟩ := foldlM_total (fun pol ie => mulRow ie b.entries pol) (fun _ _ => True)
    a.entries new trivial (fun pre ie P hs _ => by
      obtain ⟨suf, hs⟩ := hs
      obtain ⟨Q, hQ⟩ := mulRow_ok (ie := ie) (l := b.entries) P (h ie (by rw [hs]; simp))
      exact ⟨Q, hQ, trivial⟩)
  exact ⟨c, hc⟩

theorem foldlM_ne_timeout {α β : Type} {f : β → α → Res β} (hf : ∀ b a, f b a ≠ .timeout)
    (l : List α) (b : β) : l.foldlM f b ≠ .timeout := by
  induction l generalizing b with
  | nil => simp
  | cons a t ih =>
    rw [List.foldlM_cons, ne_eq, Res.bind_eq_timeout]
    push Not
    exact ⟨hf _ _, fun _ _ => ih _⟩

theorem mul_ne_timeout (a b : Poly) : a.mul b ≠ .timeout := by
  rw [mul_eq_rows]; exact foldlM_ne_timeout (fun _ _ => mulRow_ne_timeout _) _ _

theorem all_mul {S T U : Key → Prop} {a b c : Poly} (ha : a.All S) (hb : b.All T)
    (hST : ∀ k k', S k → T k' → k.Compat k' → U (k.mul k')) (h : a.mul b = .ok c) : c.All U := by
  obtain ⟨h1, _, h3⟩ := mul_eq_ok h
  rw [all_iff]
  intro k v hk
  obtain ⟨ie, hi, je, hj, rfl⟩ := (h3 k).1 (by simp [hk])
  exact hST _ _ (ha ie hi) (hb je hj) (h1 ie hi je hj)

/-- Multiplication is multiplicative for every pair of functionals that are multiplicative on the
stored keys. -/
theorem lin_mul {R : Type*} [CommRing R] {φ ψ χ : Key → R} {a b c : Poly} (h : a.mul b = .ok c)
    (hm : ∀ ie ∈ a.entries, ∀ je ∈ b.entries, ie.1.key.Compat je.1.key →
      χ (ie.1.key.mul je.1.key) = φ ie.1.key * ψ je.1.key) :
    c.lin χ = a.lin φ * b.lin ψ := by
  obtain ⟨h1, h2, _⟩ := mul_eq_ok h
  rw [lin_eq_fs, h2, map_list_sum, List.map_map]
  unfold lin
  rw [← List.sum_map_mul_right]
  congr 1
  apply List.map_congr_left
  intro ie hi
  simp only [Function.comp]
  rw [map_list_sum, List.map_map, ← List.sum_map_mul_left]
  congr 1
  apply List.map_congr_left
  intro je hj
  simp only [Function.comp, Finsupp.linearCombination_single]
  rw [hm ie hi je hj (h1 ie hi je hj)]
  simp only [zsmul_eq_mul, Int.cast_mul]
  ring

theorem _root_.EC.Key.val_mul {a b : Key} (h : a.Compat b) : (a.mul b).val = a.val * b.val := by
  unfold Key.val
  rw [AddMonoidAlgebra.single_mul_single, mul_one]
  congr 1
  rcases h with ⟨h | h, _⟩
  · simp only [Key.mul, Key.expo, h]; cases b.v <;> simp
  · simp only [Key.mul, Key.expo, h]; cases a.v <;> simp

theorem _root_.EC.Key.evalAt_mul {R : Type*} [CommRing R] (x y q : R) (c : ℤ × ℤ → R) {a b : Key}
    (ha : a.Nonneg) (hb : b.Nonneg) (h : a.Compat b) :
    (a.mul b).evalAt x y q c = a.evalAt x y q c * b.evalAt x y q c := by
  obtain ⟨a1, a2, a3⟩ := ha
  obtain ⟨b1, b2, b3⟩ := hb
  simp only [Key.evalAt, Key.mul, Int.toNat_add a1 b1, Int.toNat_add a2 b2, Int.toNat_add a3 b3]
  rcases h with ⟨h | h, _⟩
  · simp only [h]; cases b.v <;> simp <;> ring
  · simp only [h]; cases a.v <;> simp <;> ring

theorem val_mul {a b c : Poly} (h : a.mul b = .ok c) : c.val = a.val * b.val := by
  rw [val_eq_lin, val_eq_lin, val_eq_lin]
  exact lin_mul h (fun _ _ _ _ hc => Key.val_mul hc)

theorem evalAt_mul {R : Type*} [CommRing R] (x y q : R) (v : ℤ × ℤ → R) {a b c : Poly}
    (ha : a.All Key.Nonneg) (hb : b.All Key.Nonneg) (h : a.mul b = .ok c) :
    c.evalAt x y q v = a.evalAt x y q v * b.evalAt x y q v := by
  simp only [evalAt_eq_lin]
  exact lin_mul h (fun ie hi je hj hc => Key.evalAt_mul x y q v (ha ie hi) (hb je hj) hc)

/-- The coefficients of a product depend only on the coefficients of the factors (when both
products exist). -/
theorem fs_mul_congr {a b c a' b' c' : Poly} (h : a.mul b = .ok c) (h' : a'.mul b' = .ok c')
    (ha : a.fs = a'.fs) (hb : b.fs = b'.fs) : c.fs = c'.fs := by
  rw [← val_injective] at *
  rw [val_mul h, val_mul h', ha, hb]

end Poly
end EC
