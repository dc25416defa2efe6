import Verif.Model.Display
import Verif.Lemmas.Value
import Verif.Spec.Text
import Mathlib.Data.List.SplitOn

/-! Helper lemmas about the printed text: it is a sequence of blank-separated tokens, and the
tokens determine the terms. -/

namespace EC

theorem natDigits_inj {a b : Nat} (h : natDigits a = natDigits b) : a = b := by
  have := congrArg (fun l => Nat.ofDigitChars 10 l 0) h
  simpa [natDigits, Nat.ofDigitChars_ten_toDigits] using this

theorem natDigits_isDigit {n : Nat} {c : Char} (h : c ∈ natDigits n) : c.isDigit = true :=
  Nat.isDigit_of_mem_toDigits (by decide) (by decide) h

theorem natDigits_ne_nil (n : Nat) : natDigits n ≠ [] := Nat.toDigits_ne_nil

theorem mem_intStr {n : Int} {c : Char} (h : c ∈ intStr n) : c.isDigit = true ∨ c = '-' := by
  unfold intStr at h
  split_ifs at h
  · rcases List.mem_cons.1 h with h | h
    · exact .inr h
    · exact .inl (natDigits_isDigit h)
  · exact .inl (natDigits_isDigit h)

theorem not_mem_intStr {n : Int} {c : Char} (h1 : c.isDigit = false) (h2 : c ≠ '-') : c ∉ intStr n := by
  intro h
  rcases mem_intStr h with h | h
  · simp [h1] at h
  · exact h2 h

theorem not_mem_natDigits {n : Nat} {c : Char} (h1 : c.isDigit = false) : c ∉ natDigits n := by
  intro h
  have := natDigits_isDigit h
  simp [h1] at this

theorem intStr_ne_nil (n : Int) : intStr n ≠ [] := by
  unfold intStr; split_ifs
  · simp
  · exact natDigits_ne_nil _

theorem intStr_inj {a b : Int} (h : intStr a = intStr b) : a = b := by
  unfold intStr at h
  split_ifs at h with h1 h2 h2
  · have := natDigits_inj (List.cons.inj h).2; omega
  · exact absurd (show '-' ∈ natDigits b.natAbs by rw [← h]; simp) (not_mem_natDigits (by decide))
  · exact absurd (show '-' ∈ natDigits a.natAbs by rw [h]; simp) (not_mem_natDigits (by decide))
  · have := natDigits_inj h; omega

/-- Decoding at a separator: two texts without the separator. -/
theorem append_sep_inj {α : Type} {c : α} {u v s t : List α} (hu : c ∉ u) (hv : c ∉ v)
    (h : u ++ c :: s = v ++ c :: t) : u = v ∧ s = t := by
  induction u generalizing v with
  | nil =>
    cases v with
    | nil => simpa using h
    | cons a v => simp only [List.nil_append, List.cons_append, List.cons.injEq] at h; simp [h.1] at hv
  | cons a u ih =>
    cases v with
    | nil => simp only [List.nil_append, List.cons_append, List.cons.injEq] at h; simp [h.1] at hu
    | cons b v =>
      simp only [List.cons_append, List.cons.injEq, List.mem_cons, not_or] at *
      obtain ⟨h1, h2⟩ := ih hu.2 hv.2 h.2
      exact ⟨⟨h.1, h1⟩, h2⟩

/-! ### Tokens -/

/-- Tokens, each followed by a blank. -/
def ws (ts : List (List Char)) : List Char := ts.flatMap (· ++ [' '])

@[simp] theorem ws_nil : ws [] = [] := rfl
@[simp] theorem ws_cons (t : List Char) (ts) : ws (t :: ts) = t ++ ' ' :: ws ts := by simp [ws]
@[simp] theorem ws_append (a b) : ws (a ++ b) = ws a ++ ws b := by simp [ws]

/-- A non-empty text without blanks. -/
def Tok (t : List Char) : Prop := t ≠ [] ∧ ' ' ∉ t

theorem ws_inj {a b : List (List Char)} (ha : ∀ t ∈ a, Tok t) (hb : ∀ t ∈ b, Tok t) (h : ws a = ws b) :
    a = b := by
  induction a generalizing b with
  | nil => cases b with
    | nil => rfl
    | cons t b => simp at h
  | cons s a ih => cases b with
    | nil => simp at h
    | cons t b =>
      simp only [ws_cons] at h
      obtain ⟨h1, h2⟩ := append_sep_inj (ha s (by simp)).2 (hb t (by simp)).2 h
      rw [h1, ih (fun t ht => ha t (by simp [ht])) (fun t ht => hb t (by simp [ht])) h2]

theorem trimEnd_of_last {s : List Char} {c : Char} (hc : c ≠ ' ') : trimEnd (s ++ [c]) = s ++ [c] := by
  simp [trimEnd, hc]

theorem trimEnd_blank (s : List Char) : trimEnd (s ++ [' ']) = trimEnd s := by simp [trimEnd]

theorem trimEnd_tok (s : List Char) {t : List Char} (ht : Tok t) : trimEnd (s ++ t) = s ++ t := by
  obtain ⟨t', c, rfl⟩ : ∃ t' c, t = t' ++ [c] := ⟨_, _, (List.dropLast_append_getLast ht.1).symm⟩
  rw [← List.append_assoc]
  refine trimEnd_of_last fun h => ht.2 (by simp [h])

theorem trimEnd_ws {ts : List (List Char)} (h : ∀ t ∈ ts, Tok t) (hne : ts ≠ []) :
    trimEnd (ws ts) ++ [' '] = ws ts := by
  obtain ⟨a, t, rfl⟩ : ∃ a t, ts = a ++ [t] := ⟨_, _, (List.dropLast_append_getLast hne).symm⟩
  have : ws (a ++ [t]) = (ws a ++ t) ++ [' '] := by simp
  rw [this, trimEnd_blank, trimEnd_tok _ (h t (by simp))]

theorem trimEnd_ws_tok {a : List (List Char)} {t : List Char} (ht : Tok t) :
    trimEnd (ws a ++ t) ++ [' '] = ws (a ++ [t]) := by
  rw [trimEnd_tok _ ht]; simp

/-- Token of a power. -/
def powToks (name : Char) (n : Int) : List (List Char) :=
  if n = 0 then [] else [if n = 1 then [name] else [name, '^'] ++ intStr n]

theorem powStr_eq (name : Char) (n : Int) : powStr name n = ws (powToks name n) := by
  unfold powStr powToks; split_ifs <;> simp

/-- Tokens of the variable. -/
def varToks (v : SubVar) : List (List Char) := if v.empty then [] else [v.display]

/-- Tokens of a monomial. -/
def monoToks (m : Monomial) : List (List Char) :=
  powToks 'x' m.xpow ++ (powToks 'y' m.ypow ++ (powToks 'q' m.qpow ++ varToks m.var))

theorem mem_powToks {name : Char} {n : Int} {t : List Char} (h : t ∈ powToks name n) :
    t.head? = some name ∧ (name ≠ ' ' → Tok t) := by
  unfold powToks at h
  have := not_mem_intStr (n := n) (c := ' ') (by decide) (by decide)
  split_ifs at h <;> simp only [List.not_mem_nil, List.mem_singleton] at h <;> subst h
  · simp [Tok, eq_comm]
  · refine ⟨rfl, fun hn => ⟨by simp, ?_⟩⟩
    simp [this, Ne.symm hn]

theorem mem_varToks {v : SubVar} {t : List Char} (h : t ∈ varToks v) : t.head? = some 'c' ∧ Tok t := by
  unfold varToks SubVar.display at h
  have h1 := not_mem_intStr (n := v.i) (c := ' ') (by decide) (by decide)
  have h2 := not_mem_intStr (n := v.j) (c := ' ') (by decide) (by decide)
  split_ifs at h <;> simp only [List.not_mem_nil, List.mem_singleton] at h
  subst h
  exact ⟨rfl, by simp, by simp [h1, h2]⟩

theorem mem_monoToks {m : Monomial} {t : List Char} (h : t ∈ monoToks m) :
    (t.head? = some 'x' ∨ t.head? = some 'y' ∨ t.head? = some 'q' ∨ t.head? = some 'c') ∧ Tok t := by
  simp only [monoToks, List.mem_append] at h
  rcases h with h | h | h | h
  · exact ⟨.inl (mem_powToks h).1, (mem_powToks h).2 (by decide)⟩
  · exact ⟨.inr (.inl (mem_powToks h).1), (mem_powToks h).2 (by decide)⟩
  · exact ⟨.inr (.inr (.inl (mem_powToks h).1)), (mem_powToks h).2 (by decide)⟩
  · exact ⟨.inr (.inr (.inr (mem_varToks h).1)), (mem_varToks h).2⟩

theorem powToks_append_inj {name : Char} {n n' : Int} {r r' : List (List Char)}
    (hr : ∀ t ∈ r, t.head? ≠ some name) (hr' : ∀ t ∈ r', t.head? ≠ some name)
    (h : powToks name n ++ r = powToks name n' ++ r') : n = n' ∧ r = r' := by
  by_cases h1 : n = 0 <;> by_cases h2 : n' = 0
  · subst h1 h2; simpa [powToks] using h
  · exfalso
    have hm : (if n' = 1 then [name] else [name, '^'] ++ intStr n') ∈ r := by
      simp only [powToks, h1, h2, if_true, if_false] at h
      simp at h; simp [h]
    refine hr _ hm ?_
    split_ifs <;> rfl
  · exfalso
    have hm : (if n = 1 then [name] else [name, '^'] ++ intStr n) ∈ r' := by
      simp only [powToks, h1, h2, if_true, if_false] at h
      simp at h; simp [← h]
    refine hr' _ hm ?_
    split_ifs <;> rfl
  · simp only [powToks, h1, h2, if_false, List.singleton_append, List.cons.injEq] at h
    refine ⟨?_, h.2⟩
    have h := h.1
    split_ifs at h with h3 h4 h4
    · omega
    · simp at h
    · simp at h
    · simp only [List.cons_append, List.cons.injEq, List.nil_append, true_and] at h
      exact intStr_inj h

theorem varToks_inj {v v' : SubVar} (h : varToks v = varToks v') : v.key = v'.key := by
  unfold varToks SubVar.display at h
  unfold SubVar.key
  cases hv : v.empty <;> cases hv' : v'.empty <;> simp [hv, hv'] at h ⊢
  obtain ⟨h1, h2⟩ := append_sep_inj (not_mem_intStr (by decide) (by decide))
    (not_mem_intStr (by decide) (by decide)) h
  exact ⟨intStr_inj h1, intStr_inj h2⟩

theorem monoToks_inj {m m' : Monomial} (h : monoToks m = monoToks m') : m.key = m'.key := by
  have hx : ∀ m : Monomial, ∀ t ∈ powToks 'y' m.ypow ++ (powToks 'q' m.qpow ++ varToks m.var),
      t.head? ≠ some 'x' := by
    intro m t ht
    simp only [List.mem_append] at ht
    rcases ht with h | h | h
    · rw [(mem_powToks h).1]; decide
    · rw [(mem_powToks h).1]; decide
    · rw [(mem_varToks h).1]; decide
  have hy : ∀ m : Monomial, ∀ t ∈ (powToks 'q' m.qpow ++ varToks m.var), t.head? ≠ some 'y' := by
    intro m t ht
    simp only [List.mem_append] at ht
    rcases ht with h | h
    · rw [(mem_powToks h).1]; decide
    · rw [(mem_varToks h).1]; decide
  have hq : ∀ m : Monomial, ∀ t ∈ varToks m.var, t.head? ≠ some 'q' := by
    intro m t h
    rw [(mem_varToks h).1]; decide
  obtain ⟨h1, h⟩ := powToks_append_inj (hx m) (hx m') h
  obtain ⟨h2, h⟩ := powToks_append_inj (hy m) (hy m') h
  obtain ⟨h3, h⟩ := powToks_append_inj (hq m) (hq m') h
  simp [Monomial.key, h1, h2, h3, varToks_inj h]

/-- Tokens of the absolute value of a term. -/
def bodyToks (m : Monomial) (c : Nat) : List (List Char) :=
  if c = 1 then (if monoToks m = [] then [['1']] else monoToks m) else natDigits c :: monoToks m

theorem bodyToks_ne_nil (m : Monomial) (c : Nat) : bodyToks m c ≠ [] := by
  unfold bodyToks; split_ifs <;> simp_all

theorem tok_natDigits (c : Nat) : Tok (natDigits c) := ⟨natDigits_ne_nil c, not_mem_natDigits (by decide)⟩

theorem mem_bodyToks {m : Monomial} {c : Nat} {t : List Char} (h : t ∈ bodyToks m c) :
    Tok t ∧ t ≠ ['+'] ∧ t ≠ ['-'] := by
  have hm : ∀ t ∈ monoToks m, Tok t ∧ t ≠ ['+'] ∧ t ≠ ['-'] := by
    intro t ht
    obtain ⟨h1, h2⟩ := mem_monoToks ht
    refine ⟨h2, ?_, ?_⟩ <;> rintro rfl <;> simp at h1
  unfold bodyToks at h
  split_ifs at h
  · simp only [List.mem_singleton] at h; subst h; exact ⟨⟨by simp, by decide⟩, by decide, by decide⟩
  · exact hm t h
  · rcases List.mem_cons.1 h with rfl | h
    · refine ⟨tok_natDigits c, ?_, ?_⟩
      · intro h; exact not_mem_natDigits (n := c) (c := '+') (by decide) (by simp [h])
      · intro h; exact not_mem_natDigits (n := c) (c := '-') (by decide) (by simp [h])
    · exact hm t h

theorem natDigits_not_mem_monoToks (c : Nat) (m : Monomial) : natDigits c ∉ monoToks m := by
  intro h
  have h1 := (mem_monoToks h).1
  rcases hd : natDigits c with _ | ⟨d, l⟩
  · exact natDigits_ne_nil _ hd
  · have := natDigits_isDigit (n := c) (c := d) (by simp [hd])
    rw [hd] at h1
    simp only [List.head?_cons, Option.some.injEq] at h1
    rcases h1 with h1 | h1 | h1 | h1 <;> subst h1 <;> simp at this

theorem bodyToks_inj {m m' : Monomial} {c c' : Nat} (h : bodyToks m c = bodyToks m' c') :
    m.key = m'.key ∧ c = c' := by
  have e1 : natDigits 1 = ['1'] := by decide
  unfold bodyToks at h
  rw [← e1] at h
  split_ifs at h with h1 h2 h3 h4 h5 h6 h7 h8 h9 h10
  · exact ⟨monoToks_inj (h2.trans h4.symm), by omega⟩
  · exact absurd (show natDigits 1 ∈ monoToks m' by simp [← h]) (natDigits_not_mem_monoToks _ _)
  · have := natDigits_inj (List.cons.inj h).1; omega
  · exact absurd (show natDigits 1 ∈ monoToks m by simp [h]) (natDigits_not_mem_monoToks _ _)
  · exact ⟨monoToks_inj h, by omega⟩
  · exact absurd (show natDigits c' ∈ monoToks m by simp [h]) (natDigits_not_mem_monoToks _ _)
  · have := natDigits_inj (List.cons.inj h).1; omega
  · exact absurd (show natDigits c ∈ monoToks m' by simp [← h]) (natDigits_not_mem_monoToks _ _)
  · exact ⟨monoToks_inj (List.cons.inj h).2, natDigits_inj (List.cons.inj h).1⟩

theorem varToks_congr {v v' : SubVar} (h : v.key = v'.key) : varToks v = varToks v' := by
  unfold SubVar.key at h
  unfold varToks SubVar.display
  cases hv : v.empty <;> cases hv' : v'.empty <;> simp [hv, hv'] at h ⊢
  rw [h.1, h.2]

theorem monoToks_congr {m m' : Monomial} (h : m.key = m'.key) : monoToks m = monoToks m' := by
  simp only [Monomial.key, Key.mk.injEq] at h
  simp [monoToks, h.1, h.2.1, h.2.2.1, varToks_congr h.2.2.2]

theorem bodyToks_congr {m m' : Monomial} (h : m.key = m'.key) (c : Nat) : bodyToks m c = bodyToks m' c := by
  simp [bodyToks, monoToks_congr h]

/-- The printed monomial, apart from the final blank. -/
theorem trimEnd_monomial (pre : List (List Char)) (m : Monomial) (hpre : ∀ t ∈ pre, Tok t)
    (hne : pre ++ monoToks m ≠ []) :
    trimEnd (ws pre ++ m.display) ++ [' '] = ws (pre ++ monoToks m) := by
  have hall : ∀ t ∈ pre ++ monoToks m, Tok t := by
    intro t ht
    rcases List.mem_append.1 ht with h | h
    · exact hpre t h
    · exact (mem_monoToks h).2
  cases hv : m.var.empty
  · have e : ws pre ++ m.display =
        ws (pre ++ (powToks 'x' m.xpow ++ (powToks 'y' m.ypow ++ powToks 'q' m.qpow))) ++ m.var.display := by
      simp [Monomial.display, powStr_eq, hv]
    rw [e, trimEnd_ws_tok]
    · simp [monoToks, varToks, hv]
    · exact (mem_varToks (v := m.var) (by simp [varToks, hv])).2
  · have e : ws pre ++ m.display = ws (pre ++ monoToks m) := by
      simp [Monomial.display, powStr_eq, monoToks, varToks, hv]
    rw [e, trimEnd_ws hall hne]

theorem monoToks_eq_nil {m : Monomial} :
    monoToks m = [] ↔ (m.xpow = 0 ∧ m.ypow = 0 ∧ m.qpow = 0) ∧ m.var.empty = true := by
  simp only [monoToks, powToks, varToks, List.append_eq_nil_iff]
  cases m.var.empty <;> simp

/-- Sign token. -/
def signToks (c : Int) : List (List Char) := if c < 0 then [['-']] else []

theorem term_display (m : Monomial) (c : Int) :
    (Term.from' m c).display ++ [' '] = ws (signToks c ++ bodyToks m c.natAbs) := by
  have e1 : natDigits 1 = ['1'] := by decide
  change (if c = 1 then
      if m.xpow = 0 ∧ m.ypow = 0 ∧ m.qpow = 0 then
        if m.var.empty then ['1'] else m.var.display
      else trimEnd m.display
    else if c = -1 then
      if m.xpow = 0 ∧ m.ypow = 0 ∧ m.qpow = 0 then
        if m.var.empty then ['-', ' ', '1'] else ['-', ' '] ++ m.var.display
      else trimEnd (['-', ' '] ++ m.display)
    else
      trimEnd ((if c ≥ 0 then intStr c else ['-', ' '] ++ intStr (c * -1)) ++ [' '] ++
        m.display)) ++ [' '] = _
  have hm := monoToks_eq_nil (m := m)
  by_cases h1 : c = 1
  on_goal 1 => rw [if_pos h1]
  on_goal 2 => rw [if_neg h1]
  on_goal 2 => by_cases h4 : c = -1
  on_goal 2 => rw [if_pos h4]
  on_goal 3 => rw [if_neg h4]
  on_goal 1 => split_ifs with h2 h3
  on_goal 4 => split_ifs with h5 h6
  on_goal 7 => split_ifs with h7
  · subst h1; simp [signToks, bodyToks, hm.2 ⟨h2, h3⟩]
  · subst h1
    have : monoToks m ≠ [] := by rw [Ne, hm]; simp [h3]
    simp only [signToks, bodyToks, this, if_false, Int.natAbs_one, if_true]
    simp [monoToks, h2, powToks, varToks, h3]
  · subst h1
    have : monoToks m ≠ [] := by rw [Ne, hm]; simp [h2]
    simp only [signToks, bodyToks, this, if_false, Int.natAbs_one, if_true]
    simpa using trimEnd_monomial [] m (by simp) (by simpa using this)
  · subst h4; simp [signToks, bodyToks, hm.2 ⟨h5, h6⟩]
  · subst h4
    have : monoToks m ≠ [] := by rw [Ne, hm]; simp [h6]
    simp only [signToks, bodyToks, this, if_false, Int.natAbs_neg, Int.natAbs_one, if_true]
    simp [monoToks, h5, powToks, varToks, h6]
  · subst h4
    have : monoToks m ≠ [] := by rw [Ne, hm]; simp [h5]
    simp only [signToks, bodyToks, this, if_false, Int.natAbs_neg, Int.natAbs_one, if_true]
    simpa using trimEnd_monomial [['-']] m (by simp [Tok]) (by simp)
  · have hc : ¬ c < 0 := by omega
    have h8 : c.natAbs ≠ 1 := by omega
    have := trimEnd_monomial [natDigits c.natAbs] m (by simp [tok_natDigits]) (by simp)
    simpa [signToks, bodyToks, h8, hc, intStr] using this
  · have hc : c < 0 := by omega
    have hc2 : ¬ 0 < c := by omega
    have h8 : c.natAbs ≠ 1 := by omega
    have := trimEnd_monomial [['-'], natDigits c.natAbs] m (by simp [tok_natDigits]; simp [Tok]) (by simp)
    simpa [signToks, bodyToks, h8, hc, hc2, intStr] using this

/-- Tokens of the terms, for terms that are not the first. -/
def restToks : List (Monomial × Int) → List (List Char)
  | [] => []
  | e :: t => (if e.2 < 0 then ['-'] else ['+']) :: (bodyToks e.1 e.2.natAbs ++ restToks t)

theorem split_sign {a b r s : List (List Char)} (ha : ∀ t ∈ a, t ≠ ['+'] ∧ t ≠ ['-'])
    (hb : ∀ t ∈ b, t ≠ ['+'] ∧ t ≠ ['-']) (hr : ∀ t ∈ r.head?, t = ['+'] ∨ t = ['-'])
    (hs : ∀ t ∈ s.head?, t = ['+'] ∨ t = ['-']) (h : a ++ r = b ++ s) : a = b ∧ r = s := by
  induction a generalizing b with
  | nil =>
    cases b with
    | nil => simpa using h
    | cons t b =>
      simp only [List.nil_append] at h
      subst h
      have := hr t (by simp); have := hb t (by simp); tauto
  | cons u a ih =>
    cases b with
    | nil =>
      simp only [List.nil_append] at h
      subst h
      have := hs u (by simp); have := ha u (by simp); tauto
    | cons t b =>
      simp only [List.cons_append, List.cons.injEq] at h
      obtain ⟨h1, h2⟩ := ih (fun t ht => ha t (by simp [ht])) (fun t ht => hb t (by simp [ht])) h.2
      exact ⟨by rw [h.1, h1], h2⟩

theorem restToks_head {l : List (Monomial × Int)} : ∀ t ∈ (restToks l).head?, t = ['+'] ∨ t = ['-'] := by
  cases l with
  | nil => simp [restToks]
  | cons e t => simp [restToks]; omega

theorem restToks_inj {l l' : List (Monomial × Int)}
    (h : restToks l = restToks l') : l.map (fun e => (e.1.key, e.2)) = l'.map (fun e => (e.1.key, e.2)) := by
  induction l generalizing l' with
  | nil => cases l' with
    | nil => rfl
    | cons e t => simp [restToks] at h
  | cons e t ih => cases l' with
    | nil => simp [restToks] at h
    | cons e' t' =>
      simp only [restToks, List.cons.injEq] at h
      obtain ⟨h1, h2⟩ := h
      obtain ⟨h3, h4⟩ := split_sign (fun _ ht => (mem_bodyToks ht).2) (fun _ ht => (mem_bodyToks ht).2)
        restToks_head restToks_head h2
      obtain ⟨h5, h6⟩ := bodyToks_inj h3
      have h7 : e.2 = e'.2 := by
        split_ifs at h1 with h8 h9 h9
        · omega
        · simp at h1
        · simp at h1
        · omega
      simp only [List.map_cons, ih h4, h5, h7]

/-- Tokens of a whole polynomial, most significant term first. -/
def polyToks : List (Monomial × Int) → List (List Char)
  | [] => [['0']]
  | e :: t => signToks e.2 ++ (bodyToks e.1 e.2.natAbs ++ restToks t)

theorem polyToks_inj {l l' : List (Monomial × Int)} (hl : ∀ e ∈ l, e.2 ≠ 0) (hl' : ∀ e ∈ l', e.2 ≠ 0)
    (h : polyToks l = polyToks l') : l.map (fun e => (e.1.key, e.2)) = l'.map (fun e => (e.1.key, e.2)) := by
  have e0 : ∀ (e : Monomial × Int) t, e.2 ≠ 0 → polyToks (e :: t) ≠ [['0']] := by
    intro e t he h
    have hz : ([['0']] : List (List Char)) = bodyToks ⟨0, 0, 0, SubVar.new⟩ 0 ++ [] := by
      decide
    simp only [polyToks, signToks] at h
    split_ifs at h
    · simp at h
    · rw [List.nil_append, hz] at h
      obtain ⟨h3, h4⟩ := split_sign (fun _ ht => (mem_bodyToks ht).2) (fun _ ht => (mem_bodyToks ht).2)
        restToks_head (by simp) h
      have := (bodyToks_inj h3).2
      omega
  cases l with
  | nil => cases l' with
    | nil => rfl
    | cons e t => exact absurd h.symm (e0 e t (hl' e (by simp)))
  | cons e t => cases l' with
    | nil => exact absurd h (e0 e t (hl e (by simp)))
    | cons e' t' =>
      simp only [polyToks, signToks] at h
      have hno : ∀ (m m' : Monomial) (c c' : Nat) (r r' : List (List Char)),
          [['-']] ++ (bodyToks m c ++ r) ≠ [] ++ (bodyToks m' c' ++ r') := by
        intro m m' c c' r r' h
        rcases hb : bodyToks m' c' with _ | ⟨u, us⟩
        · exact bodyToks_ne_nil _ _ hb
        · rw [hb] at h
          simp only [List.cons_append, List.nil_append, List.cons.injEq] at h
          exact (mem_bodyToks (m := m') (c := c') (t := u) (by simp [hb])).2.2 h.1.symm
      have key : bodyToks e.1 e.2.natAbs ++ restToks t = bodyToks e'.1 e'.2.natAbs ++ restToks t' ∧
          (e.2 < 0 ↔ e'.2 < 0) := by
        split_ifs at h with h1 h2 h2
        · exact ⟨by simpa using h, by tauto⟩
        · exact absurd h (hno _ _ _ _ _ _)
        · exact absurd h.symm (hno _ _ _ _ _ _)
        · exact ⟨by simpa using h, by tauto⟩
      obtain ⟨h3, h4⟩ := split_sign (fun _ ht => (mem_bodyToks ht).2) (fun _ ht => (mem_bodyToks ht).2)
        restToks_head restToks_head key.1
      obtain ⟨h5, h6⟩ := bodyToks_inj h3
      have h7 : e.2 = e'.2 := by have := key.2; omega
      simp only [List.map_cons, restToks_inj h4, h5, h7]

theorem mem_restToks {l : List (Monomial × Int)} {t : List Char} (h : t ∈ restToks l) : Tok t := by
  induction l with
  | nil => simp [restToks] at h
  | cons e l ih =>
    simp only [restToks, List.mem_cons, List.mem_append] at h
    rcases h with h | h | h
    · split_ifs at h <;> subst h <;> exact ⟨by simp, by decide⟩
    · exact (mem_bodyToks h).1
    · exact ih h

theorem mem_polyToks {l : List (Monomial × Int)} {t : List Char} (h : t ∈ polyToks l) : Tok t := by
  cases l with
  | nil => simp [polyToks] at h; subst h; exact ⟨by simp, by decide⟩
  | cons e l =>
    simp only [polyToks, signToks, List.mem_append] at h
    rcases h with h | h | h
    · split_ifs at h <;> simp at h; subst h; exact ⟨by simp, by decide⟩
    · exact (mem_bodyToks h).1
    · exact mem_restToks h

theorem polyToks_ne_nil (l : List (Monomial × Int)) : polyToks l ≠ [] := by
  cases l with
  | nil => simp [polyToks]
  | cons e l => simp [polyToks, bodyToks_ne_nil]

theorem displayStep_fold_rest (l : List (Monomial × Int)) (hl : ∀ e ∈ l, e.2 ≠ 0) (s : List Char) (i : Nat)
    (hi : i ≠ 0) : (l.foldl Poly.displayStep (s, i)).1 = s ++ ws (restToks l) := by
  induction l generalizing s i with
  | nil => simp [restToks]
  | cons e l ih =>
    rw [List.foldl_cons]
    have hne := hl e (by simp)
    have hd := term_display e.1 e.2
    have e1 : Poly.displayStep (s, i) e =
        (s ++ ws ((if e.2 < 0 then ['-'] else ['+']) :: bodyToks e.1 e.2.natAbs), i + 1) := by
      simp only [Poly.displayStep, hne, ne_eq, not_false_eq_true, if_true, hi, and_true]
      by_cases hc : e.2 > 0
      · have : ¬ e.2 < 0 := by omega
        simp only [hc, this, if_true, if_false, List.append_assoc, hd, signToks]
        simp
      · have : e.2 < 0 := by omega
        simp only [hc, this, if_true, if_false, List.append_assoc, hd, signToks]
        simp
    rw [e1, ih (fun e he => hl e (by simp [he])) _ _ (by omega)]
    simp [restToks]

theorem poly_display (P : Poly) (hP : P.Canon) :
    P.display ++ [' '] = ws (polyToks P.entries.reverse) := by
  unfold Poly.display Poly.isZero Poly.len
  have hl : ∀ e ∈ P.entries.reverse, e.2 ≠ 0 := fun e he => hP e (List.mem_reverse.1 he)
  rcases hr : P.entries.reverse with _ | ⟨e, l⟩
  · simp [List.reverse_eq_nil_iff.1 hr, polyToks]
  · have h0 : P.entries ≠ [] := by intro h; simp [h] at hr
    have h1 : (P.entries.length == 0) = false := by simp [h0]
    rw [h1]
    simp only [Bool.false_eq_true, if_false]
    rw [hr] at hl
    have hne := hl e (by simp)
    have hd := term_display e.1 e.2
    have e1 : Poly.displayStep ([], 0) e = (ws (signToks e.2 ++ bodyToks e.1 e.2.natAbs), 1) := by
      simp [Poly.displayStep, hne, hd]
    rw [List.foldl_cons, e1, displayStep_fold_rest l (fun e he => hl e (by simp [he])) _ _ (by omega)]
    rw [← ws_append, List.append_assoc]
    exact trimEnd_ws (fun t ht => mem_polyToks (l := e :: l) ht) (polyToks_ne_nil (e :: l))

theorem polyToks_congr {l l' : List (Monomial × Int)}
    (h : l.map (fun e => (e.1.key, e.2)) = l'.map (fun e => (e.1.key, e.2))) : polyToks l = polyToks l' := by
  have hrest : ∀ l l' : List (Monomial × Int),
      l.map (fun e => (e.1.key, e.2)) = l'.map (fun e => (e.1.key, e.2)) → restToks l = restToks l' := by
    intro l
    induction l with
    | nil => intro l' h; cases l' with
      | nil => rfl
      | cons => simp at h
    | cons e t ih => intro l' h; cases l' with
      | nil => simp at h
      | cons e' t' =>
        simp only [List.map_cons, List.cons.injEq, Prod.mk.injEq] at h
        simp only [restToks, h.1.2, bodyToks_congr h.1.1, ih t' h.2]
  cases l with
  | nil => cases l' with
    | nil => rfl
    | cons => simp at h
  | cons e t => cases l' with
    | nil => simp at h
    | cons e' t' =>
      simp only [List.map_cons, List.cons.injEq, Prod.mk.injEq] at h
      simp only [polyToks, h.1.2, bodyToks_congr h.1.1, hrest t t' h.2]

theorem poly_display_iff {P Q : Poly} (hP : P.Canon) (hQ : Q.Canon) : P.display = Q.display ↔ P.kv = Q.kv := by
  have hl : ∀ e ∈ P.entries.reverse, e.2 ≠ 0 := fun e he => hP e (List.mem_reverse.1 he)
  have hl' : ∀ e ∈ Q.entries.reverse, e.2 ≠ 0 := fun e he => hQ e (List.mem_reverse.1 he)
  have h1 := poly_display P hP
  have h2 := poly_display Q hQ
  constructor
  · intro h
    rw [h, h2] at h1
    have := polyToks_inj hl' hl (ws_inj (fun _ => mem_polyToks) (fun _ => mem_polyToks) h1)
    rw [List.map_reverse, List.map_reverse] at this
    exact (List.reverse_injective this).symm
  · intro h
    have : polyToks P.entries.reverse = polyToks Q.entries.reverse := by
      apply polyToks_congr
      rw [List.map_reverse, List.map_reverse]
      exact congrArg _ h
    rw [this, ← h2] at h1
    exact List.append_cancel_right h1


/-! ### Reading the text back -/

theorem readNat_natDigits (n : Nat) : readNat (natDigits n) = n := Nat.ofDigitChars_ten_toDigits

theorem readInt_intStr (n : Int) : readInt (intStr n) = n := by
  unfold intStr
  split_ifs with h
  · simp only [readInt, readNat_natDigits]; omega
  · rcases hd : natDigits n.natAbs with _ | ⟨d, l⟩
    · exact absurd hd (natDigits_ne_nil _)
    · have h2 : d ≠ '-' := by
        rintro rfl
        exact not_mem_natDigits (n := n.natAbs) (c := '-') (by decide) (by simp [hd])
      have : readInt (d :: l) = readNat (d :: l) := by
        unfold readInt; split
        · simp_all
        · rfl
      rw [this, ← hd, readNat_natDigits]; omega

theorem splitOn_ws {ts : List (List Char)} (h : ∀ t ∈ ts, Tok t) (hne : ts ≠ []) :
    (trimEnd (ws ts)).splitOn ' ' = ts := by
  have : trimEnd (ws ts) = [' '].intercalate ts := by
    have h1 := trimEnd_ws h hne
    have h2 : ∀ ts : List (List Char), ts ≠ [] → ws ts = [' '].intercalate ts ++ [' '] := by
      intro ts
      induction ts with
      | nil => simp
      | cons t ts ih =>
        intro _
        cases ts with
        | nil => simp [List.intercalate]
        | cons u us => rw [ws_cons, ih (by simp)]; simp [List.intercalate]
    exact List.append_cancel_right (h1.trans (h2 ts hne))
  rw [this]
  exact List.splitOn_intercalate ' ' (fun l hl => (h l hl).2) hne

/-- The state of the reader after a list of tokens. -/
noncomputable def rd (ts : List (List Char)) : LRing × Option LRing := ts.foldr readStep (0, none)

theorem readText_eq {s : List Char} {ts : List (List Char)} (h : ∀ t ∈ ts, Tok t)
    (hs : s = trimEnd (ws ts)) : readText s = (rd ts).1 + (rd ts).2.getD 0 := by
  subst hs
  cases ts with
  | nil => simp [readText, rd, readStep, ws, trimEnd, readFactor, readNat]
  | cons t ts => unfold readText; rw [splitOn_ws h (by simp)]; rfl

theorem rd_factor {t : List Char} (h1 : t ≠ ['+']) (h2 : t ≠ ['-']) (ts) :
    rd (t :: ts) = ((rd ts).1, some (readFactor t * (rd ts).2.getD 1)) := by
  simp [rd, readStep, h1, h2]

/-- Factors in front of a list of tokens. -/
theorem rd_append {a : List (List Char)} (ha : ∀ t ∈ a, t ≠ ['+'] ∧ t ≠ ['-']) (hne : a ≠ [])
    {ts : List (List Char)} (hts : (rd ts).2 = none) :
    rd (a ++ ts) = ((rd ts).1, some (a.map readFactor).prod) := by
  induction a with
  | nil => simp at hne
  | cons t a ih =>
    have h := ha t (by simp)
    rw [List.cons_append, rd_factor h.1 h.2]
    cases a with
    | nil => simp [hts]
    | cons u a => rw [ih (fun t ht => ha t (by simp [ht])) (by simp)]; simp

theorem mono_mul (i j k i' j' k' : ℤ) : mono i j k * mono i' j' k' = mono (i + i') (j + j') (k + k') := by
  simp [mono, AddMonoidAlgebra.single_mul_single]

theorem mono_zero : mono 0 0 0 = 1 := rfl

theorem readFactor_pow {name : Char} {f : ℤ → LRing} (h0 : f 0 = 1)
    (h : ∀ r, readFactor (name :: r) = f (readExp r)) (n : ℤ) :
    ((powToks name n).map readFactor).prod = f n := by
  unfold powToks
  split_ifs with h1 h2
  · simp [h1, h0]
  · simp [h, h2, readExp]
  · simp [h, readExp, readInt_intStr]

theorem readFactor_var (v : SubVar) :
    ((varToks v).map readFactor).prod = Key.val { x := 0, y := 0, q := 0, v := v.key } := by
  unfold varToks SubVar.key
  cases hv : v.empty
  · simp only [Bool.false_eq_true, if_false, List.map_cons, List.map_nil, List.prod_cons, List.prod_nil, mul_one,
      SubVar.display, hv, List.cons_append, List.nil_append, readFactor]
    have : (intStr v.i ++ '_' :: intStr v.j).splitOn '_' = [intStr v.i, intStr v.j] := by
      have := List.splitOn_intercalate '_' (ls := [intStr v.i, intStr v.j])
        (by
          intro l hl
          simp only [List.mem_cons, List.not_mem_nil, or_false] at hl
          rcases hl with rfl | rfl <;> exact not_mem_intStr (by decide) (by decide)) (by simp)
      simpa [List.intercalate] using this
    simp only [List.append_assoc, List.cons_append, List.nil_append]
    rw [this]
    simp [readInt_intStr, varElem, Key.val, Key.expo]
  · simp [Key.val, Key.expo, AddMonoidAlgebra.one_def]
    rfl

theorem readFactor_mono (m : Monomial) : ((monoToks m).map readFactor).prod = m.key.val := by
  simp only [monoToks, List.map_append, List.prod_append]
  rw [readFactor_pow (f := fun n => mono n 0 0) mono_zero (fun r => rfl),
    readFactor_pow (f := fun n => mono 0 n 0) mono_zero (fun r => rfl),
    readFactor_pow (f := fun n => mono 0 0 n) mono_zero (fun r => rfl), readFactor_var,
    ← mul_assoc, ← mul_assoc, mono_mul, mono_mul]
  simp [mono, Key.val, Key.expo, Monomial.key, AddMonoidAlgebra.single_mul_single]

theorem readFactor_digits (c : Nat) : readFactor (natDigits c) = (c : LRing) := by
  have : ∀ r : List Char, (∀ d ∈ r.head?, d.isDigit = true) → readFactor r = (readNat r : LRing) := by
    intro r hr
    unfold readFactor
    split <;> first | rfl | (simp at hr)
  rw [this, readNat_natDigits]
  intro d hd
  exact natDigits_isDigit (List.mem_of_mem_head? hd)

theorem readFactor_body (m : Monomial) (c : Nat) :
    ((bodyToks m c).map readFactor).prod = (c : ℤ) • m.key.val := by
  have e1 : natDigits 1 = ['1'] := by decide
  unfold bodyToks
  split_ifs with h1 h2
  · have := readFactor_mono m
    rw [h2] at this
    rw [← e1, ← this, h1]; simp [readFactor_digits]
  · rw [readFactor_mono, h1]; simp
  · rw [List.map_cons, List.prod_cons, readFactor_digits, readFactor_mono]
    simp [zsmul_eq_mul]

/-- Tokens of a polynomial's terms; `i` counts the terms already visited (zero coefficients are
not printed but counted). -/
def itemToks : Nat → List (Monomial × Int) → List (List Char)
  | _, [] => []
  | i, e :: t => (if e.2 = 0 then [] else
      (if e.2 < 0 then [['-']] else if i = 0 then [] else [['+']]) ++ bodyToks e.1 e.2.natAbs) ++
        itemToks (i + 1) t

theorem mem_itemToks {l : List (Monomial × Int)} {i : Nat} {t : List Char} (h : t ∈ itemToks i l) : Tok t := by
  induction l generalizing i with
  | nil => simp [itemToks] at h
  | cons e l ih =>
    simp only [itemToks, List.mem_append] at h
    rcases h with h | h
    · split_ifs at h <;> simp only [List.not_mem_nil, List.mem_append, List.mem_singleton, false_or] at h
      · rcases h with rfl | h
        · exact ⟨by simp, by decide⟩
        · exact (mem_bodyToks h).1
      · exact (mem_bodyToks h).1
      · rcases h with rfl | h
        · exact ⟨by simp, by decide⟩
        · exact (mem_bodyToks h).1
    · exact ih h

theorem displayStep_fold (l : List (Monomial × Int)) (s : List Char) (i : Nat) :
    (l.foldl Poly.displayStep (s, i)).1 = s ++ ws (itemToks i l) := by
  induction l generalizing s i with
  | nil => simp [itemToks]
  | cons e l ih =>
    rw [List.foldl_cons]
    have hd := term_display e.1 e.2
    have e1 : Poly.displayStep (s, i) e = (s ++ ws (if e.2 = 0 then [] else
      (if e.2 < 0 then [['-']] else if i = 0 then [] else [['+']]) ++ bodyToks e.1 e.2.natAbs), i + 1) := by
      unfold Poly.displayStep
      by_cases h0 : e.2 = 0
      · simp [h0]
      · rcases lt_or_gt_of_ne h0 with hc | hc
        · have : ¬ e.2 > 0 := by omega
          simp only [h0, hc, this, ne_eq, not_false_eq_true, if_true, if_false, List.append_assoc, hd, signToks,
            false_and]
        · have : ¬ e.2 < 0 := by omega
          by_cases hi : i = 0
          · simp only [h0, hc, this, hi, ne_eq, not_false_eq_true, if_true, if_false, List.append_assoc, hd,
              signToks, not_true_eq_false, and_false]
          · simp only [h0, hc, this, hi, ne_eq, not_false_eq_true, if_true, if_false, List.append_assoc, hd,
              signToks, true_and]
            simp
    rw [e1, ih]
    simp [itemToks]

/-- Sum of a list of entries. -/
noncomputable def entriesVal (l : List (Monomial × Int)) : LRing := (l.map fun e => e.2 • e.1.key.val).sum

theorem rd_itemToks (l : List (Monomial × Int)) (i : Nat) (hi : i ≠ 0) :
    rd (itemToks i l) = (entriesVal l, none) := by
  induction l generalizing i with
  | nil => simp [itemToks, rd, entriesVal]
  | cons e l ih =>
    have h := ih (i + 1) (by omega)
    simp only [itemToks]
    by_cases h0 : e.2 = 0
    · simp [h0, h, entriesVal]
    · have hb := rd_append (a := bodyToks e.1 e.2.natAbs) (fun _ ht => (mem_bodyToks ht).2)
        (bodyToks_ne_nil _ _) (ts := itemToks (i + 1) l) (by rw [h])
      rw [readFactor_body, h] at hb
      rcases lt_or_gt_of_ne h0 with hc | hc
      · simp only [h0, hc, if_true, if_false, List.append_assoc, List.cons_append, List.nil_append]
        have : rd (['-'] :: (bodyToks e.1 e.2.natAbs ++ itemToks (i + 1) l)) =
            ((rd (bodyToks e.1 e.2.natAbs ++ itemToks (i + 1) l)).1 -
              (rd (bodyToks e.1 e.2.natAbs ++ itemToks (i + 1) l)).2.getD 0, none) := by
          simp [rd, readStep]
        rw [this, hb]
        have h3 : (e.2.natAbs : ℤ) = - e.2 := by omega
        simp [entriesVal, h3, add_comm]
      · have hc' : ¬ e.2 < 0 := by omega
        simp only [h0, hc', hi, if_false, List.append_assoc, List.cons_append, List.nil_append]
        have : rd (['+'] :: (bodyToks e.1 e.2.natAbs ++ itemToks (i + 1) l)) =
            ((rd (bodyToks e.1 e.2.natAbs ++ itemToks (i + 1) l)).1 +
              (rd (bodyToks e.1 e.2.natAbs ++ itemToks (i + 1) l)).2.getD 0, none) := by
          simp [rd, readStep]
        rw [this, hb]
        have h3 : (e.2.natAbs : ℤ) = e.2 := by omega
        simp [entriesVal, h3, add_comm]

theorem itemToks_congr (l : List (Monomial × Int)) (i j : Nat) (hi : i ≠ 0) (hj : j ≠ 0) :
    itemToks i l = itemToks j l := by
  induction l generalizing i j with
  | nil => rfl
  | cons e l ih => simp only [itemToks, hi, hj, if_false]; rw [ih (i + 1) (j + 1) (by omega) (by omega)]

theorem rd_itemToks_zero (l : List (Monomial × Int)) :
    (rd (itemToks 0 l)).1 + (rd (itemToks 0 l)).2.getD 0 = entriesVal l := by
  cases l with
  | nil => simp [itemToks, rd, entriesVal]
  | cons e l =>
    have h := rd_itemToks l 1 (by omega)
    by_cases hc : 0 < e.2
    · have h0 : e.2 ≠ 0 := by omega
      have hc' : ¬ e.2 < 0 := by omega
      have hb := rd_append (a := bodyToks e.1 e.2.natAbs) (fun _ ht => (mem_bodyToks ht).2)
        (bodyToks_ne_nil _ _) (ts := itemToks 1 l) (by rw [h])
      rw [readFactor_body, h] at hb
      have h3 : (e.2.natAbs : ℤ) = e.2 := by omega
      simp only [itemToks, h0, hc', if_true, if_false, List.nil_append, zero_add, hb]
      simp [entriesVal, h3, add_comm]
    · have : itemToks 0 (e :: l) = itemToks 1 (e :: l) := by
        simp only [itemToks]
        by_cases h0 : e.2 = 0
        · simp only [h0, if_true, List.nil_append]
          rw [itemToks_congr l (0 + 1) (1 + 1) (by omega) (by omega)]
        · have : e.2 < 0 := by omega
          simp only [h0, this, if_true, if_false]
          rw [itemToks_congr l (0 + 1) (1 + 1) (by omega) (by omega)]
      rw [this, rd_itemToks _ 1 (by omega)]; simp

theorem readText_term (m : Monomial) (c : Int) : readText (Term.from' m c).display = c • m.key.val := by
  have hd := term_display m c
  have ht : ∀ t ∈ signToks c ++ bodyToks m c.natAbs, Tok t := by
    intro t ht
    rcases List.mem_append.1 ht with h | h
    · unfold signToks at h; split_ifs at h <;> simp at h; subst h; exact ⟨by simp, by decide⟩
    · exact (mem_bodyToks h).1
  have hw := trimEnd_ws ht (by simp [bodyToks_ne_nil])
  rw [readText_eq ht (List.append_cancel_right (hd.trans hw.symm))]
  have hb := rd_append (a := bodyToks m c.natAbs) (fun _ ht => (mem_bodyToks ht).2)
        (bodyToks_ne_nil _ _) (ts := []) rfl
  rw [readFactor_body, List.append_nil] at hb
  unfold signToks
  split_ifs with hc
  · have : rd ([['-']] ++ bodyToks m c.natAbs) =
        ((rd (bodyToks m c.natAbs)).1 - (rd (bodyToks m c.natAbs)).2.getD 0, none) := by
      simp [rd, readStep]
    have h3 : (c.natAbs : ℤ) = - c := by omega
    rw [this, hb, h3]; simp [rd]
  · have h3 : (c.natAbs : ℤ) = c := by omega
    rw [List.nil_append, hb, h3]; simp [rd]

theorem readText_poly (P : Poly) : readText P.display = P.val := by
  unfold Poly.display Poly.isZero Poly.len
  have hv : entriesVal P.entries.reverse = P.val := by
    unfold entriesVal Poly.val
    rw [List.map_reverse, List.sum_reverse]
  by_cases h : P.entries = []
  · rw [h]
    have h1 : readText ['0'] = ((readNat ['0'] : ℕ) : LRing) := by
      have h3 : (['0'] : List Char).splitOn ' ' = [['0']] := by decide
      simp [readText, h3, readStep, readFactor]
    have h2 : readNat ['0'] = 0 := by decide
    simp [h1, h2, Poly.val, h]
  · have h1 : (P.entries.length == 0) = false := by simp [h]
    rw [h1]
    simp only [Bool.false_eq_true, if_false]
    rw [readText_eq (ts := itemToks 0 P.entries.reverse) (fun _ => mem_itemToks)
      (by rw [displayStep_fold]; simp), rd_itemToks_zero, hv]


/-! ### Characters of a printed polynomial -/

/-- The characters that occur in printed polynomials. -/
def PolyChar (c : Char) : Prop := c.isDigit = true ∨ c ∈ ['-', '+', 'x', 'y', 'q', '^', 'c', '_', ' ']

theorem polyChar_intStr {n : Int} {c : Char} (h : c ∈ intStr n) : PolyChar c := by
  rcases mem_intStr h with h | h
  · exact .inl h
  · exact .inr (by simp [h])

theorem polyChar_powToks {name : Char} (hn : PolyChar name) {n : Int} {t : List Char} (h : t ∈ powToks name n) :
    ∀ c ∈ t, PolyChar c := by
  intro c hc
  unfold powToks at h
  split_ifs at h <;> simp only [List.not_mem_nil, List.mem_singleton] at h <;> subst h
  · simp only [List.mem_singleton] at hc; rw [hc]; exact hn
  · simp only [List.cons_append, List.nil_append, List.mem_cons] at hc
    rcases hc with rfl | rfl | hc
    · exact hn
    · exact .inr (by simp)
    · exact polyChar_intStr hc

theorem polyChar_monoToks {m : Monomial} {t : List Char} (h : t ∈ monoToks m) : ∀ c ∈ t, PolyChar c := by
  simp only [monoToks, List.mem_append] at h
  rcases h with h | h | h | h
  · exact polyChar_powToks (.inr (by simp)) h
  · exact polyChar_powToks (.inr (by simp)) h
  · exact polyChar_powToks (.inr (by simp)) h
  · intro c hc
    unfold varToks SubVar.display at h
    split_ifs at h <;> simp only [List.not_mem_nil, List.mem_singleton] at h
    subst h
    simp only [List.cons_append, List.nil_append, List.mem_cons, List.mem_append, List.not_mem_nil,
      or_false] at hc
    rcases hc with rfl | rfl | (hc | rfl) | hc
    · exact .inr (by simp)
    · exact .inr (by simp)
    · exact polyChar_intStr hc
    · exact .inr (by simp)
    · exact polyChar_intStr hc

theorem polyChar_bodyToks {m : Monomial} {k : Nat} {t : List Char} (h : t ∈ bodyToks m k) :
    ∀ c ∈ t, PolyChar c := by
  unfold bodyToks at h
  split_ifs at h
  · simp only [List.mem_singleton] at h; subst h; intro c hc; simp at hc; subst hc; exact .inl (by decide)
  · exact polyChar_monoToks h
  · rcases List.mem_cons.1 h with rfl | h
    · intro c hc; exact .inl (natDigits_isDigit hc)
    · exact polyChar_monoToks h

theorem polyChar_itemToks {l : List (Monomial × Int)} {i : Nat} {t : List Char} (h : t ∈ itemToks i l) :
    ∀ c ∈ t, PolyChar c := by
  induction l generalizing i with
  | nil => simp [itemToks] at h
  | cons e l ih =>
    simp only [itemToks, List.mem_append] at h
    rcases h with h | h
    · split_ifs at h <;> simp only [List.not_mem_nil, List.mem_append, List.mem_singleton, false_or] at h
      · rcases h with rfl | h
        · intro c hc; exact .inr (by simp_all)
        · exact polyChar_bodyToks h
      · exact polyChar_bodyToks h
      · rcases h with rfl | h
        · intro c hc; exact .inr (by simp_all)
        · exact polyChar_bodyToks h
    · exact ih h

theorem polyChar_display {P : Poly} {c : Char} (h : c ∈ P.display) : PolyChar c := by
  unfold Poly.display at h
  split_ifs at h
  · simp only [List.mem_singleton] at h; subst h; exact .inl (by decide)
  · have h2 : c ∈ (P.entries.reverse.foldl Poly.displayStep ([], 0)).1 := by
      unfold trimEnd at h
      rw [List.mem_reverse] at h
      exact List.mem_reverse.1 ((List.dropWhile_sublist _).mem h)
    rw [displayStep_fold, List.nil_append, ws, List.mem_flatMap] at h2
    obtain ⟨t, ht, hc⟩ := h2
    rcases List.mem_append.1 hc with hc | hc
    · exact polyChar_itemToks ht c hc
    · exact .inr (by simp_all)

theorem comma_not_mem_display (P : Poly) : ',' ∉ P.display := by
  intro h
  rcases polyChar_display h with h | h
  · exact absurd h (by decide)
  · exact absurd h (by decide)

/-! ### Points -/

theorem ECPoint.display_append_inj {P Q : ECPoint} {r s : List Char} (h : P.display ++ r = Q.display ++ s) :
    P.display = Q.display ∧ r = s := by
  have hn : ∀ P : ECPoint, ')' ∉ '(' :: (intStr P.x ++ ',' :: ' ' :: intStr P.y) := by
    intro P
    have h1 := not_mem_intStr (n := P.x) (c := ')') (by decide) (by decide)
    have h2 := not_mem_intStr (n := P.y) (c := ')') (by decide) (by decide)
    simp [h1, h2]
  unfold ECPoint.display at h ⊢
  split_ifs at h ⊢ with h1 h2 h2
  · simpa using h
  · simp at h
  · simp at h
  · have h' : ('(' :: (intStr P.x ++ ',' :: ' ' :: intStr P.y)) ++ ')' :: r =
        ('(' :: (intStr Q.x ++ ',' :: ' ' :: intStr Q.y)) ++ ')' :: s := by simpa using h
    obtain ⟨h3, h4⟩ := append_sep_inj (hn P) (hn Q) h'
    refine ⟨?_, h4⟩
    simp only [List.cons.injEq, true_and] at h3
    simp [h3]

theorem ECPoint.display_inj {P Q : ECPoint} (h : P.display = Q.display) :
    (P.z = 0 ∧ Q.z = 0) ∨ (P.z ≠ 0 ∧ Q.z ≠ 0 ∧ P.x = Q.x ∧ P.y = Q.y) := by
  unfold ECPoint.display ECPoint.isInfinity at h
  by_cases h1 : P.z = 0 <;> by_cases h2 : Q.z = 0 <;> simp [h1, h2] at h ⊢
  have h : intStr P.x ++ ',' :: ' ' :: (intStr P.y ++ [')']) = intStr Q.x ++ ',' :: ' ' :: (intStr Q.y ++ [')']) := h
  obtain ⟨h3, h4⟩ := append_sep_inj (not_mem_intStr (by decide) (by decide))
    (not_mem_intStr (by decide) (by decide)) h
  simp only [List.cons.injEq, true_and] at h4
  exact ⟨intStr_inj h3, intStr_inj (List.append_cancel_right h4)⟩

theorem displayPoints_aux (v : List ECPoint) (s : List Char) :
    (v.foldl (fun (acc : List Char × Bool) P =>
      (acc.1 ++ (if acc.2 then [] else [',', ' ']) ++ P.display, false)) (s, false)).1 =
    s ++ v.flatMap (fun P => ',' :: ' ' :: P.display) := by
  induction v generalizing s with
  | nil => simp
  | cons P v ih => rw [List.foldl_cons, ih]; simp

theorem displayPoints_cons (P : ECPoint) (v : List ECPoint) :
    displayPoints (P :: v) = P.display ++ v.flatMap (fun P => ',' :: ' ' :: P.display) := by
  unfold displayPoints
  rw [List.foldl_cons, displayPoints_aux]; simp

end EC
