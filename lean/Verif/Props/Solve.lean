import Verif.Lemmas.Solve

/-! Property C37: `solve`. -/

namespace EC
open Finset

/-- `M` is an augmented matrix with `n` unknowns: it has a row, the first row has `n + 1` entries and
no row is shorter. -/
def Augmented (M : Mat) (n : ℕ) : Prop := ∃ r0 M', M = r0 :: M' ∧ r0.length = n + 1 ∧ ∀ r ∈ M, n + 1 ≤ r.length

/-- `x` solves the system: in every row the first `n` entries against `x` give entry `n`. -/
def Solves (M : Mat) (n : ℕ) (x : ℕ → ℤ) : Prop :=
  ∀ r ∈ M, ∑ k ∈ range n, r.getD k 0 * x k = r.getD n 0

/-- The first `n` columns are linearly independent. -/
def ColumnsIndependent (M : Mat) (n : ℕ) : Prop :=
  ∀ y : ℕ → ℤ, (∀ r ∈ M, ∑ k ∈ range n, r.getD k 0 * y k = 0) → ∀ k < n, y k = 0

/-- The state in which the elimination of `solve` starts. -/
def initState (M : Mat) (n : ℕ) : SolveState := { a := M.map (fun r => r.take (n + 1)), row := List.range M.length }

theorem init_wfs {M : Mat} {n : ℕ} (h : ∀ r ∈ M, n + 1 ≤ r.length) : WFS M.length n (initState M n) := by
  refine ⟨by simp [initState], ?_, by simp [initState], by simp [initState, List.nodup_range], by simp [initState]⟩
  intro r hr
  unfold initState
  simp only
  rw [List.getD_eq_getElem _ _ (by simpa using hr), List.getElem_map, List.length_take]
  have := h _ (List.getElem_mem hr)
  omega

theorem init_view {M : Mat} {n i k : ℕ} (hi : i < M.length) (hk : k ≤ n) : View (initState M n) i k = (M.getD i []).getD k 0 := by
  unfold View initState Mat.cell
  simp only
  have e : (List.range M.length).getD i 0 = i := by
    rw [List.getD_eq_getElem _ _ (by simpa using hi)]; simp
  rw [e, List.getD_eq_getElem _ _ (show i < (M.map (fun r => r.take (n + 1))).length by simpa using hi),
    List.getD_eq_getElem M _ hi, List.getElem_map]
  simp [List.getD_eq_getElem?_getD, List.getElem?_take, show k < n + 1 by omega]

theorem init_rows {M : Mat} {n c : ℕ} {P : ℤ → Prop} (hc : c ≤ n + 1) (y : ℕ → ℤ) :
    (∀ r ∈ M, P (∑ k ∈ range c, r.getD k 0 * y k)) ↔
      ∀ i < M.length, P (∑ k ∈ range c, View (initState M n) i k * y k) := by
  have key : ∀ i (hi : i < M.length), ∑ k ∈ range c, View (initState M n) i k * y k =
      ∑ k ∈ range c, (M[i]).getD k 0 * y k := by
    intro i hi
    refine Finset.sum_congr rfl fun k hk => ?_
    have := Finset.mem_range.1 hk
    rw [init_view hi (by omega), List.getD_eq_getElem M _ hi]
  constructor
  · intro h i hi
    rw [key i hi]; exact h _ (List.getElem_mem hi)
  · intro h r hr
    obtain ⟨i, hi, rfl⟩ := List.getElem_of_mem hr
    rw [← key i hi]; exact h i hi

theorem init_indep {M : Mat} {n : ℕ} : Indep M.length n (View (initState M n)) ↔ ColumnsIndependent M n := by
  unfold Indep ColumnsIndependent
  refine forall_congr' fun y => ?_
  rw [init_rows (P := fun z => z = 0) (show n ≤ n + 1 by omega)]

theorem solve_eq {M : Mat} {n : ℕ} (h : Augmented M n) :
    solve M = ((List.range n).foldlM (solveColumn M.length) (initState M n)).bind fun s =>
      .ok ((List.range M.length).map fun i =>
        ((List.range' 1 (n - 1)).reverse.foldl (solveBack n s.row) s.a).getD (s.row.getD i 0) []) := by
  obtain ⟨r0, M', rfl, h0, hl⟩ := h
  unfold solve
  simp only [h0]
  have h2 : ((r0 :: M').any fun r => decide (r.length < n + 1)) = false := by
    rw [List.any_eq_false]
    intro r hr
    have := hl r hr
    simp; omega
  rw [h2]
  simp only [Bool.false_eq_true, if_false, Nat.add_one_ne_zero, Nat.add_sub_cancel, show n + 1 - 2 = n - 1 by omega]
  rfl

/-- **C37 (when it returns).**  For an augmented matrix with `n` unknowns, `solve` returns exactly when
the columns of the unknowns are linearly independent; otherwise it panics. -/
theorem C37_returns_iff {M : Mat} {n : ℕ} (h : Augmented M n) :
    (ColumnsIndependent M n → ∃ B, solve M = .ok B) ∧ (¬ ColumnsIndependent M n → ∃ w, solve M = .panic w) := by
  have hw : WFS M.length n (initState M n) := init_wfs (by obtain ⟨r0, M', _, _, hl⟩ := h; exact hl)
  obtain ⟨f1, f2⟩ := forward_spec hw
  rw [solve_eq h, ← init_indep]
  constructor
  · intro hI
    obtain ⟨s, hs, _⟩ := f1 hI
    exact ⟨_, by rw [hs]; rfl⟩
  · intro hI
    obtain ⟨w, hs⟩ := f2 hI
    exact ⟨w, by rw [hs]; rfl⟩

/-- **C37 (malformed matrices).**  No row, a row shorter than the first, or a first row without entries:
`solve` panics. -/
theorem C37_malformed {M : Mat} (h : ¬ ∃ n, Augmented M n) : ∃ w, solve M = .panic w := by
  cases M with
  | nil => exact ⟨_, rfl⟩
  | cons r0 M' =>
    unfold solve
    by_cases h1 : (r0 :: M').any (fun r => decide (r.length < r0.length)) = true
    · exact ⟨.indexOutOfBounds, by simp only [h1, if_true]⟩
    · by_cases h2 : r0.length = 0
      · refine ⟨.overflow, ?_⟩
        simp [h2]
      · refine absurd ⟨r0.length - 1, r0, M', rfl, by omega, ?_⟩ h
        intro r hr
        simp only [Bool.not_eq_true, List.any_eq_false, decide_eq_true_eq] at h1
        have := h1 r hr
        omega

/-- **C37 (the solution).**  If `x` is an integer solution and `solve` returns `B`, then `B` has as many
rows as `M` and is the solved system: for `1 ≤ i < n` row `i` has `1` in column `i` and `x i` in the last
one; row `0` has some non-zero `d` in column `0` and `d * x 0` in the last one, where `d` is the first
non-zero entry of column `0` of `M`; all other entries of the rows `i < n` are zero, and so are the rows
`i ≥ n`. -/
theorem C37_solve {M B : Mat} {n : ℕ} (h : Augmented M n) {x : ℕ → ℤ} (hx : Solves M n x) (hB : solve M = .ok B) :
    B.length = M.length ∧ n ≤ M.length ∧
    (∀ i, 1 ≤ i → i < n → (B.getD i []).getD i 0 = 1 ∧ (B.getD i []).getD n 0 = x i) ∧
    (0 < n → ∃ d : ℤ, d ≠ 0 ∧ (B.getD 0 []).getD 0 0 = d ∧ (B.getD 0 []).getD n 0 = d * x 0 ∧
      (M.map fun r => r.getD 0 0).find? (fun v => decide (v ≠ 0)) = some d) ∧
    (∀ i < n, ∀ k < n, k ≠ i → (B.getD i []).getD k 0 = 0) ∧
    (∀ i, n ≤ i → i < M.length → ∀ k ≤ n, (B.getD i []).getD k 0 = 0) ∧
    (∀ r ∈ B, r.length = n + 1) := by
  have hw : WFS M.length n (initState M n) := init_wfs (by obtain ⟨r0, M', _, _, hl⟩ := h; exact hl)
  obtain ⟨f1, f2⟩ := forward_spec hw
  have hI : Indep M.length n (View (initState M n)) := by
    by_contra hcon
    obtain ⟨w, hs⟩ := f2 hcon
    rw [solve_eq h, hs] at hB
    cases hB
  obtain ⟨s, hs, wf, hS, hE, hnm, hfirst⟩ := f1 hI
  rw [solve_eq h, hs] at hB
  have hB : (List.range M.length).map (fun i =>
        ((List.range' 1 (n - 1)).reverse.foldl (solveBack n s.row) s.a).getD (s.row.getD i 0) []) = B := by
    injection hB
  -- the equations hold in the forward state
  have heq : ∀ i < M.length, ∑ k ∈ range n, View s i k * x k = View s i n := by
    have h1 := (hS (fun k => if k < n then x k else -1)).1 (by
      intro i hi
      rw [Finset.sum_range_succ]
      have h2 := hx _ (List.getElem_mem hi)
      have h3 : ∑ k ∈ range n, View (initState M n) i k * (if k < n then x k else -1) =
          ∑ k ∈ range n, (M[i]).getD k 0 * x k := by
        refine Finset.sum_congr rfl fun k hk => ?_
        have := Finset.mem_range.1 hk
        rw [init_view hi (by omega), List.getD_eq_getElem M _ hi, if_pos this]
      rw [h3, h2, init_view hi le_rfl, List.getD_eq_getElem M _ hi]
      simp)
    intro i hi
    have h2 := h1 i hi
    rw [Finset.sum_range_succ] at h2
    have h3 : ∑ k ∈ range n, View s i k * (if k < n then x k else -1) = ∑ k ∈ range n, View s i k * x k := by
      refine Finset.sum_congr rfl fun k hk => ?_
      rw [if_pos (Finset.mem_range.1 hk)]
    rw [h3] at h2
    simp only [lt_irrefl, if_false] at h2
    linarith
  have hrest0 : ∀ i, n ≤ i → i < M.length → ∀ k ≤ n, View s i k = 0 := by
    intro i h1 h2 k hk
    rcases Nat.lt_or_eq_of_le hk with hk | rfl
    · exact (hE k hk).2 i h2 (by omega)
    · rw [← heq i h2]
      refine Finset.sum_eq_zero fun c hc => ?_
      have := Finset.mem_range.1 hc
      rw [(hE c this).2 i h2 (by omega), zero_mul]
  have binit : BackInv M.length n n (View s) x ⟨s.a, s.row⟩ :=
    ⟨wf, fun i h1 h2 => by omega, fun i h1 h2 => by omega, fun _ _ _ _ => rfl, fun i _ k h1 h2 => by omega,
      fun i hi => heq i (by omega), fun _ _ _ _ => rfl⟩
  set a := (List.range' 1 (n - 1)).reverse.foldl (solveBack n s.row) s.a with ha
  have hcell : ∀ i < M.length, ∀ k, (B.getD i []).getD k 0 = View ⟨a, s.row⟩ i k := by
    intro i hi k
    have e : B.getD i [] = a.getD (s.row.getD i 0) [] := by
      rw [← hB, List.getD_eq_getElem _ _ (by simpa using hi)]; simp
    rw [e]; rfl
  have hlen : ∀ r ∈ B, WFS M.length n ⟨a, s.row⟩ → r.length = n + 1 := by
    intro r hr hw
    rw [← hB] at hr
    obtain ⟨i, hi, rfl⟩ := List.mem_map.1 hr
    exact hw.lr _ (hw.row_lt (List.mem_range.1 hi))
  refine ⟨by rw [← hB]; simp, hnm, ?_⟩
  rcases Nat.eq_zero_or_pos n with hn | hn
  · subst hn
    refine ⟨fun i _ h => by omega, fun h => by omega, fun i h => by omega, ?_, fun r hr => hlen r hr binit.wf⟩
    intro i h1 h2 k hk
    rw [hcell i h2]
    exact hrest0 i h1 h2 k hk
  · have hfin := back_fold hnm hE (n - 1) le_rfl s.a binit
    rw [show n - (n - 1) = 1 by omega, ← ha] at hfin
    refine ⟨?_, ?_, ?_, ?_, fun r hr => hlen r hr hfin.wf⟩
    · intro i h1 h2
      rw [hcell i (by omega), hcell i (by omega)]
      exact hfin.hdiag i h1 h2
    · intro _
      have h00 : View ⟨a, s.row⟩ 0 0 = View s 0 0 := hfin.hkeep 0 (by omega) 0 (by omega)
      have hd := hfin.heq 0 (by omega)
      rw [Finset.sum_range_one] at hd
      refine ⟨View s 0 0, (hE 0 hn).1, by rw [hcell 0 (by omega), h00], by rw [hcell 0 (by omega), ← hd, h00], ?_⟩
      -- first non-zero entry of column 0
      have hz : ∃ j < M.length, View (initState M n) j 0 ≠ 0 := by
        by_contra hcon
        push Not at hcon
        have := hI (fun k => if k = 0 then 1 else 0) (by
          intro i hi
          rw [Finset.sum_eq_single 0]
          · rw [hcon i hi]; simp
          · intro k _ hk; simp [hk]
          · intro hh; simp at hh; omega) 0 hn
        simp at this
      classical
      obtain ⟨hj1, hj2⟩ := Nat.find_spec hz
      have hj3 : ∀ j < Nat.find hz, View (initState M n) j 0 = 0 := by
        intro j hj
        have := Nat.find_min hz hj
        push Not at this
        exact this (by omega)
      set j0 := Nat.find hz
      rw [hfirst j0 hn hj1 hj2 hj3, init_view hj1 (by omega), List.getD_eq_getElem M _ hj1]
      rw [List.find?_map, Option.map_eq_some_iff]
      refine ⟨M[j0], ?_, rfl⟩
      rw [List.find?_eq_some_iff_getElem]
      rw [init_view hj1 (by omega), List.getD_eq_getElem M _ hj1] at hj2
      refine ⟨by simpa using hj2, j0, hj1, rfl, ?_⟩
      intro j hj
      have := hj3 j hj
      rw [init_view (by omega) (by omega), List.getD_eq_getElem M _ (by omega)] at this
      simpa using this
    · intro i hi k hk hki
      rw [hcell i (by omega)]
      rcases Nat.eq_zero_or_pos i with h0 | h0
      · subst h0; exact hfin.hzero 0 (by omega) k (by omega) hk
      · exact hfin.hoff i h0 hi k hk hki
    · intro i h1 h2 k hk
      rw [hcell i h2, hfin.hrest i h1 h2]
      exact hrest0 i h1 h2 k hk

/-- An overdetermined system that needs a row swap: `2 b = 6`, `3 a + b = 9`, `3 a + 3 b = 15`, with
`a = 2`, `b = 3`.  Row `0` of the result keeps the coefficient `3`. -/
example : Augmented [[0, 2, 6], [3, 1, 9], [3, 3, 15]] 2 ∧
    Solves [[0, 2, 6], [3, 1, 9], [3, 3, 15]] 2 (fun k => if k = 0 then 2 else 3) ∧
    solve [[0, 2, 6], [3, 1, 9], [3, 3, 15]] = .ok [[3, 0, 6], [0, 1, 3], [0, 0, 0]] := by
  refine ⟨⟨_, _, rfl, rfl, by decide⟩, ?_, by decide +kernel⟩
  intro r hr
  simp only [List.mem_cons, List.not_mem_nil, or_false] at hr
  rcases hr with rfl | rfl | rfl <;> simp [Finset.sum_range_succ]

/-- Without an integer solution the quotients are rounded: `2 b = 7` gives `3`. -/
example : solve [[1, 0, 5], [0, 2, 7]] = .ok [[1, 0, 5], [0, 1, 3]] := by decide +kernel

end EC
