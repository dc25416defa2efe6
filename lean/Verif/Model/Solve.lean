import Verif.Model.Basic
import Mathlib.Algebra.GCDMonoid.Nat

/-! Model of `/repo/src/simultaneous_equation.rs`. -/

namespace EC

/-- `Vec<Vec<BigInt>>`. -/
abbrev Mat := List (List Int)

namespace Mat

/-- `a[r][c]` for indices already known to be in range. -/
def cell (a : Mat) (r c : Nat) : Int := (a.getD r []).getD c 0

/-- `a[r][c] = v`. -/
def setCell (a : Mat) (r c : Nat) (v : Int) : Mat := a.set r ((a.getD r []).set c v)

end Mat

open Mat

/-- State of the elimination: the working copy `a` and the row permutation `row`. -/
structure SolveState where
  a : Mat
  row : List Nat

/-- (I): look for the first `j ≥ i` with a non-zero entry in column `i` and swap it to position
`i`; src/simultaneous_equation.rs:24-34. -/
def solvePivot (rowCount i : Nat) (s : SolveState) : SolveState :=
  match (List.range' i (rowCount - i)).find? (fun j => cell s.a (s.row.getD j 0) i ≠ 0) with
  | none => s
  | some j =>
    if i ≠ j then
      { s with row := (s.row.set i (s.row.getD j 0)).set j (s.row.getD i 0) }
    else s

/-- Body of loop (II) for one `j`: multiply row `j` by `lcm/c2` and subtract `lcm/c1` times row
`i`; src/simultaneous_equation.rs:38-54. -/
def solveElim (i : Nat) (c1 : Int) (s : SolveState) (j : Nat) : SolveState :=
  let ri := s.row.getD i 0
  let rj := s.row.getD j 0
  let c2 := cell s.a rj i
  if c2 ≠ 0 then
    let lcm : Int := Int.lcm c1 c2
    let cc1 := lcm.tdiv c1
    let cc2 := lcm.tdiv c2
    let a1 := s.a.set rj ((s.a.getD rj []).map (fun v => v * cc2))
    let a2 := a1.set rj (List.zipWith (fun x y => x - y * cc1) (a1.getD rj []) (a1.getD ri []))
    { s with a := a2 }
  else s

/-- One column of the forward phase; src/simultaneous_equation.rs:22-55.  `row[i]` is out of
bounds when there are fewer rows than unknowns. -/
def solveColumn (rowCount : Nat) (s : SolveState) (i : Nat) : Res SolveState := do
  let s := solvePivot rowCount i s
  if i ≥ rowCount then .panic .indexOutOfBounds
  else do
    let c1 := cell s.a (s.row.getD i 0) i
    rassert (decide (c1 ≠ 0))
    .ok ((List.range' (i + 1) (rowCount - (i + 1))).foldl (solveElim i c1) s)

/-- Inner loop of the substitution phase for one `j < i`; src/simultaneous_equation.rs:69-73. -/
def solveSubst (i colPrim : Nat) (row : List Nat) (val : Int) (a : Mat) (j : Nat) : Mat :=
  let rj := row.getD j 0
  let tVal := cell a rj i
  let a := setCell a rj colPrim (cell a rj colPrim - tVal * val)
  setCell a rj i 0

/-- Substitution phase for one `i`; src/simultaneous_equation.rs:59-74.  `prim / diag` is
truncating (and `diag` is non-zero, it passed the assertion in line 36). -/
def solveBack (colPrim : Nat) (row : List Nat) (a : Mat) (i : Nat) : Mat :=
  let ri := row.getD i 0
  let diag := cell a ri i
  let prim := cell a ri colPrim
  let a := if diag ≠ 1 then setCell (setCell a ri i 1) ri colPrim (prim.tdiv diag) else a
  let val := cell a ri colPrim
  (List.range i).foldl (solveSubst i colPrim row val) a

/-- `solve(matrix)`; src/simultaneous_equation.rs:6-80. -/
def solve (matrix : Mat) : Res Mat := do
  match matrix with
  | [] => .panic .indexOutOfBounds
  | r0 :: _ => do
    let rowCount := matrix.length
    let colCount := r0.length
    if matrix.any (fun r => r.length < colCount) then .panic .indexOutOfBounds
    else if colCount = 0 then .panic .overflow
    else do
      let s0 : SolveState := { a := matrix.map (fun r => r.take colCount), row := List.range rowCount }
      let s ← (List.range (colCount - 1)).foldlM (solveColumn rowCount) s0
      let colPrim := colCount - 1
      let a := (List.range' 1 (colCount - 2)).reverse.foldl (solveBack colPrim s.row) s.a
      .ok ((List.range rowCount).map (fun i => a.getD (s.row.getD i 0) []))

end EC
