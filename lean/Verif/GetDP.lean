import Verif.Machine
import Verif.Mesh

/-!
# Induction machine: solution files and the call of the external solver

Model of `set_resolution`, `getdp_read_resolution`, `get_preresolution`, `get_values_from`
(helper.py:26-135) and of `InductionMachine.step`/`run_getdp` (induction_machine.py:79-195).  A file is the
list of its lines, a line the list of its words.  The solver is an arbitrary function of the command line
arguments and the file given to it.
-/

namespace Pymgrit.GetDP
open Mesh (Line)

variable {F : Type}

/-- `float(...)`, `int(...)`, `str(...)` and `isnan` (external). -/
structure Num (F : Type) where
  fl : String → Except String F
  int : String → Except String Int
  str : F → String
  nan : F → Bool

/-- `line.find(pat) != -1` for a pattern without white space: some word of the line contains it. -/
def has (pat : String) (l : Line) : Bool := l.any fun w => decide (pat.toList <:+: w.toList)

/-- `set_resolution` (helper.py:41-62) for a scalar `t_start` and a real vector with
`num_dofs = np.size(u_start)`, as `run_getdp` calls it: the loops run once, the imaginary parts are zero.
For an empty vector the join gives an empty line. -/
def setResolution (N : Num F) (t : F) (u : List F) : List Line :=
  [["$ResFormat", "/*", "GetDP", "2.10.0,", "ascii", "*/"], ["1.1", "0"], ["$EndResFormat"],
    ["$Solution", "/*", "DofData", "#0", "*/"], ["0", N.str t, "0", "0"]]
  ++ (if u = [] then [[]] else u.map fun x => [N.str x, "0.0"]) ++ [["$EndSolution"]]

/-- `get_values_from` (helper.py:65-77): the last word of each line. -/
def getValuesFrom (N : Num F) (content : List Line) : Except String (List F) :=
  content.mapM fun row => match row.getLast? with
    | some w => N.fl w
    | none => .error "IndexError"

/-- `get_preresolution` (helper.py:26-38): the last word of the fifth line after the first line with
`$DofData`. -/
def getPreresolution (N : Num F) (content : List Line) : Except String Int :=
  match content.findIdx? (has "$DofData") with
  | none => .error "IndexError"
  | some ind => match content[ind + 5]? with
    | none => .error "IndexError"
    | some row => match row.getLast? with
      | some w => N.int w
      | none => .error "IndexError"

/-- `np.array([list(map(float, s.split())) for s in xtmp])` and its first column (helper.py:120-122; the
imaginary part of the second, real column is zero).  Rows of different lengths, an array without rows and
rows with less than two entries lead to exceptions. -/
def column (N : Num F) (rows : List Line) : Except String (List F) := do
  let vals ← rows.mapM fun r => r.mapM N.fl
  match vals with
  | [] => .error "IndexError"
  | r :: _ =>
    if vals.any fun q => decide (q.length ≠ r.length) then .error "ValueError"
    else vals.mapM fun q => match q with
      | x :: _ :: _ => .ok x
      | _ => .error "IndexError"

/-- `x[j - 1, 0:n + 1] = vals` (helper.py:122): NumPy requires equal lengths, or a single value, which is
used for all entries. -/
def assign (n : Nat) (vals : List F) : Except String (List F) :=
  match vals with
  | [x] => .ok (List.replicate n x)
  | _ => if vals.length = n then .ok vals else .error "ValueError"

/-- `t`, `x` and `oldstep` of `getdp_read_resolution`; the rows of `x` with their times.  `j` is the number
of rows. -/
structure Rd (F : Type) where
  rows : List (F × List F)
  old : Int

/-- The lines after `$Solution` (helper.py:105-122), without the skipping of the value lines: header and
value lines.  `x[j - 1, dofpos[k - 1]:dofpos[k] + 1]` with a number of the set of unknowns above zero is an
`IndexError`, as `dofpos` has two entries; a negative one is modelled as an error too. -/
def oneSolution (N : Num F) (n : Nat) (s : Rd F) (header : Line) (vals : List Line) :
    Except String (Rd F) :=
  match header with
  | h0 :: h1 :: h2 :: h3 :: _ => do
    let dof ← N.int h0
    let time ← N.fl h1
    let _ ← N.fl h2
    let step ← N.int h3
    if 1 + step < s.old then .error "Exception"
    else
      let rows := if s.old < 1 + step then s.rows ++ [(time, [])] else s.rows
      if rows = [] then .error "IndexError"
      else if dof ≠ 0 then .error "IndexError"
      else do
        let col ← column N vals
        let row ← assign n col
        .ok { rows := rows.dropLast ++ [(time, row)], old := 1 + step }
  | _ => .error "IndexError"

/-- The loop of `getdp_read_resolution` (helper.py:101-130). -/
def readLoop (N : Num F) [DecidableEq F] (n : Nat) (content : List Line) (s : Rd F) :
    Except String (Rd F) :=
  match content with
  | [] => .ok s
  | l :: rest =>
    if has "$Solution" l then
      match rest with
      | [] => .error "IndexError"
      | h :: rest => do
        let s ← oneSolution N n s h (rest.take n)
        readLoop N n (rest.drop n) s
    else if has "$ResFormat" l then
      match rest with
      | [] => .error "IndexError"
      | v :: rest =>
        if (v.headD "").toList.take 3 = ['1', '.', '1'] then readLoop N n (v :: rest) s
        else .error "Exception"
    else readLoop N n rest s
  termination_by content.length

/-- `getdp_read_resolution` (helper.py:80-135); the maximum over an empty array raises. -/
def readResolution (N : Num F) [DecidableEq F] (n : Nat) (content : List Line) :
    Except String (List (F × List F)) := do
  let s ← readLoop N n content ⟨[], 0⟩
  if n = 0 ∨ s.rows = [] then .error "ValueError"
  else if s.rows.any fun r => N.nan r.1 || r.2.any N.nan then .error "Exception"
  else .ok s.rows

/-- The external solver: file written by the preprocessing (`none`: it failed), and the solution file and
the eight result files (joule losses, currents, voltages, torque) after the run, as functions of `timemax`,
`dtime` and the solution file given. -/
structure Solver (F : Type) where
  pre : F → F → Option (List Line)
  run : F → F → List Line → Option (List Line × List (List Line))

/-- `run_getdp` (induction_machine.py:96-195); `dtime` is `self.gopt['TimeStep']`.  `np.max` of an empty
array raises. -/
def runGetdp (N : Num F) [DecidableEq F] (G : Solver F) (dtime : F) (u : List F) (t0 t1 : F) :
    Except String (List (F × List F) × List (List F)) := do
  if u = [] then .error "ValueError"
  else if u.any N.nan then .error "Exception"
  else match G.pre t1 dtime with
    | none => .error "Exception"
    | some pre => do
      let num ← getPreresolution N pre
      if (u.length : Int) ≠ num then .error "Exception"
      else match G.run t1 dtime (setResolution N t0 u) with
        | none => .error "Exception"
        | some (res, dats) => do
          let y ← readResolution N u.length res
          let scal ← dats.mapM (getValuesFrom N)
          .ok (y, scal)

/-- `[-1]` of a list. -/
def lastOf {α : Type} (xs : List α) : Except String α :=
  match xs.getLast? with
  | some x => .ok x
  | none => .error "IndexError"

/-- `InductionMachine.step` (induction_machine.py:79-94). -/
def step (N : Num F) [DecidableEq F] (G : Solver F) (dtime : F) (u : Machine.Vec F) (t0 t1 : F) :
    Except String (Machine.Vec F) := do
  let (y, scal) ← runGetdp N G dtime u.getValues t0 t1
  let last ← lastOf y
  let scal ← scal.mapM lastOf
  .ok (Machine.Vec.setValues { u with front := [], middle := [], back := [], scal := [] } last.2 scal)

/-- `self.gopt['TimeStep']` (induction_machine.py:62): from the first two points of the time grid. -/
def timeStep [Sub F] [Div F] [NatCast F] (t : List F) (stepsPerSolve : Nat) : Except String F :=
  match t with
  | t0 :: t1 :: _ => .ok ((t1 - t0) / (stepsPerSolve : F))
  | _ => .error "IndexError"

end Pymgrit.GetDP
