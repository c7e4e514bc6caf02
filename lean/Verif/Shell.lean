import Mathlib.Data.List.Basic

/-!
# Induction machine: the commands given to GetDP

Model of the part of `InductionMachine.run_getdp` that builds the two commands
(`/repo/src/pymgrit/induction_machine/induction_machine.py`), of the functions of `os.path` it uses (POSIX), and of the shell
that splits the commands into words (`shell=True`).  Text is a list of characters.
-/

namespace Pymgrit.Shell

/-- Text. -/
abbrev Txt := List Char

/-! ### `os.path` -/

/-- Position behind the last `/`, as `p.rfind('/') + 1`: the text before and after it (POSIX `os.path.split` without the removal
of slashes; used in induction_machine.py:108). -/
def cutSlash : Txt → Txt × Txt
  | [] => ([], [])
  | c :: cs =>
    let r := cutSlash cs
    if c = '/' ∨ r.1 ≠ [] then (c :: r.1, r.2) else ([], c :: r.2)

/-- `os.path.split` (induction_machine.py:108): slashes at the end of the directory are removed unless there is nothing else. -/
def split (p : Txt) : Txt × Txt :=
  let r := cutSlash p
  (if r.1.all (· = '/') then r.1 else r.1.reverse.dropWhile (· = '/') |>.reverse, r.2)

/-- `os.path.join` with two arguments (induction_machine.py:119-133). -/
def join (a b : Txt) : Txt :=
  if b.head? = some '/' then b
  else if a = [] ∨ a.getLast? = some '/' then a ++ b
  else a ++ '/' :: b

/-- First part of `os.path.splitext` for a name without `/` (induction_machine.py:109): up to the last dot, if a character other
than a dot is before it. -/
def stem (file : Txt) : Txt :=
  let tail := (file.reverse.takeWhile (· ≠ '.')).length
  if '.' ∈ file ∧ ¬ ((file.take (file.length - tail - 1)).all (· = '.')) then file.take (file.length - tail - 1) else file

/-! ### The commands -/

/-- A value of an option: a number (its text), or a text (`is_numeric`, helper.py:12-23). -/
inductive Val
  | num (t : Txt)
  | str (t : Txt)

/-- One option (induction_machine.py:113-116). -/
def option (o : Txt × Val) : Txt :=
  match o.2 with
  | .num t => " -setnumber ".toList ++ o.1 ++ ' ' :: t
  | .str t => " -setstring ".toList ++ o.1 ++ ' ' :: t

/-- The options (induction_machine.py:111-117).  Simplified: `fopt` is a list of pairs, so that its length is even. -/
def funargs (os : List (Txt × Val)) : Txt := (os.flatMap option).drop 1

/-- Parameters of the constructor that matter for the commands, numbers by their text (induction_machine.py:26-66). -/
structure Machine where
  path : Txt
  pro : Txt
  grid : Txt
  exe : Txt
  analysisType : Txt
  nonlinear : Bool
  imposedSpeed : Txt
  maxIter : Txt
  relaxation : Txt
  stop : Txt
  nbTrelax : Txt
  pwm : Bool
  dtime : Txt

/-- `str(int(b))`. -/
def bit (b : Bool) : Txt := if b then ['1'] else ['0']

/-- `self.fopt` (induction_machine.py:64-66). -/
def Machine.fopt (M : Machine) : List (Txt × Val) :=
  [("Flag_AnalysisType".toList, .num M.analysisType), ("Flag_NL".toList, .num (bit M.nonlinear)),
   ("Flag_ImposedSpeed".toList, .num M.imposedSpeed), ("Nb_max_iter".toList, .num M.maxIter),
   ("relaxation_factor".toList, .num M.relaxation), ("stop_criterion".toList, .num M.stop),
   ("NbTrelax".toList, .num M.nbTrelax), ("Flag_PWM".toList, .num (bit M.pwm))]

/-- `self.pro_path` (induction_machine.py:42). -/
def Machine.proPath (M : Machine) : Txt := M.path ++ M.pro

/-- The file with the unknowns that the constructor reads (induction_machine.py:53, 58). -/
def Machine.preFile (M : Machine) : Txt := M.path ++ (M.grid ++ ".pre".toList)

/-- `mshfile` (induction_machine.py:52, 108, 119). -/
def Machine.mshFile (M : Machine) : Txt := join (split M.proPath).1 (M.grid ++ ".msh".toList)

/-- `fname` (induction_machine.py:108-109). -/
def Machine.fname (M : Machine) : Txt := stem (split M.proPath).2

/-- Files in the temporary directory (induction_machine.py:122-125). -/
def Machine.tmpName (M : Machine) (tmp : Txt) : Txt := join tmp M.fname
def Machine.tmpPre (M : Machine) (tmp : Txt) : Txt := join tmp (M.fname ++ ".pre".toList)
def Machine.tmpRes (M : Machine) (tmp : Txt) : Txt := join tmp (M.fname ++ ".res".toList)

/-- `' '.join` (induction_machine.py:148-150, 178-180). -/
def joinBlank (xs : List Txt) : Txt := [' '].intercalate xs

/-- The part both commands have in common (induction_machine.py:139-145, 169-175). -/
def Machine.common (M : Machine) (os : List (Txt × Val)) (tmp t : Txt) : List Txt :=
  ["-msh".toList, M.mshFile, "-name".toList, M.tmpName tmp, "-res".toList, M.tmpRes tmp, "-setnumber timemax".toList, t,
   "-setnumber dtime".toList, M.dtime, "-setstring ResDir".toList, join tmp "res".toList, funargs os]

/-- The command of the preprocessing (induction_machine.py:136-150); `os` – the options, `t` – text of `t_stop`. -/
def Machine.preCommand (M : Machine) (os : List (Txt × Val)) (tmp t : Txt) : Txt :=
  joinBlank (M.exe :: M.proPath :: ("-pre \"".toList ++ "#1".toList ++ "\"".toList) :: M.common os tmp t)

/-- The command of the computation (induction_machine.py:166-180). -/
def Machine.runCommand (M : Machine) (os : List (Txt × Val)) (tmp t : Txt) : Txt :=
  joinBlank (M.exe :: M.proPath :: "-restart".toList :: M.common os tmp t)

/-! ### The shell -/

/-- Characters with a meaning for the shell other than blanks, quotes and `#` (POSIX, Shell Command Language, 2.2). -/
def special : List Char := "|&;<>()$`\\\n*?[~=%!{}".toList

/-- Outside of quotes, in single quotes, in double quotes. -/
inductive Mode | out | single | double

/-- Splitting a command into words as the shell started by `subprocess.run(..., shell=True)` does (induction_machine.py:148, 150,
178, 180); `w` – the word being read, if one has begun.  `none`: the command has characters with other meanings (several
commands, expansions, redirections), for which the model gives no result, or a quotation has no end. -/
def lex : Mode → Option Txt → Txt → Option (List Txt)
  | .out, w, [] => some w.toList
  | _, _, [] => none
  | .out, w, c :: cs =>
    if c = ' ' ∨ c = '\t' then (lex .out none cs).map (w.toList ++ ·)
    else if c = '\'' then lex .single (some (w.getD [])) cs
    else if c = '"' then lex .double (some (w.getD [])) cs
    else if c = '#' ∧ w = none then (if '\n' ∈ cs then none else some [])
    else if c ∈ special then none
    else lex .out (some (w.getD [] ++ [c])) cs
  | .single, w, c :: cs => if c = '\'' then lex .out w cs else lex .single (some (w.getD [] ++ [c])) cs
  | .double, w, c :: cs =>
    if c = '"' then lex .out w cs
    else if c ∈ ['$', '`', '\\'] then none
    else lex .double (some (w.getD [] ++ [c])) cs

/-- Program and arguments that a command starts (induction_machine.py:148, 150, 178, 180). -/
def words (cmd : Txt) : Option (List Txt) := lex .out none cmd

end Pymgrit.Shell
