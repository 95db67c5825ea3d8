import Verif.Quote.Model
import Verif.Text.Model
set_option linter.unusedVariables false
/-!
# Descriptions of targets, and the lists `--tasks` and `--targets`

Models the part of `src/read.c` that has to do with comments `#: ` (the macro `record_waiting_files` 612-637, the start of `eval` 640-656, the
lines that end a rule 774, 839, 876, 909, 965, 1041-1042, 1425; `remove_comments` 1436-1454; `record_files` 2145 and 2200), `dbg_cmd_info_target_entry`,
`dbg_cmd_info_targets` and `dbg_cmd_info_tasks` of `libdebugger/command/info.c` 146-217, and `main.c` 2418-2430.

Simplifications: what a line is (a rule for which targets, a line that ends the rule before it, or neither) is given; it is the subject of C87, C88, C90 and C20.
Files are given with the fields that are looked at.
-/
namespace Remake

/-- The variables of `eval` that matter: the two descriptions (static, read.c 594-611), the line of the last one (static in the file, 565), and of each `eval`
that is active the targets waiting for their recipe to end, with `tgts_started`, the innermost first; and what has been given to `record_files`. -/
structure DscSt where
  d : Option Str
  p : Option Str
  dl : Nat
  waiting : List (Option (List Str × Nat))
  out : List (List Str × Option Str)
deriving DecidableEq, Repr

/-- What happens. -/
inductive DscOp where
  | comment (no : Nat) (text : Str)
  | ends
  | starts (no : Nat) (targets : List Str)
  | enter
  | leave
deriving DecidableEq, Repr

/-- `record_waiting_files` (read.c 612-637). -/
def dscRecord (st : DscSt) : DscSt :=
  match st.waiting with
  | some (ts, n) :: w =>
    { d := if st.dl > n then st.d else none
      p := if st.dl > n then none else st.p
      dl := st.dl
      waiting := none :: w
      out := st.out ++ [(ts, if st.dl > n then st.p else st.d)] }
  | _ => st

/-- One event: a comment (read.c 1445-1450), a line that ends a rule, a rule (1041-1042 and the end of the reading of the line, without the recording, which is
`ends`), the start of `eval` (655-656) and its end (1425). -/
def dscOp (st : DscSt) : DscOp → DscSt
  | .comment no text =>
    { st with
      p := st.d
      d := some text
      dl := no }
  | .ends => dscRecord st
  | .starts no ts => { st with waiting := some (ts, no) :: st.waiting.tail }
  | .enter =>
    { st with
      d := none
      p := none
      waiting := none :: st.waiting }
  | .leave => let s := dscRecord st; { s with waiting := s.waiting.tail }

/-- Many events. -/
def dscRun (st : DscSt) (ops : List DscOp) : DscSt := ops.foldl dscOp st

/-- What a line is: a rule; another line that ends the rule before it; or neither of the two (blank, conditional, ignored, or part of a recipe, of which the text
is then taken to be empty). -/
inductive DscKind where
  | rule (targets : List Str)
  | ends
  | other
deriving DecidableEq, Repr

/-- A line that is not part of a recipe: its number, its text after `collapse_continuations`, and what it is. -/
structure DscLine where
  no : Nat
  text : Str
  kind : DscKind
deriving DecidableEq, Repr

/-- The events of a line, in the order of `eval` (read.c 750, then 774 and so on). -/
def dscLineOps (l : DscLine) : List DscOp :=
  (match commentDescription l.text with
    | some t => [.comment l.no t]
    | none => []) ++
  (match l.kind with
    | .rule ts => [.ends, .starts l.no ts]
    | .ends => [.ends]
    | .other => [])

/-- The events of a makefile, or of a text given to `eval`. -/
def dscFileOps (ls : List DscLine) : List DscOp := .enter :: (ls.flatMap dscLineOps ++ [.leave])

/-- `f->description` at the end (read.c 2145, 2200): each rule for the target, with one colon, puts its description there. -/
def dscDescription (out : List (List Str × Option Str)) (t : Str) : Option Str :=
  out.foldl (fun acc r => if t ∈ r.1 then r.2 else acc) none

/-- A file, as the lists see it. -/
structure DscFile where
  name : Str
  description : Option Str
deriving DecidableEq, Repr

/-- `hash_dump` with `dbg_target_compare` (info.c 180-186, 191-192); `qsort` is any sorting, and names are different. -/
def dscSorted (fs : List DscFile) : List DscFile := fs.mergeSort fun a b => strcmp a.name b.name ≤ 0

/-- `printf ("%-20s ", name)`. -/
def dscPad (s : Str) : Str := s ++ List.replicate (20 - s.length) ' ' ++ [' ']

/-- `--tasks` (info.c 203-217). -/
def dscTasks (fs : List DscFile) : List Str :=
  (dscSorted fs).filterMap fun f => f.description.map fun d => dscPad f.name ++ d ++ ['\n']

/-- `--targets` (info.c 188-201, 161-165, with `INFO_TARGET_NAME`). -/
def dscTargets (fs : List DscFile) : List Str :=
  (dscSorted fs).map fun f => '\t' :: f.name ++ (match f.description with
    | some d => '\t' :: '#' :: ' ' :: d
    | none => []) ++ ['\n']

end Remake
