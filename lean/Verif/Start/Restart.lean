import Verif.Start.Props
/-!
# Starting make again

Models the decision about makefiles that were remade (main.c 2142-2215) and the command line and environment of the new make
(main.c 2230-2315).
-/
set_option linter.unusedVariables false
set_option linter.unusedSimpArgs false
namespace Remake

/-! ## Model -/

/-- The names of the makefiles that are left: `makefiles->list + j`.  The list ends with a null pointer; `none`: `j` is beyond it. -/
abbrev MkNames := Option (List Str)

/-- Reading `makefiles->list[j]`: the name, or a null pointer; `none` is a read beyond the list. -/
def MkNames.take : MkNames → Option (Option Str × MkNames)
  | some (m :: ms) => some (some m, some ms)
  | some [] => some (none, none)
  | none => none

/-- The loop over the words (main.c 2232-2242); null pointers are `none` in the words.  A lone `-f` as the last word stores a name in the
place of the null pointer at the end of the vector (2236); there is no word after that, and the vector ends only if a null
pointer is stored. -/
def restartWords : List Str → MkNames → Option (List (Option Str))
  | [], _ => some []
  | [w], ms =>
    if ['-', 'f'] <+: w then
      match ms.take with
      | none => none
      | some (m, _) => if w = ['-', 'f'] then (if m = none then some [some w] else none) else some [some ("-f".toList ++ m.getD [])]
    else some [some w]
  | w :: x :: ws, ms =>
    if ['-', 'f'] <+: w then
      match ms.take with
      | none => none
      | some (m, ms') =>
        if w = ['-', 'f'] then (restartWords ws ms').map fun r => some w :: m :: r
        else (restartWords (x :: ws) ms').map fun r => some ("-f".toList ++ m.getD []) :: r
    else (restartWords (x :: ws) ms).map (some w :: ·)

/-- The words of the new make (main.c 2227-2256): `makefiles` is the list of makefiles given by options, with the name of the temporary
file for `-`; `tmp` is the name of that file.  A vector of words ends at its first null pointer. -/
def restartArgs (ws makefiles : List Str) (tmp : Option Str) : Option (List Str) :=
  let r := if makefiles = [] then some (ws.map some) else restartWords ws (some makefiles)
  (r.map fun r => r ++ (tmp.map fun t => some ("-o".toList ++ t)).toList).map fun r => (r.takeWhile (·.isSome)).filterMap id

/-- One entry of the environment (main.c 2288-2306), and `restarts` afterwards. -/
def restartEntry (level : Nat) (traced : Bool) (restarts : Nat) (e : Str) : Str × Nat :=
  if "MAKELEVEL=".toList <+: e then ("MAKELEVEL=".toList ++ Nat.toDigits 10 level, restarts)
  else if "MAKE_RESTARTS=".toList <+: e then
    ("MAKE_RESTARTS=".toList ++ (if traced then ['-'] else []) ++ Nat.toDigits 10 restarts, 0)
  else (e, restarts)

/-- The loop over the environment (main.c 2289-2306) and the entry added if there was none (2309-2315). -/
def restartEntries (level : Nat) (traced : Bool) : Nat → List Str → List Str
  | r, [] => if r = 0 then [] else ["MAKE_RESTARTS=".toList ++ (if traced then ['-'] else []) ++ Nat.toDigits 10 r]
  | r, e :: es => (restartEntry level traced r e).1 :: restartEntries level traced (restartEntry level traced r e).2 es

/-- The environment of the new make (main.c 2277, 2290-2315). -/
def restartEnv (level restarts : Nat) (traced : Bool) (es : List Str) : List Str :=
  restartEntries level traced ((restarts + 1) % 2 ^ 32) es

/-- What is known about a makefile after the attempt to remake it. -/
structure MkState where
  /-- `d->file->updated`. -/
  updated : Bool
  /-- `d->file->update_status == us_success`. -/
  success : Bool
  /-- `file_mtime_no_search` now, and before: `none` is `NONEXISTENT_MTIME`. -/
  now : Option Nat
  before : Option Nat
  /-- `RM_DONTCARE`, `RM_INCLUDED`. -/
  dontcare : Bool
  included : Bool
deriving DecidableEq, Repr

/-- The result of `update_goal_chain`. -/
inductive MkStatus where
  | success | none | question | failed
deriving DecidableEq, Repr

/-- What comes after makefiles have been remade. -/
inductive MkNext where
  /-- The goals, with this exit status so far (`makefile_status` is `MAKE_FAILURE`). -/
  | goals (failed : Bool)
  | restart
  | die
deriving DecidableEq, Repr

/-- The loop over makefiles after a failure (main.c 2168-2211): `any_remade`, `any_failed`, and `makefile_status`. -/
def weighMakefiles : List MkState → Bool × Bool × Bool
  | [] => (false, false, false)
  | d :: ds =>
    let r := weighMakefiles ds
    if d.updated then
      if d.success then (d.now ≠ d.before || r.1, r.2.1, r.2.2)
      else if !d.dontcare then ((d.now ≠ none && d.now ≠ d.before) || r.1, r.2.1, true)
      else r
    else if !d.dontcare then
      if d.included then r else (r.1, true, r.2.2)
    else r

/-- The decision (main.c 2142-2221). -/
def afterMakefiles (s : MkStatus) (ds : List MkState) : MkNext :=
  match s with
  | .question | .none => .goals false
  | .success => .restart
  | .failed =>
    let r := weighMakefiles ds
    if r.1 then .restart else if r.2.1 then .die else .goals r.2.2

/-- An entry of a double-colon target: whether it has prerequisites, and a recipe. -/
structure ColonEntry where
  deps : Bool
  cmds : Bool
deriving DecidableEq, Repr

/-- The removal of makefiles that are always remade (main.c 2082-2125): a makefile has a name and the entries of its double-colon
rules (none for another target). -/
def remadeMakefiles (ms : List (Str × List ColonEntry)) : List (Str × List ColonEntry) :=
  ms.filter fun m => !m.2.any fun e => !e.deps && e.cmds

/-- `always_make_flag` while makefiles are remade (main.c 1498-1499), and after that (2341). -/
def alwaysMake (flagB : Bool) (restarts : Nat) (makefiles : Bool) : Bool :=
  if makefiles then flagB && restarts == 0 else flagB

/-- The exit status (main.c 2432-2455, makeint.h 703-705): what is left from makefiles, and the result of the goals. -/
def exitStatus (makefiles : Bool) (goals : MkStatus) : Nat :=
  match goals with
  | .none | .success => if makefiles then 2 else 0
  | .question => 1
  | .failed => 2

end Remake
