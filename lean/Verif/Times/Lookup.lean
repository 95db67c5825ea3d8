import Verif.Misc.Model
import Verif.Cmds.Model
/-! Model of the end of `f_mtime` (remake.c 1418-1504): the warning about times in the future, and the storing of the time in the
records of the file. -/
set_option linter.unusedVariables false
namespace Remake

/-! ## Times in the future -/

/-- `clock_skew_detected` (main.c 534) and the static `adjusted_now` (remake.c 1430). -/
structure Skew where
  detected : Bool := false
  adjustedNow : Nat := 0
deriving Repr, DecidableEq

/-- One lookup: the time of the file, whether it was updated (`file->updated`), and what the clock says if it is read
(`file_timestamp_now`), with its resolution. -/
structure SkewLookup where
  mtime : Nat
  updated : Bool
  now : Nat
  resolution : Nat
deriving Repr, DecidableEq

/-- The check (remake.c 1426-1478), POSIX part: the new state and whether the warning is given. -/
def skewCheck (s : Skew) (l : SkewLookup) : Skew × Bool :=
  if s.detected = false ∧ l.mtime ≠ nonexistentMtime ∧ l.mtime ≠ newMtime ∧ l.updated = false then
    if s.adjustedNow < l.mtime then
      if l.now + (l.resolution - 1) < l.mtime then (⟨true, l.now + (l.resolution - 1)⟩, true)
      else (⟨false, l.now + (l.resolution - 1)⟩, false)
    else (s, false)
  else (s, false)

/-- All lookups of a run: the state at the end and the warnings. -/
def skewRun : Skew → List SkewLookup → Skew × List Bool
  | s, [] => (s, [])
  | s, l :: ls =>
    let r := skewCheck s l
    let rest := skewRun r.1 ls
    (rest.1, r.2 :: rest.2)

/-! ## Storing the time -/

/-- A record of a file, as `f_mtime` sees it (filedef.h 27-118); `notStarted` is `command_state == cs_not_started`. -/
structure TimeRec where
  updated : Bool := false
  notStarted : Bool := true
  triedImplicit : Bool := false
  intermediate : Bool := false
  lastMtime : Nat := 0
deriving Repr, DecidableEq

/-- The body of the loop (remake.c 1489-1500). -/
def TimeRec.store (propagate : Bool) (mtime : Nat) (r : TimeRec) : TimeRec :=
  { r with
    intermediate := if mtime ≠ nonexistentMtime ∧ r.notStarted = true ∧ r.triedImplicit = false then false else r.intermediate
    lastMtime := if r.updated = propagate then mtime else r.lastMtime }

/-- The records of the file from the first (remake.c 1480-1502). -/
def storeTimes (mtime : Nat) : List TimeRec → List TimeRec
  | [] => []
  | r :: rs => (r :: rs).map (TimeRec.store r.updated mtime)

end Remake
