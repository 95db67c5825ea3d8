import Verif.Path.Model
set_option linter.unusedVariables false
/-!
# The function realpath

Models `src/function.c` 1979-2028 (`func_realpath`), for systems with `realpath`.

Simplifications: the files do not change during the call, so that the kernel is a pair of functions; calls that are interrupted are made again (makeint.h 752, 761) and count as one.
-/
namespace Remake

/-- The kernel: `realpath` and `stat`, and the file that a name leads to (not used by make; for the statements). -/
structure RpWorld (φ : Type) where
  real : Str → Option Str
  stat : Str → Bool
  file : Str → Option φ

variable {φ : Type}

/-- The loop body of `func_realpath` (function.c 1987-2026): the text so far and `doneany`. -/
def rpStep (W : RpWorld φ) (limit : Nat) (st : Str × Bool) (w : Str) : Str × Bool :=
  if w.length < limit then
    match W.real w with
    | some p => if W.stat p then (st.1 ++ p ++ [' '], true) else st
    | none => st
  else st

/-- `func_realpath` (function.c 1979-2028). -/
def funcRealpath (W : RpWorld φ) (limit : Nat) (text : Str) : Str :=
  let r := (tokens text).foldl (rpStep W limit) ([], false)
  killLast r.2 r.1

end Remake
