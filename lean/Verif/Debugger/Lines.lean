import Verif.Debugger.Model
/-!
# The debugger: targets by line numbers

Models libdebugger/file2line.c (the table from lines of makefiles to targets and pattern rules) and the
use of it by `break` and `list` with a number (command/break.c 55-74, command/list.c 65-84).

The hash tables `files` and `file2lines` are maps; a name is entered in `file2lines` only once, so that
the table, whose size is that of `files`, is never full.
-/
namespace Remake

/-- What an element of the arrays `array` and `type` tells (file2line.h 24-36): a target or a pattern
rule, by number.  The two arrays are always written together (file2line.c 108-109, 157-158). -/
inductive LineItem where
  | target (n : Nat)
  | pattern (n : Nat)
deriving DecidableEq, Repr

/-- The place of a target or pattern rule (`floc`): `none` if it does not come from a makefile. -/
abbrev LinePlace := Option (Str × Nat)

/-- The table: for each name of a makefile the array (file2line.h 30-36); its length is `size`. -/
abbrev LineTable := Str → Option (List (Option LineItem))

/-- `enter_target_lineno` and `enter_rule_lineno` (file2line.c 76-110, 123-159); `nlines` is the field of
the file found by `lookup_file`.  `none`: written outside of the array. -/
def enterLine (nlines : Str → Option Nat) (tab : LineTable) (name : Str) (line : Nat) (i : LineItem) : Option LineTable :=
  match nlines name with
  | none => some tab
  | some n =>
    let cells := (tab name).getD (List.replicate (n + 1) none)
    if line < cells.length then some (fun x => if x = name then some (cells.set line (some i)) else tab x) else none

/-- `file2lines_init` (file2line.c 113-121, 166-181) after the makefiles are read: first all targets, in
the order of the hash table, then all pattern rules. -/
def buildLines (nlines : Str → Option Nat) : List (LineItem × LinePlace) → LineTable → Option LineTable
  | [], tab => some tab
  | (_, none) :: r, tab => buildLines nlines r tab
  | (i, some (name, line)) :: r, tab =>
    match enterLine nlines tab name line i with
    | none => none
    | some tab => buildLines nlines r tab

/-- The place of a pattern rule whose recipe begins on line `cmds` (rule.c 494-501). -/
def patternLine (name : Str) (cmds : Option Nat) : LinePlace := cmds.map fun c => (name, c - 1)

/-- What `target_for_file_and_line` does: it reads outside of the array or through a null pointer; or
returns null without setting `*entry_type`; or an element. -/
inductive LineLookup where
  | undef
  | unset
  | found (i : Option LineItem)
deriving DecidableEq, Repr

/-- `target_for_file_and_line` (file2line.c 58-74); the name is `none` if the target that the debugger
has stopped at has no place. -/
def lineLookup (tab : LineTable) (name : Option Str) (line : Nat) : LineLookup :=
  match name with
  | none => .undef
  | some name =>
    match tab name with
    | none => .unset
    | some cells =>
      if line > cells.length then .unset
      else match cells[line]? with
        | none => .undef
        | some i => .found i

/-- What `break` or `list` with a number does. -/
inductive LineResult where
  /-- Memory is read that must not be, or a variable that was not set. -/
  | undef
  /-- A message. -/
  | refused
  /-- The breakpoint is set, or the target is listed. -/
  | target (n : Nat)
deriving DecidableEq, Repr

/-- `break` with a number (command/break.c 55-74): `entry_type` is looked at whatever is returned. -/
def breakLine (tab : LineTable) (name : Option Str) (line : Nat) : LineResult :=
  match lineLookup tab name line with
  | .undef => .undef
  | .unset => .undef
  | .found none => .refused
  | .found (some (.target n)) => .target n
  | .found (some (.pattern _)) => .refused

/-- `list` with a number (command/list.c 65-84): a pattern rule is used as if it was a target. -/
def listLine (tab : LineTable) (name : Option Str) (line : Nat) : LineResult :=
  match lineLookup tab name line with
  | .undef => .undef
  | .unset => .refused
  | .found none => .refused
  | .found (some (.target n)) => .target n
  | .found (some (.pattern _)) => .undef

end Remake
