import Verif.Var.Model
/-!
# Asking about variables: `$(origin)`, `$(flavor)`, `$(value)`, `$(.VARIABLES)`, and `SHELL`

Models `src/function.c`: `func_origin` 457-495, `func_flavor` 497-511, `func_value` 1361-1372;
`src/variable.c`: `lookup_special_var` 413-486 with the counter `variable_changenum` of
`define_variable_in_set` 314, `undefine_variable_in_set` 398; the part of
`define_automatic_variables` 963-984 about `SHELL`; `src/main.c` 1255.
-/
namespace Remake

/-- The switch of `func_origin` (function.c 465-492): the word for an origin; `none` is the call of
`abort` for every origin that the switch does not list. -/
def originText : Origin → Option Str
  | .default => some "default".toList
  | .env => some "environment".toList
  | .file => some "file".toList
  | .envOverride => some "environment override".toList
  | .command => some "command line".toList
  | .override => some "override".toList
  | .automatic => some "automatic".toList
  | .debugger => none
  | .invalid => none

/-- `func_origin` (function.c 457-494): the text; `none` if make aborts. -/
def funcOrigin (chain : List (VarSet × Bool)) (n : Str) : Option Str :=
  match lookupVariable chain n with
  | none => some "undefined".toList
  | some v => originText v.origin

/-- `func_flavor` (function.c 497-511). -/
def funcFlavor (chain : List (VarSet × Bool)) (n : Str) : Str :=
  match lookupVariable chain n with
  | none => "undefined".toList
  | some v => if v.recursive then "recursive".toList else "simple".toList

/-- `func_value` (function.c 1361-1372). -/
def funcValue (chain : List (VarSet × Bool)) (n : Str) : Str :=
  match lookupVariable chain n with
  | none => []
  | some v => v.value

/-! ## `.VARIABLES` -/

/-- The global set, `variable_changenum` (variable.c 34) and `last_changenum` (variable.c 416). -/
structure VlState where
  set : VarSet
  change : Nat
  last : Nat

/-- The name of the variable (main.c 1255). -/
def vlName : Str := ['.', 'V', 'A', 'R', 'I', 'A', 'B', 'L', 'E', 'S']

/-- What happens to the global set: a definition, an undefinition, a lookup of a name.  Sets other
than the global one do not count (variable.c 313, 397). -/
inductive VlOp where
  | op (o : VarOp)
  | look (n : Str)

/-- The name list (variable.c 458-479): every name followed by a space, the last space replaced by
the end of the string. -/
def vlText : List Str → Str
  | [] => []
  | [n] => n
  | n :: ns => n ++ ' ' :: vlText ns

/-- `define_variable_in_set` and `undefine_variable_in_set` on the global set, with the counter
(variable.c 310-314: a new variable; 392-398: a deleted one).  The counter is not bounded here. -/
def vlDefine (st : VlState) : VarOp → VlState
  | .define e n v o r =>
    { st with
      set := st.set.define e n v o r
      change := if (st.set n).isNone then st.change + 1 else st.change }
  | .undefine e n o =>
    { st with
      set := st.set.undefine e n o
      change :=
        if (st.set n).isSome ∧ undefineVar e (st.set n) o = none then st.change + 1 else st.change }

/-- `lookup_variable` (variable.c 503-511) with the global scope only, and `lookup_special_var`
(variable.c 444-483).  `walk` gives the names in the order of the table's slots. -/
def vlLook (walk : VarSet → List Str) (st : VlState) (n : Str) : VlState :=
  match st.set n with
  | none => st
  | some v =>
    if v.special = true ∧ st.change ≠ st.last ∧ n = vlName then
      { st with
        set := st.set.put n (some { v with value := vlText (walk st.set) })
        last := st.change }
    else st

/-- One step of a history. -/
def VlOp.run (walk : VarSet → List Str) (st : VlState) : VlOp → VlState
  | .op o => vlDefine st o
  | .look n => vlLook walk st n

/-- The state after main.c 1255: the variable defined and marked special, in an empty set. -/
def VlState.init : VlState :=
  ⟨VarSet.empty.put vlName (some { value := [], origin := .default, recursive := false, exportable := false, special := true }), 1, 0⟩

/-- The text of `$(.VARIABLES)` at the end of a history (the value of the variable that the lookup
returns; it is not recursive, so it is not expanded again). -/
def vlValue (walk : VarSet → List Str) (st : VlState) : Option Str :=
  ((vlLook walk st vlName).set vlName).map (·.value)

/-- `EXPANSION_INCREMENT` (variable.c 411). -/
def vlInc (l : Nat) : Nat := (l / 500 + 1) * 500

/-- The loop that fills the buffer (variable.c 458-478), on the lengths of the names: `at_` bytes are
written, `len` is `len`, `max` is the size of the buffer.  `none` if it writes past the end. -/
def vlFill (at_ len max : Nat) : List Nat → Option (Nat × Nat)
  | [] => some (at_, max)
  | l :: ls =>
    let len := len + (l + 1)
    let max := if len > max then max + vlInc (l + 1) else max
    if at_ + (l + 1) ≤ max then vlFill (at_ + (l + 1)) len max ls else none

/-! ## `SHELL` -/

/-- The part of `define_automatic_variables` about `SHELL` (variable.c 963-984): defined with the
default shell and the weakest origin, then replaced if it is empty or from the environment. -/
def shellVar (e : Bool) (old : Option Var) (dflt : Str) : Var :=
  let v := defineVar e old "SHELL".toList [] dflt .default false
  if v.value = [] ∨ v.origin = .env ∨ v.origin = .envOverride then { v with origin := .file, value := dflt } else v

/-- `SHELL` in the global set: the definitions made before the makefiles are read
(main.c 1259-1378), `define_automatic_variables` (main.c 1795), and the definitions made afterwards. -/
def shellHistory (e : Bool) (dflt : Str) (before after : List VarOp) : VarSet :=
  let s := before.foldl VarOp.run VarSet.empty
  after.foldl VarOp.run (s.put "SHELL".toList (some (shellVar e (s "SHELL".toList) dflt)))

end Remake
