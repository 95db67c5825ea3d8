import Verif.Debugger.Model
/-!
# The debugger: where it stops, and the commands that resume

Models the start and the loop of `enter_debugger` (libdebugger/cmd.c 242-401), the conditions at the
places that call it (remake.c 230-231, 437-439, 504-506, 702-703, 872-873, 894-895; job.c 441-442,
949-951, 1218-1219; read.c 171-172, 425-427; function.c 1355; print.c 139-140, 176-177) and the commands
`step`, `next`, `continue`, `finish`, `skip`, `quit`, `break` and `delete` (libdebugger/command/).

Not modelled: messages, the prompt, the commands that only print, `run`, `set` and `load`, and what the
resumed program does to the state of the debugger otherwise (nothing; the options are read before).
-/
namespace Remake

/-- `BRK_BEFORE_PREREQ`, `BRK_AFTER_PREREQ`, `BRK_AFTER_CMD`, `BRK_ALL`, `BRK_TEMP` (types.h 55-62). -/
def brkBefore : Nat := 1
def brkAfter : Nat := 2
def brkEnd : Nat := 4
def brkAll : Nat := 7
def brkTemp : Nat := 8

/-- `debug_enter_reason_t` (trace.h 46-59), as far as `enter_debugger` looks at it (cmd.c 272-281):
whether the reason is one of the three kinds of breakpoints. -/
inductive Reason where
  | breakpoint
  | other
deriving DecidableEq, Repr

/-- The variables the debugger looks at: the breakpoints with the `tracing` fields, the counts
`i_debugger_stepping` and `i_debugger_nexting` (globals.c 105-112), `in_debugger == DEBUGGER_QUIT_RC`
(globals.c 94), the bits of `debugger_on_error`, `debugger_enabled`, `b_debugger_goal`,
`b_debugger_preread`, `makelevel`, and the value of `MAKEFLAGS` that children get.  `frame`: the place
`p_stack` points to, counted from the top of the stack (cmd.c 302). -/
structure DbgState where
  bp : BpState
  stepping : Nat
  nexting : Nat
  quit : Bool
  onError : Bool
  onFatal : Bool
  enabled : Bool
  goal : Bool
  preread : Bool
  level : Nat
  makeflags : Str
  frame : Nat

/-- The field `tracing` of a target. -/
def DbgState.tracing (s : DbgState) (t : Nat) : Nat := s.bp.tracing t

/-- Setting the field `tracing` of a target. -/
def DbgState.trace (s : DbgState) (t m : Nat) : DbgState :=
  { s with bp := { s.bp with tracing := fun x => if x = t then m else s.bp.tracing x } }

/-- The places that may call `enter_debugger`. -/
inductive Place where
  /-- Before a target is looked at (remake.c 437-439); does it have a recipe? -/
  | before (t : Nat) (cmds : Bool)
  /-- A target does not exist (remake.c 502-506); does it have a recipe? -/
  | missing (t : Nat) (cmds : Bool)
  /-- The prerequisites have been looked at (remake.c 702-703). -/
  | after (t : Nat)
  /-- The recipe has been started or is done (remake.c 872-873, 894-895). -/
  | ended (t : Nat)
  /-- Before a command of a recipe (job.c 1217-1219). -/
  | command (t : Nat)
  /-- A goal was found up to date (remake.c 230-231). -/
  | upToDate (t : Nat)
  /-- Before a makefile is read (read.c 171-172, 425-427). -/
  | reading
  /-- The function `debugger` (function.c 1350-1358). -/
  | called
  /-- A message about an error, in a target or not (print.c 139-140).  Simplified: `p_target` is the copy
on the stack, with the `tracing` it had when it was pushed. -/
  | error (t : Option Nat)
  /-- A fatal error (print.c 176-177). -/
  | fatal (t : Option Nat)
  /-- After the message about a failed recipe (job.c 441-442). -/
  | failed (t : Nat) (code : Int)
  /-- Before giving up after a failed recipe (job.c 946-951): the target is a copy, whose `tracing` is
  that of the target. -/
  | givingUp (t : Nat)
deriving DecidableEq, Repr

/-- The condition for the call at a place, and its arguments `p_target`, `errcode` and `reason`.
In read.c `in_debugger` is nonzero also inside of the loop, where makefiles are read only by the command
`load` (not modelled). -/
def Place.call (s : DbgState) : Place → Option (Option Nat × Int × Reason)
  | .before t cmds => if (s.stepping ≠ 0 ∧ cmds) ∨ s.tracing t &&& brkBefore ≠ 0 then some (some t, 0, .breakpoint) else none
  | .missing t cmds => if s.nexting ≠ 0 ∧ cmds then some (some t, 0, .other) else none
  | .after t => if s.tracing t &&& brkAfter ≠ 0 then some (some t, 0, .breakpoint) else none
  | .ended t => if s.tracing t &&& brkEnd ≠ 0 ∨ s.stepping ≠ 0 then some (some t, 0, .breakpoint) else none
  | .command t => if s.stepping ≠ 0 then some (some t, 0, .other) else none
  | .upToDate t => if s.enabled ∧ s.goal then some (some t, -2, .other) else none
  | .reading => if s.preread ∧ s.stepping ≠ 0 ∧ ¬ s.quit then some (none, 0, .other) else none
  | .called => some (none, 0, .other)
  | .error t => if s.onError then some (t, -1, .other) else none
  | .fatal t => if s.onFatal ∨ s.enabled then some (t, 2, .other) else none
  | .failed t code => if ¬ s.onError ∧ s.enabled then some (some t, code, .other) else none
  | .givingUp t => if s.onFatal ∨ s.stepping ≠ 0 ∨ s.nexting ≠ 0 then some (some t, 2, .other) else none

/-- What the start of `enter_debugger` decides. -/
inductive Entry where
  /-- `return continue_execution` -/
  | go (s : DbgState)
  /-- The loop is entered. -/
  | stop (s : DbgState)
  /-- A null pointer is followed. -/
  | undef

/-- The part of `enter_debugger` after the decision to stop (cmd.c 270-281, 293-302, 329-345):
temporary breakpoints are cleared; at the end of a sub-make the debugger will not be entered again. -/
def stopAt (s : DbgState) (t : Option Nat) (code : Int) (r : Reason) : DbgState :=
  let s := match t with
    | none => s
    | some t => if s.tracing t &&& brkTemp ≠ 0 ∧ r = Reason.breakpoint then s.trace t 0 else s
  { s with quit := s.quit || (decide (code = -2) && decide (s.level ≠ 0)), frame := 0 }

/-- The start of `enter_debugger` (cmd.c 253-281). -/
def enterDebugger (s : DbgState) (t : Option Nat) (code : Int) (r : Reason) : Entry :=
  if s.quit then .go s
  else if s.stepping > 1 ∨ s.nexting > 1 then
    let s := { s with stepping := s.stepping - 1, nexting := s.nexting - 1 }
    match t with
    | none => .undef
    | some x => if s.tracing x = 0 then .go s else .stop (stopAt s t code r)
  else
    let untraced := match t with
      | none => false
      | some x => decide (s.tracing x = 0)
    if ¬ (s.onError ∨ s.onFatal) ∧ ¬ (s.stepping ≠ 0 ∨ s.nexting ≠ 0) ∧ untraced = true ∧ code ≠ -2 then .go s
    else .stop (stopAt s t code r)

/-- An argument that should be a number: absent, a number (as `unsigned int`), or something else
(`get_uint`, fns.c 115-132). -/
inductive NumArg where
  | absent
  | num (n : Nat)
  | bad
deriving DecidableEq, Repr

/-- The commands.  `contTo`: with a target (`none` if there is no such) and the mask given by
`contMask`. -/
inductive DbgCmd where
  | step (a : NumArg)
  | next (a : NumArg)
  | cont
  | contTo (t : Option Nat) (mask : Nat)
  | finish (a : NumArg)
  | skip
  | frame (k : Nat)
  | breakAt (t mask : Nat)
  | delete (i : Nat)
  | deleteAll
  | quit
  /-- A command that only prints, or an error. -/
  | other
deriving DecidableEq, Repr

/-- What comes after a command: the next one is read, the program goes on, `die`, or an invalid pointer
was followed. -/
inductive CmdRes where
  | again (s : DbgState)
  | resume (s : DbgState)
  | die (s : DbgState)
  | undef

/-- `define_variable_in_set ("MAKEFLAGS", …, o_debugger, …)` (step.c 40, next.c 40, continue.c 78,
finish.c 59): the global variable gets the value; `o_debugger` is above all other origins. -/
def DbgState.flags (s : DbgState) (v : Str) : DbgState := { s with makeflags := v }

/-- The commands (command/step.c 33-53, command/next.c 33-49, command/continue.c 33-81,
command/finish.c 34-75, command/skip.c 27-31, command/break.c 43-99, command/delete.c 33-59,
command/quit.c 32-47; `frame`: see `adjustFrame`).  `stack`: the targets of the stack, the innermost
first.  Numbers are `unsigned int`s. -/
def DbgCmd.run (stack : List Nat) (s : DbgState) : DbgCmd → CmdRes
  | .step .absent => .resume ({ s with stepping := 1, nexting := 0 }.flags ['X'])
  | .step (.num n) => .resume ({ s with stepping := n % 2 ^ 32, nexting := 0 }.flags ['X'])
  | .step .bad => .again s
  | .next .absent => .resume ({ s with stepping := 0, nexting := 1 }.flags [])
  | .next (.num n) => .resume { s with nexting := n % 2 ^ 32 }
  | .next .bad => .resume s
  | .cont => .resume ({ s with stepping := 0, nexting := 0 }.flags [])
  | .contTo none _ => .again s
  | .contTo (some t) mask =>
    match addBreakpoint s.bp t (mask ||| brkTemp) with
    | none => .undef
    | some b => .resume ({ s with bp := b, stepping := 0, nexting := 0 }.flags [])
  | .finish a =>
    let k := match a with
      | .absent => some s.frame
      | .num n => some (s.frame + n % 2 ^ 32)
      | .bad => none
    match k with
    | none => .again s
    | some k =>
      match stack[k]? with
      | none => .again s
      | some t => .resume (({ s with stepping := 0, nexting := 0 }.trace t (s.tracing t ||| brkEnd)).flags [])
  | .skip => .resume s
  | .frame k => .again (if k < stack.length then { s with frame := k } else s)
  | .breakAt t mask =>
    match addBreakpoint s.bp t mask with
    | none => .undef
    | some b => .again { s with bp := b }
  | .delete i =>
    match removeBreakpoint s.bp i with
    | none => .undef
    | some b => .again { s with bp := b.1 }
  | .deleteAll =>
    match deleteFrom s.bp 1 s.bp.count with
    | none => .undef
    | some b => .again { s with bp := b }
  | .quit => .die { s with quit := true }
  | .other => .again s

/-- The loop of `enter_debugger` (cmd.c 351-396) on the commands the user types; at the end of the input
the debugger quits (cmd.c 391-393).  An empty line is `step` (cmd.c 386-389). -/
def readLoop (stack : List Nat) : List DbgCmd → DbgState → CmdRes
  | [], s => .die { s with quit := true }
  | c :: cs, s =>
    match c.run stack s with
    | .again s => readLoop stack cs s
    | r => r

/-- How a session ends: the program has gone through all the places, the debugger was left with `quit`,
or an invalid pointer was followed. -/
inductive SessionEnd where
  | finished (s : DbgState)
  | died (s : DbgState)
  | undef

/-- A session: the program comes to places, each with its stack; `user k` are the commands that are
typed at the stop number `k`.  The values that `enter_debugger` returns are not looked at by its
callers (`print_child_cmd`, print.c 270-291, is not called), so that the program goes on in the same way
after `skip`.  The result tells for each place whether the debugger has stopped there. -/
def session (user : Nat → List DbgCmd) : (k : Nat) → List (Place × List Nat) → DbgState → List Bool × SessionEnd
  | _, [], s => ([], .finished s)
  | k, (p, stack) :: ps, s =>
    match p.call s with
    | none => let r := session user k ps s; (false :: r.1, r.2)
    | some (t, code, r) =>
      match enterDebugger s t code r with
      | .undef => ([], .undef)
      | .go s => let r := session user k ps s; (false :: r.1, r.2)
      | .stop s =>
        match readLoop stack (user k) s with
        | .again s => ([true], .died s)
        | .resume s => let r := session user (k + 1) ps s; (true :: r.1, r.2)
        | .die s => ([true], .died s)
        | .undef => ([true], .undef)

/-- `get_brkpt_option` (fns.c 73-90). -/
def brkptOption (w : Str) : Nat :=
  if isAbbrevOf w "all".toList 1 then brkAll
  else if isAbbrevOf w "prerequisite".toList 3 then brkBefore
  else if isAbbrevOf w "run".toList 1 then brkAfter
  else if isAbbrevOf w "end".toList 1 then brkEnd
  else if isAbbrevOf w "temp".toList 1 then brkTemp
  else 0

/-- The mask of `break` (command/break.c 86-94): the words after the target. -/
def breakMask (args : Str) : Nat :=
  if args = [] then brkAll else (readWords args).foldl (fun m w => m ||| brkptOption w) 0

/-- The mask of `continue` (command/continue.c 57-68): the first `get_word` ends the word with a null
character and `psz_args` is set to its start, so that the loop reads the same word again. -/
def contMask (args : Str) : Nat :=
  let w := (getWord args).1
  if w = [] then brkAll else (readWords w).foldl (fun m w => m ||| brkptOption w) (brkptOption w)

/-- The state when the program starts without options for the debugger. -/
def DbgState.init (flags : Str) : DbgState :=
  { bp := BpState.init, stepping := 0, nexting := 0, quit := false, onError := false, onFatal := false, enabled := false,
    goal := false, preread := false, level := 0, makeflags := flags, frame := 0 }

/-- The state with the option `-X` (main.c 1442-1453). -/
def DbgState.debug (flags : Str) : DbgState := { DbgState.init flags with stepping := 1, enabled := true }

end Remake
