import Verif.Base.Chars
set_option linter.unusedVariables false
/-!
# Messages about the directory, and about commands that fail

Models `src/output.c`: `_outputs` 58-75, `log_working_directory` 80-146 (its text is modelled in
`Output/Message.lean`), `output_dump` 359-404, `output_close` 489-508, `output_start` 511-527, `outputs` 529-538, as far as it
matters which messages about the directory are written and when; with the callers in `src/main.c`
(options 1373-1411, `-C` 1521-1522, 1616-1627 and 1646-1664, the end 3277-3321), in `src/job.c` (1136-1149, 1215) and in
`src/function.c` (1667); `src/job.c` `child_error` 401-443 and its callers 809-834; `src/print.c`
`err_log_working_directory` 43-95 and `err_with_stack` 98-141.
-/
namespace Remake

/-! ## Messages about the directory -/

/-- `output_sync` (output.h, globals.c 134). -/
inductive WdMode where
  | none | line | target | recurse
deriving DecidableEq, Repr

/-- What is written on the terminal: a message about the directory with the directory (`none`: "an
unknown directory"), a message of make, a text of a command. -/
inductive WdMark where
  | enter (dir : Option Str)
  | leave (dir : Option Str)
  | own (s : Str)
  | cmd (s : Str)
deriving DecidableEq, Repr

/-- A make: `output_sync`, `print_directory`, `stdio_traced`, `starting_directory`, the contents of the
temporary files of each context, the commands that run (with their contexts; `none` writes directly), and
what has been written.  `over` after the end.  Standard output and error are not told apart. -/
structure WdSt where
  mode : WdMode
  pd : Bool
  traced : Bool
  dir : Option Str
  tmp : Nat → List WdMark
  running : List (Option Nat)
  term : List WdMark
  over : Bool

/-- At the start (globals.c 30, 134; output.c 45). -/
def WdSt.init : WdSt := ⟨.none, false, false, none, fun _ => [], [], [], false⟩

/-- What a make does: options are read (on the command line, in the environment or because a makefile sets
`MAKEFLAGS`); the directory is found out; a message is written with `outputs`, captured in a context or not;
a message is written without it (`printf`, as for `-d`; `fprintf` to standard error in print.c 110-127);
a command is started; it writes; it ends; a context is dumped; make starts itself again and reads the options; make ends
(`die`); make is killed by a signal (commands.c 588-697, which does not call `die`). -/
inductive WdOp where
  | opts (m : WdMode) (pd : Bool)
  | setDir (d : Str)
  | message (ctx : Option Nat) (s : Str)
  | raw (s : Str)
  | start (ctx : Option Nat)
  | write (ctx : Option Nat) (s : Str)
  | finish (ctx : Option Nat)
  | dump (i : Nat)
  | restart (m : WdMode) (pd : Bool)
  | die
  | kill
deriving DecidableEq, Repr

/-- `output_start` (output.c 511-527).  A temporary file that cannot be made turns `output_sync` off
(output.c 349-351), which is a step `opts` before. -/
def wdStart (st : WdSt) : WdSt :=
  if (st.mode = .none ∨ st.mode = .recurse) ∧ st.traced = false ∧ st.pd = true then
    { st with
      traced := true
      term := st.term ++ [.enter st.dir] }
  else st

/-- `_outputs` (output.c 58-75), also what a command writes (its streams are the context's files, job.c
1136-1149). -/
def wdPut (st : WdSt) (ctx : Option Nat) (m : WdMark) : WdSt :=
  match ctx with
  | none => { st with term := st.term ++ [m] }
  | some i => { st with tmp := fun k => if k = i then st.tmp i ++ [m] else st.tmp k }

/-- `output_dump` (output.c 359-404). -/
def wdDump (st : WdSt) (i : Nat) : WdSt :=
  if st.tmp i = [] then st
  else
    let log := st.pd = true ∧ st.mode ≠ .recurse
    { st with
      term := st.term ++ (if log then [.enter st.dir] else []) ++ st.tmp i ++ (if log then [.leave st.dir] else [])
      tmp := fun k => if k = i then [] else st.tmp k }

/-- A step; `none` if it cannot happen: a command writes or ends that does not run, `die` and the restart
wait for the commands (main.c 3292-3293), and nothing happens after the end.  At a restart `stdio_traced`
goes through `MAKE_RESTARTS` (main.c 1326-1329, 2302, 2313).  Simplified: the directory is taken to be known from the
start in the new make. -/
def WdOp.run (st : WdSt) (o : WdOp) : Option WdSt :=
  if st.over then none
  else
    match o with
    | .opts m pd =>
      some { st with
        mode := m
        pd := pd }
    | .setDir d => some { st with dir := some d }
    | .message ctx s => if s = [] then some st else some (wdPut (wdStart st) ctx (.own s))
    | .raw s => some { st with term := st.term ++ [.own s] }
    | .start ctx =>
      let st := wdStart st
      some { st with running := ctx :: st.running }
    | .write ctx s => if ctx ∈ st.running then some (wdPut st ctx (.cmd s)) else none
    | .finish ctx => if ctx ∈ st.running then some { st with running := st.running.erase ctx } else none
    | .dump i => some (wdDump st i)
    | .restart m pd =>
      if st.running = [] then
        some { st with
          mode := m
          pd := pd
          tmp := fun _ => [] }
      else none
    | .die =>
      if st.running = [] then
        some { st with
          term := st.term ++ (if st.traced then [.leave st.dir] else [])
          over := true }
      else none
    | .kill => some { st with over := true }

/-- A history. -/
def wdRun (st : WdSt) : List WdOp → Option WdSt
  | [] => some st
  | o :: os =>
    match o.run st with
    | none => none
    | some st => wdRun st os

/-- `print_directory` after the options have been read (main.c 1629-1635): `w` is what `-w` set, `s` is
`silent_flag`, `c` whether there were `-C` options, `n` is `--no-print-directory`. -/
def wdPrint (w s c : Bool) (level : Nat) (n : Bool) : Bool :=
  let pd := if s = false ∧ (c = true ∨ level > 0) then true else w
  if n then false else pd

/-! ## Messages about commands that fail -/

/-- How a command ended: with a status, or by a signal with or without a dump. -/
inductive CeEnd where
  | exited (code : Nat)
  | signal (name : Str) (core : Bool)
deriving DecidableEq, Repr

/-- The place of a target, `floc`: file, line and offset. -/
structure CePlace where
  file : Str
  line : Nat
  offset : Nat
deriving DecidableEq, Repr

/-- What the caller of `reap_children` has for its call stack: none; or the target on top, with its place
if it is known. -/
inductive CeCall where
  | none
  | target (place : Option CePlace)
deriving DecidableEq, Repr

/-- The digits of a number. -/
def ceNat (n : Nat) : Str := (Nat.repr n).toList

/-- The name of make and its level (print.c 117-120). -/
def ceProgram (program : Str) (level : Nat) : Str :=
  if level = 0 then program ++ ": ".toList else program ++ "[".toList ++ ceNat level ++ "]: ".toList

/-- The beginning of the message (print.c 109-121). -/
def cePrefix (program : Str) (level : Nat) : CeCall → Str
  | .target none => "<builtin>".toList
  | .target (some p) => p.file ++ ":".toList ++ ceNat (p.line + p.offset) ++ ": ".toList
  | .none => ceProgram program level

/-- The text of `child_error` (job.c 405-433) without the newline. -/
def ceText (target : Str) (e : CeEnd) (ignored : Bool) : Str :=
  let pre := if ignored then [] else "*** ".toList
  let post := if ignored then " (ignored)".toList else []
  match e with
  | .exited code => pre ++ "[".toList ++ target ++ "] error ".toList ++ ceNat code ++ post
  | .signal name core =>
    pre ++ "[".toList ++ target ++ "] ".toList ++ name ++ (if core then " (core dumped)".toList else []) ++ post

/-- `child_error` (job.c 401-443) with `err_with_stack` (print.c 98-141): the line on standard error, if any.
Not modelled: `show_goal_error`, the listing of the stack on standard output, the directory there, and the debugger. -/
def childError (program : Str) (level : Nat) (silent : Bool) (call : CeCall) (target : Str) (e : CeEnd) (ignored : Bool) :
    Option Str :=
  if ignored = true ∧ silent = true then none else some (cePrefix program level call ++ ceText target e ignored)

/-- What `reap_children` says about a command that has ended (job.c 768-775, 809-834).  `question`: with `-q`,
status 1 of a line marked as recursive does not count as failure; `noerror` is the prefix `-`, `ignoreAll` is `-i`. -/
def reapSays (program : Str) (level : Nat) (silent question dontcare noerror ignoreAll : Bool) (call : CeCall) (target : Str)
    (e : CeEnd) : Option Str :=
  if e = .exited 0 then none
  else if noerror = false ∧ ignoreAll = false then
    if dontcare = false ∧ ¬ (question = true ∧ e = .exited 1) then childError program level silent call target e false
    else none
  else childError program level silent call target e true

/-- What is said when `new_job` begins for a target (job.c 1480-1493): the commands that have ended are reaped with the call
stack of the target that is to be made, `starting`.  `place` is where each target's rule is. -/
def newJobSays (program : Str) (level : Nat) (place : Str → Option CePlace) (starting : Str) (ended : List (Str × CeEnd)) : List Str :=
  ended.filterMap fun c => reapSays program level false false false false false (.target (place starting)) c.1 c.2

end Remake
