import Verif.Debugger.Model
import Verif.Var.Model
/-!
# Debugger commands about variables and settings, command files, scripts

Models `libdebugger/`: `dbg_cmd_set_var` (cmd.c 192-228), `try_without_dollar` (fns.c 391-412),
`dbg_cmd_show_exp` (fns.c 417-459), `dbg_cmd_print` (command/print.c), `dbg_cmd_expand`
(command/expand.c), `dbg_cmd_set` (command/set.c 110-149) with `on_off_toggle` (fns.c 250-262),
`dbg_cmd_source` (command/source.c 36-87) and `dbg_cmd_write` (command/write.c 37-196).
-/
namespace Remake

/-! ## Variables -/

/-- The second loop over blanks (cmd.c 201-202, set.c 124-125): like the first of `get_word`, it
increments the character instead of the pointer. -/
def bumpValue (s : Str) : Str := bumpBlank s

/-- The lookup done for a variable name at the prompt outside of an expansion: the current set list
is the global one (variable.c 216). -/
def dbgLookup (g : VarSet) (n : Str) : Option Var := lookupVariable [(g, false)] n

/-- `try_without_dollar` (fns.c 391-412): a name beginning with a dollar sign is only talked about;
any other name is defined, empty. -/
def tryWithoutDollar (e : Bool) (g : VarSet) (n : Str) : VarSet × Bool :=
  match n with
  | '$' :: _ => (g, false)
  | _ => (g.define e n [] .debugger false, true)

/-- `dbg_cmd_set_var` (cmd.c 192-228): the commands `setq` (`expand` false) and `setqx`, and
`set variable`.  `ex` is `variable_expand`. -/
def dbgSetVar (e expand : Bool) (ex : VarSet → Str → Str) (g : VarSet) (args : Str) : VarSet :=
  if args = [] then g
  else
    let w := getWord args
    let rest := bumpValue w.2
    let value (g : VarSet) := if expand then ex g rest else rest
    match dbgLookup g w.1 with
    | some _ => g.define e w.1 (value g) .debugger false
    | none =>
      match tryWithoutDollar e g w.1 with
      | (g', true) => g'.define e w.1 (value g') .debugger false
      | (g', false) => g'

/-- The variable that `dbg_cmd_show_exp` (fns.c 424-446) shows: with a current target, one of its own
set; else, or without target, what the global list has.  (`set_file_variables` has put the
automatic variables into the own set.) -/
def dbgShown (g : VarSet) (own : Option VarSet) (n : Str) : Option Var :=
  match own with
  | some s =>
    match s n with
    | some v => some v
    | none => dbgLookup g n
  | none => dbgLookup g n

/-- `dbg_cmd_show_exp` without expansion (fns.c 417-459): the global set afterwards, what is shown,
and the result. -/
def dbgShowExp (e : Bool) (g : VarSet) (own : Option VarSet) (n : Str) : VarSet × Option Var × Bool :=
  if n = [] then (g, none, false)
  else
    match dbgShown g own n with
    | some v => (g, some v, true)
    | none => ((tryWithoutDollar e g n).1, none, false)

/-- The outcome of `dbg_cmd_print`: the global set, the remembered name and what is shown; or the use
of freed memory. -/
inductive PrintRes where
  | ok (g : VarSet) (last : Option Str) (shown : Option Var)
  | undef

/-- `dbg_cmd_print` (libdebugger/command/print.c 31-55).  Without argument the remembered name is used; the
remembered string is freed before the name is copied, also if it is the name. -/
def dbgPrint (e : Bool) (g : VarSet) (own : Option VarSet) (last : Option Str) (args : Str) : PrintRes :=
  let name : Option (Str × Bool) :=
    if args = [] then last.map fun n => (n, true) else some ((getWord args).1, false)
  match name with
  | none => .ok g last none
  | some (n, isLast) =>
    match dbgShowExp e g own n with
    | (g', v, true) => if isLast then .undef else .ok g' (some n) v
    | (g', v, false) => .ok g' last v

/-! ## Settings -/

/-- The settings that `set` knows (set.c 58-75). -/
inductive Setting where
  | basename | debug | ignore | keep | silent
deriving DecidableEq, Repr

/-- The outcome of `set`: the settings afterwards; an unknown name; a write through the null pointer;
or the command goes to `dbg_cmd_set_var` with these arguments. -/
inductive SetRes where
  | ok (s : Setting → Int)
  | unknown
  | null
  | variable (args : Str)

/-- The table (set.c 56-90): name, variable, fewest characters.  The entry `variable` has none. -/
def setTable : List (Str × Option Setting × Nat) :=
  [("basename".toList, some .basename, 1), ("debug".toList, some .debug, 3),
   ("ignore-errors".toList, some .ignore, 3), ("keep-going".toList, some .keep, 1),
   ("silent".toList, some .silent, 1), ("variable".toList, none, 0)]

/-- `on_off_toggle` (fns.c 250-262): the value written, if any. -/
def onOffToggle (v : Str) (old : Int) : Option Int :=
  if v = "on".toList then some 1
  else if v = "off".toList then some 0
  else if v = "toggle".toList then some (if old = 0 then 1 else 0)
  else none

/-- Writing a setting. -/
def putSetting (s : Setting → Int) (k : Setting) (v : Option Int) : Setting → Int :=
  fun x => if x = k then v.getD (s k) else s x

/-- The loop over the table with `dbg_cmd_set_bool` (set.c 92-106, 143-149). -/
def setLoop (s : Setting → Int) (word value : Str) : List (Str × Option Setting × Nat) → SetRes
  | [] => .unknown
  | (name, k, min) :: rest =>
    if isAbbrevOf word name min then
      match k with
      | some k => .ok (putSetting s k (onOffToggle value (s k)))
      | none => if (onOffToggle value 0).isSome then .null else .ok s
    else setLoop s word value rest

/-- `dbg_cmd_set` (set.c 110-149), with an argument.  `int` is `get_int` (fns.c 97-113): the number
if the whole text is one. -/
def dbgSet (int : Str → Option Int) (s : Setting → Int) (args : Str) : SetRes :=
  if args = [] then .ok s
  else
    let w := getWord args
    let rest := bumpValue w.2
    if isAbbrevOf w.1 "debug".toList 3 then .ok (putSetting s .debug (int rest))
    else if isAbbrevOf w.1 "variable".toList 3 then .variable rest
    else setLoop s w.1 rest setTable

/-! ## Command files -/

/-- `debug_return_t` (trace.h 32-44), as far as it matters: stay at the prompt, stay after an error,
leave the prompt. -/
inductive DbgRet where
  | readloop | error | resume
deriving DecidableEq, Repr

/-- `fgets` with room for `n` characters: what is read, what is left, and whether the end of the
file was met. -/
def dbgFgets : Nat → Str → Str × Str × Bool
  | 0, s => ([], s, false)
  | _ + 1, [] => ([], [], true)
  | n + 1, c :: s =>
    if c = '\n' then ([c], s, false)
    else
      let r := dbgFgets n s
      (c :: r.1, r.2.1, r.2.2)

/-- `chomp` (fns.c 486-490) on a line that is not empty. -/
def dbgChomp (l : Str) : Str := if l.getLast? = some '\n' then l.dropLast else l

/-- The loop of `dbg_cmd_source` (source.c 66-77) over the rest of the file; `run` is `execute_line`.
`fuel` bounds the number of pieces read. -/
def sourceLoop {σ : Type} (run : σ → Str → σ × DbgRet) : Nat → σ → Str → σ
  | 0, st, _ => st
  | fuel + 1, st, s =>
    match dbgFgets 2047 s with
    | (_, _, true) => st
    | (l, rest, false) =>
      let line := stripwhite (dbgChomp l)
      if line = [] then sourceLoop run fuel st rest
      else
        match run st line with
        | (st', .readloop) => sourceLoop run fuel st' rest
        | (st', _) => st'

/-- `dbg_cmd_source` (source.c 36-87) on a file that can be read: the state, and the result, which does
not depend on what the commands returned (source.c 86). -/
def dbgSource {σ : Type} (run : σ → Str → σ × DbgRet) (st : σ) (s : Str) : σ × DbgRet :=
  (sourceLoop run (s.length + 1) st s, .readloop)

/-- The loop of `enter_debugger` (cmd.c 354-401) on the lines typed, without readline: an empty line is
`step`. -/
def promptLoop {σ : Type} (run : σ → Str → σ × DbgRet) : σ → List Str → σ × DbgRet
  | st, [] => (st, .readloop)
  | st, l :: ls =>
    let line := stripwhite l
    match run st (if line = [] then "step".toList else line) with
    | (st', .resume) => (st', .resume)
    | (st', _) => promptLoop run st' ls

/-! ## Scripts -/

/-- Where `write` puts the script (write.c 60-75); `max` is `MAX_FILE_LENGTH`, the limit given to
`snprintf`. -/
inductive WriteTo where
  | stdout
  | file (name : Str)
deriving DecidableEq, Repr

/-- The name of the file (write.c 60-75). -/
def writeTo (max : Nat) (target arg : Str) : WriteTo :=
  if arg ≠ [] then
    if arg = "here".toList then .stdout else .file arg
  else
    let base := (target.reverse.takeWhile (· ≠ '/')).reverse
    .file (("/tmp/".toList ++ base ++ ".sh".toList).take (max - 1))

/-- The bytes allocated for the name, and those written with the end of string (write.c 71-73). -/
def writeRoom (max : Nat) (base : Str) : Nat × Nat :=
  (base.length + 10, min (max - 1) (5 + base.length + 3) + 1)

/-- The loop that skips `@`, `+`, `-` and blanks (write.c 83-95). -/
def writeSkip (s : Str) : Str := s.dropWhile fun c => c == '@' || c == '+' || c == '-' || c == ' ' || c == '\t'

/-- `get_target` (fns.c 200-232), for the commands `write`, `target`, `list` and `info locals`: the name
looked up, the arguments left, and the name of the current target in memory afterwards.  Without
argument `get_word` works on the name itself.  `none`: there is no current target. -/
def getTargetName (cur : Option Str) (args : Str) : Option (Str × Str × Option Str) :=
  if args = [] then cur.map fun n => ((getWord n).1, (getWord n).2, some (getWord n).1)
  else
    let w := getWord args
    if w.1 = "$@".toList ∨ w.1 = "@".toList then cur.map fun n => (n, w.2, cur)
    else some (w.1, w.2, cur)

/-- The order-only prerequisites after a bar (write.c 139-148). -/
def oodText : List Str → Str
  | [] => []
  | d :: ds => " | ".toList ++ d ++ (ds.map fun d => ' ' :: d).flatten

/-- What is written about the target (write.c 112-157): the lines before the recipe.  `place` is the text
after `## ` of the second line. -/
def writeHeader (shell : Option Str) (place target : Str) (dcolon : Bool) (deps ood : List Str) (wd : Option Str) : List Str :=
  (match shell with
   | some s => ["#!".toList ++ s]
   | none => []) ++
  ["## ".toList ++ place,
   "## ".toList ++ target ++ ":".toList ++ (if dcolon then ":".toList else []) ++
     (deps.map fun d => ' ' :: d).flatten ++
     oodText ood] ++
  (match wd with
   | some w => [[], "#cd ".toList ++ w]
   | none => [])

/-- The recipe as written (write.c 98-99, 178-181); `none`: nothing is written.  `ex` is the expansion for the
target. -/
def writeBody (ex : Str → Str) (commands : Str) : Option Str :=
  let s := writeSkip commands
  if s = [] then none else some (ex s ++ "\n".toList)

end Remake
