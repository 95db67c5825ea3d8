import Verif.Misc.Model
import Verif.Start.Model

/-!
# Profiling

Models profile.c, json_format.c and callgrind_format.c, `decode_profile_options` (main.c 768-799), and the variables that tell a make
about the make that started it (main.c 1421-1432, variable.c 874-880, 1174-1178).  Time stamps are those of C48.  The table of targets is a list;
the hash table gives its entries in any order (C02), so the functions that print take the entries in the order of printing.
Simplified: names are without NULs (they are C strings); printing to an open file does not fail; a pointer to another entry of the table is the name
of the entry.
-/
set_option linter.unusedVariables false
namespace Remake

/-! ## Recording -/

/-- What profiling looks at in a `struct file` (profile.c 75, 87, 177, 188-189, 196): for `trace_push_target` and `trace_pop_target` the copy that
`trace_push_target` makes (trace.c 55-56). -/
structure PTarget where
  name : Str
  file : Option Str
  line : Nat
  updated : Bool
  state : CmdState
deriving DecidableEq, Repr

/-- `profile_entry_t` (profile.h 45-56); `stop` is `end`, `total` and `inRecipe` are `elapsed_total` and `elapsed_recipe`. -/
structure PEntry where
  name : Str
  file : Option Str
  line : Nat
  start : Nat := 0
  deps : Nat := 0
  recipe : Nat := 0
  stop : Nat := 0
  total : Nat := 0
  inRecipe : Nat := 0
  calls : List Str := []
deriving DecidableEq, Repr

/-- `add_profile_entry` (profile.c 65-91), as far as the table goes. -/
def addEntry (tab : List PEntry) (t : PTarget) : List PEntry :=
  if tab.any (·.name = t.name) then tab else tab ++ [{ name := t.name, file := t.file, line := t.line }]

/-- A change of one entry of the table. -/
def atEntry (n : Str) (f : PEntry → PEntry) (tab : List PEntry) : List PEntry :=
  tab.map fun e => if e.name = n then f e else e

/-- The elapsed time between two stamps (profile.c 154, 158). -/
def stampElapsed (a b : Nat) : Nat := stampSub b a / 1000

/-- The part of `add_timestamp` that sets the stamp (profile.c 138-151). -/
def putStamp (now : Nat) (updated : Bool) (state : CmdState) (e : PEntry) : Option PEntry :=
  if state = .notStarted ∧ e.start = 0 then some { e with start := now }
  else if state = .depsRunning ∧ e.deps = 0 then some { e with deps := now }
  else if state = .running ∧ e.recipe = 0 then some { e with recipe := now }
  else if (state = .finished ∨ updated = true) ∧ e.stop = 0 then some { e with stop := now }
  else none

/-- The part of `add_timestamp` that computes the elapsed times (profile.c 153-159). -/
def setElapsed (e : PEntry) : PEntry :=
  let e := if e.start > 0 ∧ e.stop > 0 then { e with total := stampElapsed e.start e.stop } else e
  if e.recipe > 0 ∧ e.stop > 0 then { e with inRecipe := stampElapsed e.recipe e.stop } else e

/-- `add_timestamp` (profile.c 134-160). -/
def addStamp (now : Nat) (updated : Bool) (state : CmdState) (e : PEntry) : PEntry :=
  match putStamp now updated state e with
  | none => e
  | some e => setElapsed e

/-- The calls of the profiler: from `trace_push_target` (trace.c 69-77), from `trace_pop_target` (trace.c 89-91), and from
`notice_finished_file` and `set_command_state` (remake.c 1036-1038, file.c 696-698).  `now` is what `file_timestamp_now` gives. -/
inductive PEvent where
  | push (t : PTarget) (parent : Option PTarget) (now : Nat)
  | pop (t : PTarget) (now : Nat)
  | stamp (t : PTarget) (now : Nat)
deriving DecidableEq, Repr

/-- The copying of the location (profile.c 189). -/
def relocate (t : PTarget) (e : PEntry) : PEntry :=
  { e with
    file := t.file
    line := t.line }

/-- `profile_add_dependency` with `add_dependency` (profile.c 162-182), `profile_update_target` (184-190), `profile_add_timestamp` (192-197). -/
def pStep (tab : List PEntry) : PEvent → List PEntry
  | .push t parent now =>
    let tab := atEntry t.name (addStamp now t.updated t.state) (addEntry tab t)
    match parent with
    | none => tab
    | some p => atEntry p.name (fun e => { e with calls := t.name :: e.calls }) (addEntry tab p)
  | .pop t now =>
    atEntry t.name (relocate t ∘ addStamp now t.updated t.state) (addEntry tab t)
  | .stamp t now => atEntry t.name (addStamp now t.updated t.state) (addEntry tab t)

/-- A run, from the empty table (profile.c 128-129). -/
def pRun (evs : List PEvent) : List PEntry := evs.foldl pStep []

/-! ## Printing JSON -/

/-- `profile_context_t` (profile.h 58-69) with the other things that are printed: `starting_directory`, `makeparent_pid` and `makeparent_target`, the name
of the creator, the arguments, the status and the names of the goals. -/
structure PContext where
  pid : Nat
  jobs : Int
  jobserver : Bool
  start : Nat
  stop : Nat
  parentPid : Nat
  parentTarget : Option Str
  creator : Str
  argv : List Str
  status : Str
  directory : Str
  goals : List Str
deriving Repr

/-- A string printed with `escape_print` (json_format.c 72-95) between quotes. -/
def jEscaped (s : Str) : Str := '"' :: escapePrint s ++ ['"']

/-- A string printed with `%s` between quotes. -/
def jRaw (s : Str) : Str := '"' :: s ++ ['"']

/-- `%d`. -/
def jInt (i : Int) : Str := if i < 0 then '-' :: Nat.toDigits 10 (-i).toNat else Nat.toDigits 10 i.toNat

/-- `%09u`. -/
def pad9 (n : Nat) : Str := List.replicate (9 - (Nat.toDigits 10 n).length) '0' ++ Nat.toDigits 10 n

/-- `format_timestamp` (json_format.c 97-107). -/
def jStamp (ts : Nat) : Str :=
  if ts = 0 then ['n', 'u', 'l', 'l'] else Nat.toDigits 10 (stampSec ts) ++ '.' :: pad9 (stampNs ts)

/-- Indentation (json_format.c 51-57). -/
def lvl (n : Nat) : Str := List.replicate n '\t'

/-- The beginning of a line, `"key":`. -/
def jKey (n : Nat) (key : Str) : Str := lvl n ++ '"' :: key ++ ['"', ':']

/-- A line `"key":value,`. -/
def jField (n : Nat) (key : Str) (value : Str) : Str := jKey n key ++ value ++ [',', '\n']

/-- Strings one on a line, the last without a comma: the loops of `dump_entry` (json_format.c 178-186) and `dump_depends` (251-259). -/
def jLines (n : Nat) : List Str → Str
  | [] => []
  | [s] => lvl n ++ jEscaped s ++ ['\n']
  | s :: ss => lvl n ++ jEscaped s ++ [',', '\n'] ++ jLines n ss

/-- The loop of `dump_argv` (json_format.c 135-143). -/
def jArgv (first : Bool) : List Str → Str
  | [] => []
  | s :: ss => (if first then [] else [',']) ++ '\n' :: lvl 2 ++ jEscaped s ++ jArgv false ss

/-- The value of `file` (json_format.c 215-219). -/
def jOptFile : Option Str → Str
  | some f => jRaw f
  | none => "null".toList

/-- `dump_target` (json_format.c 211-223), `dump_target_timestamps` (227-245), `dump_depends` (247-261). -/
def jTarget (e : PEntry) : Str :=
  lvl 2 ++ ['{', '\n'] ++
  jField 3 "name".toList (jEscaped e.name) ++
  jField 3 "file".toList (jOptFile e.file) ++
  jField 3 "line".toList (jInt (e.line % 2 ^ 32 : Nat)) ++
  jField 3 "start".toList (jStamp e.start) ++
  jField 3 "deps".toList (jStamp e.deps) ++
  jField 3 "recipe".toList (jStamp e.recipe) ++
  jField 3 "end".toList (jStamp e.stop) ++
  (jKey 3 "depends".toList ++ ['[', '\n'] ++ jLines 4 e.calls ++ lvl 3 ++ [']', '\n']) ++
  lvl 2 ++ ['}']

/-- `dump_targets` (json_format.c 190-197) with the commas and newlines of `dump_target` (204-209). -/
def jTargets (first : Bool) : List PEntry → Str
  | [] => []
  | e :: es => (if first then [] else [',']) ++ '\n' :: jTarget e ++ jTargets false es

/-- `dump_preamble` (json_format.c 115-122) in the part about the parent; `none`: the name is a null pointer and is read. -/
def jParent (c : PContext) : Option Str :=
  if c.parentPid = 0 then some []
  else match c.parentTarget with
    | none => none
    | some t => some (jKey 1 "parent".toList ++ ['{', '\n'] ++ jField 2 "pid".toList (jInt c.parentPid) ++
        (jKey 2 "target".toList ++ jEscaped t ++ ['\n']) ++ lvl 1 ++ ['}', ',', '\n'])

/-- What `json_init` and `json_close` print (json_format.c 109-197, 281-284, 290-295), for the entries in the order `es`; `none` if a null pointer is read. -/
def jFile (c : PContext) (es : List PEntry) : Option Str :=
  match jParent c with
  | none => none
  | some parent =>
    some (['{', '\n'] ++
      jField 1 "version".toList (jRaw "1.0.0".toList) ++
      jField 1 "pid".toList (jInt c.pid) ++
      parent ++
      jField 1 "creator".toList (jRaw c.creator) ++
      (jKey 1 "argv".toList ++ [' ', '['] ++ jArgv true c.argv ++ '\n' :: lvl 1 ++ [']', ',', '\n']) ++
      jField 1 "jobs".toList (jInt c.jobs) ++
      jField 1 "server".toList (if c.jobserver then "true".toList else "false".toList) ++
      jField 1 "status".toList (jRaw c.status) ++
      jField 1 "start".toList (jStamp c.start) ++
      jField 1 "end".toList (jStamp c.stop) ++
      jField 1 "directory".toList (jRaw c.directory) ++
      (jKey 1 "entry".toList ++ ['[', '\n'] ++ jLines 2 c.goals ++ lvl 1 ++ [']', ',', '\n']) ++
      (jKey 1 "targets".toList ++ ['['] ++ jTargets true es ++ '\n' :: lvl 1 ++ [']', '\n']) ++
      ['}'])

/-- What becomes of a run with profiling. -/
inductive PRes where
  /-- a null pointer is used -/
  | crash
  | file (text : Str)
deriving DecidableEq, Repr

/-- What the profiler holds: whether the file is open, and the table if it is initialised. -/
structure PState where
  fd : Bool
  tab : Option (List PEntry)

/-- `profile_init` (profile.c 113-129): if the file cannot be opened it returns before the table is initialised; `main` ignores the result
(main.c 1526). -/
def pInit (opened : Bool) : PState := if opened then ⟨true, some []⟩ else ⟨false, none⟩

/-- The calls of a run; `none`: `hash_find_slot` (profile.c 77) calls the hash function of a table that is not initialised, a null pointer
(hash.c 90). -/
def pSteps (st : PState) : List PEvent → Option PState
  | [] => some st
  | ev :: evs =>
    match st.tab with
    | none => none
    | some tab => pSteps { st with tab := some (pStep tab ev) } evs

/-- A run with profiling to a JSON file, with `profile_close` (profile.c 219-242); `arrange` is the order in which `hash_map` finds the entries (215-217).
Printing to a null pointer, as `json_close` does if the file was not opened (json_format.c 290), is a crash. -/
def pJson (opened : Bool) (c : PContext) (evs : List PEvent) (arrange : List PEntry → List PEntry) : PRes :=
  match pSteps (pInit opened) evs with
  | none => .crash
  | some st =>
    if st.fd then
      match st.tab with
      | none => .crash
      | some tab =>
        match jFile c (arrange tab) with
        | none => .crash
        | some t => .file t
    else .crash

/-! ## Printing for callgrind -/

/-- The lines of a callgrind file that say what belongs to what; the others are not represented apart from the costs (callgrind_format.c 88-108). -/
inductive CgLine where
  | fl (file : Str)
  | fn (name : Str)
  | cost (line total inRecipe : Nat)
  | cfi (file : Str)
  | cfn (name : Str)
  | calls (line : Nat)
deriving DecidableEq, Repr

/-- The loop over the calls of an entry (callgrind_format.c 95-107); `c->target` is looked up in the table. -/
def cgCalls (es : List PEntry) (e : PEntry) : List Str → List CgLine
  | [] => []
  | n :: ns =>
    (match es.find? (·.name = n) with
      | none => []
      | some t =>
        (match t.file with | some f => [CgLine.cfi f] | none => []) ++
          [.cfn t.name, .calls e.line, .cost e.line t.total t.inRecipe]) ++ cgCalls es e ns

/-- `callgrind_profile_entry` (callgrind_format.c 77-109). -/
def cgEntry (dir : Str) (es : List PEntry) (e : PEntry) : List CgLine :=
  match e.file with
  | none => []
  | some f => [.fl (dir ++ '/' :: f), .fn e.name, .cost e.line e.total e.inRecipe] ++ cgCalls es e e.calls

/-- The entries of the file (callgrind_format.c 119). -/
def cgFile (dir : Str) (es : List PEntry) : List CgLine := es.flatMap (cgEntry dir es)

/-! ## Names of files -/

/-- `PATH_MAX` (makeint.h 158). -/
def pathMax : Nat := 4096

/-- `decode_profile_options` (main.c 785-798): the directory for the file; `none`: the buffer is overrun. -/
def profileDir (starting : Str) (opt : Option Str) : Option Str :=
  match opt with
  | none => some starting
  | some d =>
    if d.head? ≠ some '/' then
      if starting.length + 1 + d.length + 1 > pathMax then none else some (starting ++ '/' :: d)
    else some d

/-- The name of the JSON file (json_format.c 39-41, 268-273); `none`: the buffer is overrun, before the length is looked at. -/
def jsonName (dir : Str) (pid : Nat) : Option Str :=
  let n := dir ++ "/build.".toList ++ Nat.toDigits 10 pid ++ ".json".toList
  if n.length + 1 > pathMax then none else some n

/-! ## The make that started a make -/

/-- The last two variables of the environment of a command (variable.c 1174-1178). -/
def parentEnv (pid : Nat) (target : Str) : Str × Str := (Nat.toDigits 10 pid, target)

/-- `makeparent_pid` from the variable (main.c 1421-1425). -/
def parentPid (v : Option Str) : Int :=
  match v with
  | none => 0
  | some v => if v = [] ∨ v.head? = some '-' then 0 else atoiSigned v

/-- `makeparent_target` from the variable (main.c 1427-1432). -/
def parentTarget (v : Option Str) : Option Str :=
  match v with
  | none => none
  | some v => if v = [] ∨ v.head? = some '-' then none else some v

/-- `define_automatic_variables` (variable.c 869, 877-880): the value of `MAKEPARENT_TARGET`, printed to a buffer of 200 bytes; the outer `none`: it is
overrun. -/
def parentVariable (target : Option Str) : Option (Option Str) :=
  match target with
  | none => some none
  | some t => if t.length + 1 > 200 then none else some (some t)

end Remake
