import Verif.Flags.EnvProps
/-!
# The start of make

Models the reading of the environment (main.c 1300-1350), the words of the command line that are no options
(main.c 2536-2612), the level of recursion (main.c 1414-1419) and the number of jobs (main.c 1358-1370,
1530-1561, 1870-1904, 1934-1983).
-/
set_option linter.unusedVariables false
namespace Remake

/-! ## Numbers -/

/-- `atoi` (`(int) strtol (s, 0, 10)` in glibc) with a sign. -/
def atoiSigned (s : Str) : Int :=
  match s.dropWhile isSpace with
  | '-' :: r =>
    if (r.head?.map isDigitC).getD false then
      Int.bmod (max (-(digitsVal (r.takeWhile isDigitC) : Int)) (-(2 ^ 63))) (2 ^ 32) else 0
  | '+' :: r => if (r.head?.map isDigitC).getD false then atoi r else 0
  | r => atoi r

/-- The conversion of an `int` to `unsigned int`. -/
def toUnsigned (n : Int) : Nat := (n % 2 ^ 32).toNat

/-! ## The environment -/

/-- The NUL character. -/
def nulChar : Char := Char.ofNat 0

/-- The memory that holds the environment: the entries one after the other, as the kernel lays them out, each with
its NUL. -/
def envMemory (es : List Str) : Str := es.flatMap (· ++ [nulChar])

/-- What the reading of the environment sets: variables, `shell_var`, `restarts`, and the flag of
`OUTPUT_TRACED`. -/
structure EnvVars where
  set : VarSet
  shell : Option Str := none
  restarts : Nat := 0
  traced : Bool := false

/-- One entry (main.c 1304-1348); `mem` is the memory from its start on.  The loop (1312-1313) stops only at an equals sign, not
at the NUL, so that the test for the NUL (1316) is never true; `none` is a read beyond the memory of the environment. -/
def importEntry (mem : Str) (s : EnvVars) : Option EnvVars :=
  let name := mem.takeWhile (· ≠ '=')
  match mem.dropWhile (· ≠ '=') with
  | [] => none
  | _ :: r =>
    let value := r.takeWhile (· ≠ nulChar)
    let isRestarts : Bool := name = "MAKE_RESTARTS".toList
    let minus : Bool := isRestarts && value.head? = some '-'
    let value := if minus then value.tail else value
    -- the name is the text up to the first NUL (`xstrndup`), the key has all the characters
    let text := name.takeWhile (· ≠ nulChar)
    let isShell : Bool := text = "SHELL".toList
    let v := defineVar false (s.set name) (mem.takeWhile (· ≠ nulChar)) [] value .env true
    some { set := s.set.put name (some { v with exp := if isRestarts || isShell then .noexport else .export_ })
           shell := if isShell then some value else s.shell
           restarts := if isRestarts then toUnsigned (atoiSigned value) else s.restarts
           traced := s.traced || minus }

/-- The loop over the environment (main.c 1301-1349); `beyond` is what is in memory after it. -/
def importEnv : List Str → Str → EnvVars → Option EnvVars
  | [], _, s => some s
  | e :: es, beyond, s => (importEntry (envMemory (e :: es) ++ beyond) s).bind (importEnv es beyond)

/-- The level of recursion (main.c 1414-1419) from the value of `MAKELEVEL`. -/
def readLevel (v : Option Str) : Nat :=
  match v with
  | none => 0
  | some [] => 0
  | some ('-' :: _) => 0
  | some x => toUnsigned (atoiSigned x)

/-- The value of `MAKELEVEL` for the commands of recipes (variable.c 1171-1172: `sprintf ("%u", makelevel + 1)`). -/
def childLevel (level : Nat) : Str := Nat.toDigits 10 ((level + 1) % 2 ^ 32)

/-! ## Words that are no options -/

/-- The variables, `goals` (by name) and `command_variables` (by name). -/
structure CmdLine where
  defs : DefState
  goals : List Str := []
  vars : List Str := []

/-- How `handle_non_switch_argument` ends. -/
inductive ArgRes where
  | done (c : CmdLine)
  /-- An empty variable name (variable.c 1662), or an empty word (main.c 635-636). -/
  | fatal
  /-- `do_variable_definition` reads a variable that was undefined meanwhile. -/
  | undef

/-- The name of the variable for the goals. -/
def goalsName : Str := "MAKECMDGOALS".toList

/-- A goal is added to `MAKECMDGOALS` (main.c 2585-2610). -/
def addGoalName (E : DefEnv) (st : DefState) (name : Str) : DefState :=
  let value := match lookupVariable st.scopes goalsName with
    | none => name
    | some gv => gv.value ++ ' ' :: name
  let i := (st.chain.head?.map (·.1)).getD 0
  { st with sets := fun j => if j = i then (st.sets i).define E.envOv goalsName value .default false else st.sets j }

/-- `handle_non_switch_argument` (main.c 2536-2612).  `tilde` is `remake_tilde_expand`. -/
def handleArg (E : DefEnv) (tilde : Str → Option Str) (env : Bool) (c : CmdLine) (w : Str) : ArgRes :=
  if w = ['-'] then .done c
  else
    match parseVariableDefinition w with
    | some a =>
      let (st, n) := E.expand c.defs a.name
      if n = [] then .fatal
      else
        match doVariableDefinition E st n a.value .command a.flavor false with
        | none => .undef
        | some st => .done { c with defs := st, vars := if n ∈ c.vars then c.vars else n :: c.vars }
    | none =>
      if env then .done c
      else if w = [] then .fatal
      else
        let name := expandFile tilde w
        .done { c with defs := addGoalName E c.defs name, goals := c.goals ++ [name] }

/-- The words in order (main.c 2672-2674, 2821-2822). -/
def handleArgs (E : DefEnv) (tilde : Str → Option Str) (env : Bool) : CmdLine → List Str → ArgRes
  | c, [] => .done c
  | c, w :: ws =>
    match handleArg E tilde env c w with
    | .done c => handleArgs E tilde env c ws
    | r => r

/-! ## The number of jobs -/

/-- Where the number of jobs comes from: `-j` in `MAKEFLAGS` of the environment, on the command line and in `MAKEFLAGS` as
the makefiles leave it (`none`: not given, 0: no limit), whether there is a `--jobserver-auth` option, and whether its
descriptors are usable. -/
structure SlotArgs where
  env : Option Nat
  argv : Option Nat
  makefile : Option Nat
  auth : Bool
  usable : Bool
deriving DecidableEq, Repr

/-- `arg_job_slots` and whether there is a jobserver, before makefiles are read (main.c 1358-1370, 1530-1559). -/
def earlySlots (a : SlotArgs) : Option Nat × Bool :=
  let arg := match a.argv with
    | none => a.env
    | some n => some n
  if a.auth then
    match a.argv with
    | none => if a.usable then (arg, true) else (some 1, false)
    | some _ => (arg, false)
  else (arg, false)

/-- The same after makefiles are read (main.c 1870-1904). -/
def lateSlots (a : SlotArgs) : Option Nat × Bool :=
  let e := earlySlots a
  match a.makefile, a.argv with
  | some m, none => (some m, false)
  | _, _ => e

/-- How jobs are limited. -/
inductive JobLimit where
  /-- Tokens of the jobserver of the parent. -/
  | client
  /-- Tokens of an own jobserver with so many jobs. -/
  | master (n : Nat)
  /-- One job at a time. -/
  | serial
  | unlimited
deriving DecidableEq, Repr

/-- The final configuration (main.c 1952-1983; `jobserver_setup` succeeds). -/
def jobLimit (a : SlotArgs) : JobLimit :=
  let l := lateSlots a
  if l.2 then .client
  else
    match l.1 with
    | none => .serial
    | some n => if n = 0 then .unlimited else if n = 1 then .serial else .master n

end Remake
