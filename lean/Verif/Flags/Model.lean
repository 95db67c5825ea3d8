import Verif.Var.Props
import Verif.Text.Props
/-!
# Options and MAKEFLAGS

Model of the reading of options (main.c 2476-2533, 2537-2838, getopt.c 506-957), of their way through the
variable `MAKEFLAGS` (main.c 2845-3171), and of the command line variables in it (main.c 1569-1615).
-/
set_option linter.unusedVariables false
namespace Remake

/-! ## The table of options -/

/-- The variables set by options (main.c 392-459; globals.c). -/
inductive OptVar where
  | none | alwaysMake | searchParent | debug | envOverrides | printUsage | ignoreErrors | keepGoing | checkSymlink
  | justPrint | printDataBase | profile | question | noBuiltinRules | noBuiltinVariables | silent | touch
  | printVersion | printDirectory | debugger | postMortem | directories | evalStrings | makefiles
  | includeDirectories | jobSlots | maxLoad | oldFiles | outputSync | newFiles | tracing | dbFlags
  | jobserverAuth | showTasks | inhibitPrintDirectory | warnUndefined | syncMutex | verbosity
  | noExtendedErrors | useReadline | showTargets | debuggerOpts | profileDir
deriving DecidableEq, Repr

/-- The types of options (main.c 83-93). -/
inductive SwType where
  | flag | flagOff | string | strlist | filename | positiveInt | floating | ignore
deriving DecidableEq, Repr

/-- The values `noarg_value` and `default_value` point at: a string, an integer, or
`default_load_average`. -/
inductive SwValue where
  | str (s : Str)
  | num (n : Int)
  | load
deriving DecidableEq, Repr

/-- `struct command_switch` (main.c 79-105). -/
structure Switch where
  c : Nat
  type : SwType
  var : OptVar
  env : Bool
  toenv : Bool
  noMakefile : Bool
  noarg : Option SwValue
  dflt : Option SwValue
  name : Str
deriving DecidableEq, Repr

/-- `CHAR_MAX` where `char` is signed. -/
def charMax : Nat := 127

/-- `short_option` (main.c 109). -/
def Switch.short (cs : Switch) : Bool := cs.c ≤ charMax

/-- `switches` (main.c 392-459). -/
def switches : List Switch := [
  ⟨'b'.toNat, .ignore, .none, false, false, false, none, none, []⟩,
  ⟨'B'.toNat, .flag, .alwaysMake, true, true, false, none, none, "always-make".toList⟩,
  ⟨'c'.toNat, .flag, .searchParent, true, true, false, none, none, "search-parent".toList⟩,
  ⟨'d'.toNat, .flag, .debug, true, true, false, none, none, []⟩,
  ⟨'e'.toNat, .flag, .envOverrides, true, true, false, none, none, "environment-overrides".toList⟩,
  ⟨'h'.toNat, .flag, .printUsage, false, false, false, none, none, "help".toList⟩,
  ⟨'i'.toNat, .flag, .ignoreErrors, true, true, false, none, none, "ignore-errors".toList⟩,
  ⟨'k'.toNat, .flag, .keepGoing, true, true, false, none, some (.num 0), "keep-going".toList⟩,
  ⟨'L'.toNat, .flag, .checkSymlink, true, true, false, none, none, "check-symlink-times".toList⟩,
  ⟨'m'.toNat, .ignore, .none, false, false, false, none, none, []⟩,
  ⟨'n'.toNat, .flag, .justPrint, true, true, true, none, none, "just-print".toList⟩,
  ⟨'p'.toNat, .flag, .printDataBase, true, true, false, none, none, "print-data-base".toList⟩,
  ⟨'P'.toNat, .string, .profile, true, true, false, some (.str "callgrind".toList), none, "profile".toList⟩,
  ⟨'q'.toNat, .flag, .question, true, true, true, none, none, "question".toList⟩,
  ⟨'r'.toNat, .flag, .noBuiltinRules, true, true, false, none, none, "no-builtin-rules".toList⟩,
  ⟨'R'.toNat, .flag, .noBuiltinVariables, true, true, false, none, none, "no-builtin-variables".toList⟩,
  ⟨'s'.toNat, .flag, .silent, true, true, false, none, some (.num 0), "silent".toList⟩,
  ⟨'S'.toNat, .flagOff, .keepGoing, true, true, false, none, some (.num 0), "no-keep-going".toList⟩,
  ⟨'t'.toNat, .flag, .touch, true, true, true, none, none, "touch".toList⟩,
  ⟨'v'.toNat, .flag, .printVersion, true, true, false, none, none, "version".toList⟩,
  ⟨'w'.toNat, .flag, .printDirectory, true, true, false, none, none, "print-directory".toList⟩,
  ⟨'X'.toNat, .flag, .debugger, true, true, false, none, none, "debugger".toList⟩,
  ⟨'!'.toNat, .flag, .postMortem, true, true, false, none, none, "post-mortem".toList⟩,
  ⟨'C'.toNat, .filename, .directories, false, false, false, none, none, "directory".toList⟩,
  ⟨'E'.toNat, .strlist, .evalStrings, true, false, false, none, none, "eval".toList⟩,
  ⟨'f'.toNat, .filename, .makefiles, false, false, false, none, none, "file".toList⟩,
  ⟨'I'.toNat, .filename, .includeDirectories, true, true, false, none, none, "include-dir".toList⟩,
  ⟨'j'.toNat, .positiveInt, .jobSlots, true, true, false, some (.num 0), some (.num (-1)), "jobs".toList⟩,
  ⟨'l'.toNat, .floating, .maxLoad, true, true, false, some .load, some .load, "load-average".toList⟩,
  ⟨'o'.toNat, .filename, .oldFiles, false, false, false, none, none, "old-file".toList⟩,
  ⟨'O'.toNat, .string, .outputSync, true, true, false, some (.str "target".toList), none, "output-sync".toList⟩,
  ⟨'W'.toNat, .filename, .newFiles, false, false, false, none, none, "what-if".toList⟩,
  ⟨'x'.toNat, .strlist, .tracing, true, true, false, some (.str "normal".toList), none, "trace".toList⟩,
  ⟨charMax + 1, .strlist, .dbFlags, true, true, false, some (.str "basic".toList), none, "debug".toList⟩,
  ⟨charMax + 2, .string, .jobserverAuth, true, true, false, none, none, "jobserver-auth".toList⟩,
  ⟨charMax + 3, .flag, .showTasks, false, false, false, none, none, "tasks".toList⟩,
  ⟨charMax + 4, .flag, .inhibitPrintDirectory, true, true, false, none, none, "no-print-directory".toList⟩,
  ⟨charMax + 5, .flag, .warnUndefined, true, true, false, none, none, "warn-undefined-variables".toList⟩,
  ⟨charMax + 7, .string, .syncMutex, true, true, false, none, none, "sync-mutex".toList⟩,
  ⟨charMax + 8, .flagOff, .silent, true, true, false, none, some (.num 0), "no-silent".toList⟩,
  ⟨charMax + 9, .string, .jobserverAuth, true, false, false, none, none, "jobserver-fds".toList⟩,
  ⟨charMax + 10, .strlist, .verbosity, true, true, false, none, none, "verbosity".toList⟩,
  ⟨charMax + 11, .flag, .noExtendedErrors, true, true, false, none, none, "no-extended-errors".toList⟩,
  ⟨charMax + 12, .flagOff, .useReadline, true, false, false, none, none, "no-readline".toList⟩,
  ⟨charMax + 13, .flag, .showTargets, false, false, false, none, none, "targets".toList⟩,
  ⟨charMax + 14, .strlist, .debuggerOpts, true, true, false, some (.str "preaction".toList), none, "debugger-stop".toList⟩,
  ⟨charMax + 15, .filename, .profileDir, true, true, false, none, none, "profile-directory".toList⟩]

/-- Whether an option takes an argument: `no_argument`, `required_argument`, `optional_argument`
(getopt.h; main.c 2501-2525). -/
inductive HasArg where
  | no | required | optional
deriving DecidableEq, Repr

/-- The choice in `init_switches` (main.c 2501-2525). -/
def Switch.hasArg (cs : Switch) : HasArg :=
  match cs.type with
  | .flag | .flagOff | .ignore => .no
  | _ => if cs.noarg.isSome then .optional else .required

/-- `struct option` (getopt.h), without `flag`, which is always nil. -/
structure LongOpt where
  name : Str
  hasArg : HasArg
  val : Nat
deriving DecidableEq, Repr

/-- `long_option_aliases` (main.c 463-474). -/
def longAliases : List LongOpt := [
  ⟨"quiet".toList, .no, 's'.toNat⟩, ⟨"stop".toList, .no, 'S'.toNat⟩,
  ⟨"new-file".toList, .required, 'W'.toNat⟩, ⟨"assume-new".toList, .required, 'W'.toNat⟩,
  ⟨"assume-old".toList, .required, 'o'.toNat⟩, ⟨"max-load".toList, .optional, 'l'.toNat⟩,
  ⟨"dry-run".toList, .no, 'n'.toNat⟩, ⟨"recon".toList, .no, 'n'.toNat⟩,
  ⟨"makefile".toList, .required, 'f'.toNat⟩]

/-- `long_options` (main.c 2493-2532). -/
def longOptions : List LongOpt :=
  switches.map (fun cs => ⟨cs.name, cs.hasArg, cs.c⟩) ++ longAliases

/-! ## getopt -/

/-- What `getopt_long` returns: -1, 1 with a word that is no option, `?`, or an option with `optarg`. -/
inductive GetOpt where
  | eof
  | arg (w : Str)
  | bad
  | opt (c : Nat) (optarg : Option Str)
deriving DecidableEq, Repr

/-- Outcome of the search among the long options. -/
inductive LongFound where
  | found (p : LongOpt)
  | ambiguous
  | unknown
deriving DecidableEq, Repr

/-- The loop over the long options (getopt.c 640-663) and the tests of its outcome (665-676, 734-756). -/
def findLong (name : Str) : List LongOpt → Option LongOpt → Bool → LongFound
  | [], _, true => .ambiguous
  | [], some p, false => .found p
  | [], none, false => .unknown
  | p :: ps, pfound, ambig =>
    if name.isPrefixOf p.name then
      if name.length = p.name.length then .found p
      else match pfound with
        | none => findLong name ps (some p) ambig
        | some q => findLong name ps (some q) true
    else findLong name ps pfound ambig

/-- A long option (getopt.c 625-757): the text after `--` and the words that follow.  An argument given to
an option without arguments is an error only if messages are printed (686-708). -/
def getoptLong (opterr : Bool) (text : Str) (ws : List Str) : GetOpt × Str × List Str :=
  let name := text.takeWhile (· ≠ '=')
  match findLong name longOptions none false with
  | .ambiguous | .unknown => (.bad, [], ws)
  | .found p =>
    match text.dropWhile (· ≠ '=') with
    | _ :: a =>
      match p.hasArg with
      | .no => if opterr then (.bad, [], ws) else (.opt p.val none, [], ws)
      | _ => (.opt p.val (some a), [], ws)
    | [] =>
      match p.hasArg with
      | .required =>
        match ws with
        | [] => (.bad, [], [])
        | w :: ws => (.opt p.val (some w), [], ws)
      | _ => (.opt p.val none, [], ws)

/-- A letter in a word of options (getopt.c 760-784, 909-955); the case of `W;` (785-908) does not occur.  The
string of letters (main.c 2487-2527) begins with `-`, which only the first call removes (getopt.c 402-406), so
`-` is a letter without argument for all later calls. -/
def getoptShort (inited : Bool) (c : Char) (rest : Str) (ws : List Str) : GetOpt × Str × List Str :=
  if c = '-' then (if inited then .opt '-'.toNat none else .bad, rest, ws)
  else match switches.find? (fun cs => cs.short && cs.c == c.toNat) with
    | none => (.bad, rest, ws)
    | some cs =>
      match cs.hasArg with
      | .no => (.opt cs.c none, rest, ws)
      | .optional => (.opt cs.c (if rest = [] then none else some rest), [], ws)
      | .required =>
        if rest ≠ [] then (.opt cs.c (some rest), [], ws)
        else match ws with
          | [] => (.bad, [], [])
          | w :: ws => (.opt cs.c (some w), [], ws)

/-- `_getopt_internal` (getopt.c 506-957) with arguments returned in order.  `cur` is what is left of the word
read last (`nextchar`), the list the words that follow. -/
def getopt (opterr inited : Bool) (cur : Str) (ws : List Str) : GetOpt × Str × List Str :=
  match cur with
  | c :: rest => getoptShort inited c rest ws
  | [] =>
    match ws with
    | [] => (.eof, [], [])
    | w :: ws =>
      match w with
      | '-' :: '-' :: [] => (.eof, [], ws)
      | '-' :: '-' :: r => getoptLong opterr r ws
      | '-' :: c :: r => getoptShort inited c r ws
      | w => (.arg w, [], ws)

/-! ## Reading options -/

/-- Operations on floating point numbers: comparison, `sprintf ("%g")`, `atof`, and the value -1. -/
structure Floats (F : Type) where
  eq : F → F → Bool
  fmt : F → Str
  atof : Str → F
  dflt : F

/-- The values of the option variables.  A list of strings that was not allocated is the empty list. -/
structure Opts (F : Type) where
  num : OptVar → Int
  str : OptVar → Option Str
  lst : OptVar → List Str
  load : F

variable {F : Type}

/-- Storing a number. -/
def Opts.setNum (s : Opts F) (v : OptVar) (n : Int) : Opts F := { s with num := fun w => if w = v then n else s.num w }
/-- Storing a string. -/
def Opts.setStr (s : Opts F) (v : OptVar) (x : Str) : Opts F := { s with str := fun w => if w = v then some x else s.str w }
/-- Adding to a list. -/
def Opts.addStr (s : Opts F) (v : OptVar) (x : Str) : Opts F :=
  { s with lst := fun w => if w = v then s.lst w ++ [x] else s.lst w }

/-- The values before options are read (main.c 116-234, globals.c). -/
def Opts.init (fl : Floats F) (readline : Bool) : Opts F where
  num v := if v = .jobSlots then -1 else if v = .useReadline then (if readline then 1 else 0) else 0
  str _ := none
  lst _ := []
  load := fl.dflt

/-- The stripping of `./` in `expand_command_line_file` (main.c 649-654). -/
def stripDotSlash (s : Str) : Str :=
  match s with
  | '.' :: '/' :: r => stripDotSlash (r.dropWhile (· = '/'))
  | s => s
termination_by s.length
decreasing_by
  have := dropWhile_length_le (p := fun c : Char => decide (c = '/')) r
  simp; omega

/-- `expand_command_line_file` (main.c 630-668) for a name that is not empty; `tilde` is
`remake_tilde_expand`. -/
def expandFile (tilde : Str → Option Str) (name : Str) : Str :=
  let name :=
    if name.head? = some '~' then
      match tilde name with
      | some e => if e ≠ [] then e else name
      | none => name
    else name
  let name := stripDotSlash name
  if name = [] then "./".toList else name

/-- What reading options has given: the values, the words that are no options in order, and whether
something was wrong. -/
structure Decoded (F : Type) where
  opts : Opts F
  args : List Str
  bad : Bool

/-- The treatment of an option with a string (main.c 2705-2759). -/
def storeString (tilde : Str → Option Str) (cs : Switch) (optarg : Option Str) (d : Decoded F) : Decoded F :=
  let a := optarg.getD (match cs.noarg with
    | some (.str a) => a
    | _ => [])
  if optarg = some [] then { d with bad := true }
  else if cs.type = .string then { d with opts := d.opts.setStr cs.var a }
  else if cs.type = .filename then { d with opts := d.opts.addStr cs.var (expandFile tilde a) }
  else { d with opts := d.opts.addStr cs.var a }

/-- An argument for `-j` in the next word (main.c 2764-2771). -/
def takeNumber (optarg : Option Str) (ws : List Str) : Option Str × List Str :=
  match optarg, ws with
  | none, w :: ws' => if w.all isDigitC then (some w, ws') else (none, w :: ws')
  | o, ws => (o, ws)

/-- The number of a `-j` option (main.c 2776-2798). -/
def storeNumber (cs : Switch) (optarg : Option Str) (d : Decoded F) : Decoded F :=
  match optarg with
  | some a =>
    if atoi a < 1 ∨ a.all isDigitC = false then { d with bad := true }
    else { d with opts := d.opts.setNum cs.var (atoi a) }
  | none =>
    match cs.noarg with
    | some (.num n) => { d with opts := d.opts.setNum cs.var n }
    | _ => d

/-- An argument for `-l` in the next word (main.c 2801-2803). -/
def takeLoad (optarg : Option Str) (ws : List Str) : Option Str × List Str :=
  match optarg, ws with
  | none, w :: ws' =>
    if (w.head?.map (fun c => isDigitC c || c == '.')).getD false then (some w, ws') else (none, w :: ws')
  | o, ws => (o, ws)

/-- The treatment of one option (main.c 2682-2815): also the words left, since `-j` and `-l` may take the
next. -/
def applySwitch (fl : Floats F) (tilde : Str → Option Str) (env : Bool) (cs : Switch) (optarg : Option Str)
    (ws : List Str) (d : Decoded F) : Decoded F × List Str :=
  let doit := !env || cs.env
  match cs.type with
  | .ignore => (d, ws)
  | .flag => (if doit then { d with opts := d.opts.setNum cs.var 1 } else d, ws)
  | .flagOff => (if doit then { d with opts := d.opts.setNum cs.var 0 } else d, ws)
  | .string | .strlist | .filename => (if doit then storeString tilde cs optarg d else d, ws)
  | .positiveInt =>
    (if doit then storeNumber cs (takeNumber optarg ws).1 d else d, (takeNumber optarg ws).2)
  | .floating =>
    (if doit then { d with opts := { d.opts with load := match (takeLoad optarg ws).1 with
      | some a => fl.atof a
      | none => fl.dflt } } else d, (takeLoad optarg ws).2)

/-- The treatment of what `getopt_long` found (main.c 2669-2683). -/
def applyOpt (fl : Floats F) (tilde : Str → Option Str) (env : Bool) (c : Nat) (optarg : Option Str)
    (ws : List Str) (d : Decoded F) : Decoded F × List Str :=
  match switches.find? (fun cs => cs.c == c) with
  | none => (d, ws)
  | some cs => applySwitch fl tilde env cs optarg ws d

/-- The room left for `getopt`. -/
def wordsSize (cur : Str) (ws : List Str) : Nat := cur.length + (ws.map (·.length + 1)).sum

theorem takeNumber_ws (o : Option Str) (ws : List Str) : (takeNumber o ws).2 <:+ ws := by
  cases o with
  | some a => exact List.suffix_refl _
  | none =>
    cases ws with
    | nil => exact List.suffix_refl _
    | cons w ws' =>
      simp only [takeNumber]
      split
      · exact List.suffix_cons _ _
      · exact List.suffix_refl _

theorem takeLoad_ws (o : Option Str) (ws : List Str) : (takeLoad o ws).2 <:+ ws := by
  cases o with
  | some a => exact List.suffix_refl _
  | none =>
    cases ws with
    | nil => exact List.suffix_refl _
    | cons w ws' =>
      simp only [takeLoad]
      split
      · exact List.suffix_cons _ _
      · exact List.suffix_refl _

theorem applySwitch_ws (fl : Floats F) (tilde : Str → Option Str) (env : Bool) (cs : Switch) (o : Option Str)
    (ws : List Str) (d : Decoded F) : (applySwitch fl tilde env cs o ws d).2 <:+ ws := by
  unfold applySwitch
  split
  all_goals first | exact List.suffix_refl _ | exact takeNumber_ws .. | exact takeLoad_ws ..

theorem applyOpt_ws (fl : Floats F) (tilde : Str → Option Str) (env : Bool) (c : Nat) (o : Option Str)
    (ws : List Str) (d : Decoded F) : (applyOpt fl tilde env c o ws d).2 <:+ ws := by
  unfold applyOpt
  split
  · exact List.suffix_refl _
  · exact applySwitch_ws ..

theorem getoptLong_ws (e : Bool) (t : Str) (ws : List Str) :
    (getoptLong e t ws).2.1 = [] ∧ (getoptLong e t ws).2.2 <:+ ws := by
  unfold getoptLong
  simp only
  split
  · exact ⟨rfl, List.suffix_refl _⟩
  · exact ⟨rfl, List.suffix_refl _⟩
  · split
    · split
      · split <;> exact ⟨rfl, List.suffix_refl _⟩
      · exact ⟨rfl, List.suffix_refl _⟩
    · split
      · split
        · exact ⟨rfl, List.suffix_refl _⟩
        · exact ⟨rfl, List.suffix_cons _ _⟩
      · exact ⟨rfl, List.suffix_refl _⟩

theorem getoptShort_ws (i : Bool) (c : Char) (r : Str) (ws : List Str) :
    (getoptShort i c r ws).2.1.length ≤ r.length ∧ (getoptShort i c r ws).2.2 <:+ ws := by
  unfold getoptShort
  split
  · exact ⟨Nat.le_refl _, List.suffix_refl _⟩
  · split
    · exact ⟨Nat.le_refl _, List.suffix_refl _⟩
    · split
      · exact ⟨Nat.le_refl _, List.suffix_refl _⟩
      · exact ⟨by simp, List.suffix_refl _⟩
      · split
        · exact ⟨by simp, List.suffix_refl _⟩
        · split
          · exact ⟨by simp, List.suffix_refl _⟩
          · exact ⟨by simp, List.suffix_cons _ _⟩

theorem wordsSize_suffix {a b : List Str} (h : a <:+ b) : (a.map (·.length + 1)).sum ≤ (b.map (·.length + 1)).sum := by
  obtain ⟨t, rfl⟩ := h
  simp

/-- Reading a word uses it up. -/
theorem getopt_lt (e i : Bool) (cur : Str) (ws : List Str) (h : ¬ (cur = [] ∧ ws = [])) :
    wordsSize (getopt e i cur ws).2.1 (getopt e i cur ws).2.2 < wordsSize cur ws := by
  unfold getopt wordsSize
  split
  · rename_i c rest
    obtain ⟨h1, h2⟩ := getoptShort_ws i c rest ws
    have := wordsSize_suffix h2
    simp only [List.length_cons]
    omega
  · split
    · simp at h
    · rename_i w ws
      simp only [List.map_cons, List.sum_cons, List.length_nil]
      split
      · simp
      · rename_i r _
        obtain ⟨h1, h2⟩ := getoptLong_ws e r ws
        have := wordsSize_suffix h2
        rw [h1]; simp; omega
      · rename_i c r _ _
        obtain ⟨h1, h2⟩ := getoptShort_ws i c r ws
        have := wordsSize_suffix h2
        simp; omega
      · simp

/-- The loop of `decode_switches` (main.c 2663-2816) and the loop over the words after `--` (2822-2823).
`inited` tells whether `getopt_long` has been called before. -/
def decodeLoop (fl : Floats F) (tilde : Str → Option Str) (env inited : Bool) (cur : Str) (ws : List Str)
    (d : Decoded F) : Decoded F :=
  if h0 : cur = [] ∧ ws = [] then d
  else
    match h : getopt (!env) inited cur ws with
    | (.eof, _, ws') => { d with args := d.args ++ ws' }
    | (.arg w, cur', ws') => decodeLoop fl tilde env true cur' ws' { d with args := d.args ++ [w] }
    | (.bad, cur', ws') => decodeLoop fl tilde env true cur' ws' { d with bad := true }
    | (.opt c a, cur', ws') =>
      decodeLoop fl tilde env true cur' (applyOpt fl tilde env c a ws' d).2 (applyOpt fl tilde env c a ws' d).1
termination_by wordsSize cur ws
decreasing_by
  all_goals
    have := getopt_lt (!env) inited cur ws h0
    rw [h] at this
    first
      | exact this
      | exact Nat.lt_of_le_of_lt (by
          have := wordsSize_suffix (applyOpt_ws fl tilde env c a ws' d)
          simp only [wordsSize]; omega) this

/-- `decode_switches` (main.c 2644-2838) as far as the option variables go. -/
def decodeSwitches (fl : Floats F) (tilde : Str → Option Str) (env : Bool) (ws : List Str) (s : Opts F) : Decoded F :=
  decodeLoop fl tilde env false [] ws ⟨s, [], false⟩

/-! ## MAKEFLAGS -/

/-- `quote_for_env` (main.c 2916-2929). -/
def quoteForEnv : Str → Str
  | [] => []
  | c :: cs =>
    if c = '$' then '$' :: c :: quoteForEnv cs
    else if isBlank c || c = '\\' then '\\' :: c :: quoteForEnv cs
    else c :: quoteForEnv cs

/-- The loop of `decode_env_switches` (main.c 2881-2896): the words; `acc` is the word being read,
backwards. -/
def splitEnvGo (acc s : Str) : List Str :=
  match s with
  | [] => [acc.reverse]
  | c :: cs =>
    if c = '\\' then
      match cs with
      | [] => splitEnvGo (c :: acc) []
      | d :: ds => splitEnvGo (d :: acc) ds
    else if isBlank c then acc.reverse :: splitEnvGo [] (cs.dropWhile isBlank)
    else splitEnvGo (c :: acc) cs
termination_by s.length
decreasing_by
  all_goals
    try (have := dropWhile_length_le (p := isBlank) cs)
    simp_all
    try omega

/-- `decode_env_switches` (main.c 2845-2908) up to the call of `decode_switches`, for the expanded value of
the variable: the words passed. -/
def envWords (value : Str) : List Str :=
  match nextToken value with
  | [] => []
  | v =>
    match splitEnvGo [] v with
    | [] => []
    | w :: ws => (if w.head? ≠ some '-' ∧ '=' ∉ w then '-' :: w else w) :: ws

/-- `sprintf ("%u")` of an `int`. -/
def fmtU (n : Int) : Str := Nat.toDigits 10 (n % 2 ^ 32).toNat

/-- The arguments of the flags added for an option (main.c 2981-3061): `none` for a flag without argument. -/
def flagArgs (fl : Floats F) (s : Opts F) (all : Bool) (cs : Switch) : List (Option Str) :=
  match cs.type with
  | .ignore => []
  | .flag | .flagOff =>
    if (decide (s.num cs.var = 0) = decide (cs.type = .flagOff)) ∧ (cs.dflt = none ∨ cs.dflt ≠ some (.num (s.num cs.var))) then
      if cs.c ≠ 'X'.toNat then [none] else []
    else []
  | .positiveInt =>
    if !all then []
    else if cs.dflt = some (.num (s.num cs.var)) then []
    else if cs.noarg = some (.num (s.num cs.var)) then [some []]
    else [some (fmtU (s.num cs.var))]
  | .floating =>
    if !all then []
    else if cs.dflt.isSome && fl.eq s.load fl.dflt then []
    else if cs.noarg.isSome && fl.eq s.load fl.dflt then [some []]
    else [some (fl.fmt s.load)]
  | .string =>
    if !all then []
    else match s.str cs.var with
      | none => []
      | some p => [some p]
  | .filename | .strlist => if !all then [] else (s.lst cs.var).map some

/-- The list of flags (main.c 2981-3061). -/
def flagList (fl : Floats F) (s : Opts F) (all makefile : Bool) : List (Switch × Option Str) :=
  (switches.filter (fun cs => cs.toenv && (!makefile || !cs.noMakefile))).flatMap fun cs =>
    (flagArgs fl s all cs).map fun a => (cs, a)

/-- `flagslen` (main.c 2958-2979). -/
def flagLen (f : Switch × Option Str) : Nat :=
  (match f.2 with
    | none => 3
    | some a => 3 + 3 * a.length) + (if f.1.short then 0 else 2 + f.1.name.length)

/-- `posixref`, `ref` and `evalref` (main.c 2938-2940). -/
def posixRef : Str := "-*-command-variables-*-".toList
/-- See `posixRef`. -/
def overridesRef : Str := "MAKEOVERRIDES".toList
/-- See `posixRef`. -/
def evalRefText : Str := "$(-*-eval-flags-*-)".toList

/-- The space for all flags (main.c 3066). -/
def flagsLen (l : List (Switch × Option Str)) : Nat :=
  (l.map flagLen).sum + 4 + posixRef.length + 4 + evalRefText.length + 4

/-- Whether a flag goes into the group at the start (main.c 3078). -/
def isSimple (f : Switch × Option Str) : Bool := f.2.isNone && f.1.short

/-- The letter of an option. -/
def Switch.letter (cs : Switch) : Char := Char.ofNat cs.c

/-- The text of a flag outside the group (main.c 3087-3111). -/
def flagText (f : Switch × Option Str) : Str :=
  ' ' :: '-' :: (if f.1.short then [f.1.letter] else '-' :: f.1.name) ++
    match f.2 with
    | none => []
    | some a => if a = [] then [] else (if f.1.short then [] else ['=']) ++ quoteForEnv a

/-- The flags as text, without the dash at the start (main.c 3077-3118).  An option `X` does not occur. -/
def flagsBody (l : List (Switch × Option Str)) : Str :=
  (l.takeWhile isSimple).map (·.1.letter) ++ (l.dropWhile isSimple).flatMap flagText

/-- The value of `MAKEFLAGS` set by `define_makeflags` (main.c 2935-3171).  `eval`: there are `--eval` options;
`ref`: the name of the variable with the command line variables, if that variable is not empty. -/
def makeflags (fl : Floats F) (s : Opts F) (all makefile eval : Bool) (ref : Option Str) : Str :=
  flagsBody (flagList fl s all makefile) ++
    (if eval then ' ' :: evalRefText else []) ++
    (match ref with
      | some r => if all then " -- $(".toList ++ r ++ [')'] else []
      | none => [])

/-- The value of `MFLAGS` (main.c 3113-3125). -/
def mflags (fl : Floats F) (s : Opts F) (all makefile : Bool) : Str :=
  match flagsBody (flagList fl s all makefile) with
  | [] => []
  | ' ' :: r => r
  | b => '-' :: b

/-- The value of `-*-eval-flags-*-` (main.c 1811-1835); `p[-1]` takes away the last blank. -/
def evalFlags (l : List Str) : Str := (l.flatMap fun e => "--eval=".toList ++ quoteForEnv e ++ [' ']).dropLast

/-- The memory for it (main.c 1815-1820). -/
def evalFlagsRoom (l : List Str) : Nat := ("--eval=".toList.length + 1) * l.length + (l.map fun e => 2 * e.length).sum

/-- A variable defined on the command line: name, whether it is recursive, value. -/
structure CmdVar where
  name : Str
  recursive : Bool
  value : Str
deriving DecidableEq, Repr

/-- The value of `-*-command-variables-*-` (main.c 1569-1603). -/
def commandVariables (l : List CmdVar) : Str :=
  (l.flatMap fun v => quoteForEnv v.name ++ (if v.recursive then [] else [':']) ++ ['='] ++ quoteForEnv v.value ++ [' ']).dropLast

/-- The memory for it (main.c 1578-1587). -/
def commandVariablesRoom (l : List CmdVar) : Nat :=
  (l.map fun v => 2 * v.name.length + (if v.recursive then 0 else 1) + 1 + 2 * v.value.length + 1).sum

end Remake
