import Verif.Flags.Model
/-!
# Vocabulary for options
-/
set_option linter.unusedVariables false
namespace Remake.Spec
open Remake

/-- The option variables a sub-make is to receive: all but those of `-C`, `-f`, `-o`, `-W`, `--help`, `--tasks`, `--targets`,
`--no-readline` and the debugger.  (`--eval` is treated apart.) -/
def sentFlags : List OptVar :=
  [.alwaysMake, .searchParent, .debug, .envOverrides, .ignoreErrors, .keepGoing, .checkSymlink, .justPrint, .printDataBase,
   .question, .noBuiltinRules, .noBuiltinVariables, .silent, .touch, .printVersion, .printDirectory, .postMortem,
   .inhibitPrintDirectory, .warnUndefined, .noExtendedErrors]
/-- Those with a string. -/
def sentStrings : List OptVar := [.profile, .outputSync, .jobserverAuth, .syncMutex]
/-- Those with a list of strings. -/
def sentLists : List OptVar := [.tracing, .dbFlags, .verbosity, .debuggerOpts]
/-- Those with a list of file names. -/
def sentFiles : List OptVar := [.includeDirectories, .profileDir]

/-- Two makes have the same options, as far as they are sent. -/
def SameOptions {F : Type} (a b : Opts F) : Prop :=
  (∀ v ∈ sentFlags, a.num v = b.num v) ∧ a.num .jobSlots = b.num .jobSlots ∧ a.load = b.load ∧
  (∀ v ∈ sentStrings, a.str v = b.str v) ∧ (∀ v ∈ sentLists ++ sentFiles, a.lst v = b.lst v)

/-- Values that options can have: flags are 0 or 1, the number of jobs is -1 (none given), 0 (no limit) or a positive `int`, and
no string is empty. -/
structure ValidOptions {F : Type} (s : Opts F) : Prop where
  flags : ∀ v ∈ sentFlags, s.num v = 0 ∨ s.num v = 1
  jobs : -1 ≤ s.num .jobSlots ∧ s.num .jobSlots < 2 ^ 31
  strings : ∀ v x, s.str v = some x → x ≠ []
  lists : ∀ v, ∀ x ∈ s.lst v, x ≠ []

/-- Option values that survive the trip: no `$` in a string, file names that `-I` leaves as they are, and a load average that
can be read back from its text. -/
structure Portable {F : Type} (fl : Floats F) (tilde : Str → Option Str) (s : Opts F) : Prop where
  strings : ∀ v ∈ sentStrings, ∀ x, s.str v = some x → '$' ∉ x
  lists : ∀ v ∈ sentLists ++ sentFiles, ∀ x ∈ s.lst v, '$' ∉ x
  files : ∀ v ∈ sentFiles, ∀ x ∈ s.lst v, expandFile tilde x = x
  load : (fl.eq s.load fl.dflt = true ∧ s.load = fl.dflt) ∨
    (fl.eq s.load fl.dflt = false ∧ fl.fmt s.load ≠ [] ∧ '$' ∉ fl.fmt s.load ∧ fl.atof (fl.fmt s.load) = s.load)

/-- A command line variable as a word. -/
def definition (v : CmdVar) : Str := v.name ++ (if v.recursive then [] else [':']) ++ '=' :: v.value

/-- A name that can be written to the left of `=` or `:=` as it is: not empty, without references, comments, colons, blanks and
operators. -/
def PlainVarName (n : Str) : Prop :=
  n ≠ [] ∧ ∀ c ∈ n, c ≠ '$' ∧ c ≠ '#' ∧ c ≠ ':' ∧ c ≠ '=' ∧ c ≠ '+' ∧ c ≠ '?' ∧ c ≠ '!' ∧ isSpace c = false

/-- The long option meant by a name: the one of that name, else the only one that the name abbreviates. -/
def longOptionFor (name : Str) (opts : List LongOpt) : LongFound :=
  match opts.find? (fun p => p.name = name) with
  | some p => .found p
  | none =>
    match opts.filter (fun p => name.isPrefixOf p.name) with
    | [] => .unknown
    | [p] => .found p
    | _ => .ambiguous

end Remake.Spec
