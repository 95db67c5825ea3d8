import Verif.Rules.Props
set_option linter.unusedVariables false
/-!
# The built-in rules and variables, and the options that switch them off

Models `src/default.c` 344-429, `src/main.c` 1637-1639, 1784-1802, 1870-1872, 1916-1929, 2003-2015, `src/rule.c` `install_pattern_rule` 389-424,
and of `src/read.c` 2138-2187 and 2244-2272 (`record_files`) and `src/file_basic.c` 160-165 what concerns `.SUFFIXES` and targets with recipes.

Simplifications: the tables of default.c are parameters, in which recipes are numbered as in `PatRule`; of a makefile only the lines below are
followed; the variable `SUFFIXES`, the choice of the default goal and `-p` are left out.
-/
namespace Remake

/-- The tables of default.c 28-341: suffixes, suffix rules, pattern rules with the terminal ones after the others, variables. -/
structure BiTables where
  suffixes : List Str
  suffixRules : List (Str × Nat)
  patterns : List PatRule
  vars : List (Str × Str)

/-- `enum variable_origin` (variable.h 25-32), the part that is used. -/
inductive BiOrigin where
  | default | env | file | envOverride | command | override
deriving DecidableEq, Repr

/-- The order of origins. -/
def BiOrigin.rank : BiOrigin → Nat
  | .default => 0
  | .env => 1
  | .file => 2
  | .envOverride => 3
  | .command => 4
  | .override => 5

/-- What is kept: prerequisites of `.SUFFIXES` and its mark `builtin`, the targets, the pattern rules, the global variables. -/
structure BiSt where
  suffixes : List Str
  mark : Bool
  file : Str → Option SuffixTarget
  rules : List PatRule
  vars : Str → Option (BiOrigin × Str)

/-- `define_variable_in_set` (variable.c 283-304): a stronger definition stays. -/
def biDefine (vars : Str → Option (BiOrigin × Str)) (n : Str) (o : BiOrigin) (v : Str) : Str → Option (BiOrigin × Str) := fun m =>
  if m = n then
    match vars n with
    | some (o', v') => if o.rank ≥ o'.rank then some (o, v) else some (o', v')
    | none => some (o, v)
  else vars m

/-- `undefine_variable_in_set` (variable.c 382-400) with the origin `o_default`. -/
def biUndefine (vars : Str → Option (BiOrigin × Str)) (n : Str) : Str → Option (BiOrigin × Str) := fun m =>
  if m = n then
    match vars n with
    | some (o', v') => if BiOrigin.default.rank ≥ o'.rank then none else some (o', v')
    | none => none
  else vars m

/-- Before the makefiles are read (main.c 1637-1639, 1784-1802; default.c 344-390, 410-420).  `r` and `R` are the options of the command line
and of the environment, `env` the variables that are defined already. -/
def biStart (T : BiTables) (r R : Bool) (env : Str → Option (BiOrigin × Str)) : BiSt :=
  let noRules := r || R
  { suffixes := if noRules then [] else T.suffixes
    mark := true
    file := if noRules then fun _ => none else T.suffixRules.foldl (fun f x => fun m => if m = x.1 then some ⟨false, some x.2⟩ else f m) fun _ => none
    rules := []
    vars := if R then env else T.vars.foldl (fun f x => biDefine f x.1 .default x.2) env }

/-- Lines of makefiles: `.SUFFIXES:` with words; a target (other than `.SUFFIXES`) with or without prerequisites and recipe; a pattern rule; an
assignment with `=`. -/
inductive BiLine where
  | suffixes (l : List Str)
  | rule (t : Str) (hasDeps : Bool) (cmds : Option Nat)
  | pattern (r : PatRule)
  | assign (n v : Str)
deriving DecidableEq, Repr

/-- Reading a line (read.c 2177-2187, 2244-2272; file_basic.c 160-165: `enter_file` takes the mark away; rule.c 510-511). -/
def BiSt.read (s : BiSt) : BiLine → BiSt
  | .suffixes l =>
    { s with
      suffixes := if l = [] then [] else s.suffixes ++ l
      mark := false }
  | .rule t d c =>
    { s with
      file := fun m =>
        if m = t then
          match s.file t with
          | some f => some ⟨f.hasDeps || d, c <|> f.cmds⟩
          | none => some ⟨d, c⟩
        else s.file m }
  | .pattern p => { s with rules := newPatternRule true s.rules p }
  | .assign n v => { s with vars := biDefine s.vars n .file v }

/-- After the makefiles have been read (main.c 1870-1872, 1916-1929, 2003-2015; default.c 395-408, 422-429): `mr` and `mR` say whether `MAKEFLAGS` now holds
the options. -/
def biEnd (T : BiTables) (posix r R mr mR : Bool) (s : BiSt) : BiSt :=
  let noRules := r || R
  let s1 := if mr && !noRules then { s with suffixes := if s.mark then [] else s.suffixes } else s
  let s2 := if mR && !R then { s1 with vars := T.vars.foldl (fun f x => biUndefine f x.1) s1.vars } else s1
  let converted := convertToPattern posix s2.file s2.suffixes s2.rules
  { s2 with rules := if noRules || mr then converted else T.patterns.foldl (newPatternRule false) converted }

/-- A whole run. -/
def biRun (T : BiTables) (posix r R mr mR : Bool) (env : Str → Option (BiOrigin × Str)) (ls : List BiLine) : BiSt :=
  biEnd T posix r R mr mR (ls.foldl BiSt.read (biStart T r R env))

/-- Tables with nothing in them. -/
def BiTables.empty : BiTables := ⟨[], [], [], []⟩

end Remake
