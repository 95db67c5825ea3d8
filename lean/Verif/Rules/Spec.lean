import Verif.Rules.Model
/-!
# What implicit rules should do

The vocabulary is that of the manual ("How Patterns Match", "Implicit Rule Search Algorithm"): a name
is split into directory and file, a pattern without a slash is compared with the file part, and a
prerequisite is good if it exists or ought to exist.
-/
namespace Remake.Spec
open Remake

/-- `name` has a directory part `dir` and a file part `base`; a slash at the very end belongs to the
file part. -/
def Split (name dir base : Str) : Prop :=
  name = dir ++ base ∧ dir.getLast? = some '/' ∧ base ≠ [] ∧ '/' ∉ base.dropLast

/-- The pattern `t` fits `name` with `core` in place of `%`, in the directory `dir`.  `member` is for
names of archive members, which have no directory. -/
inductive Fits (member : Bool) (t : PatTarget) (name : Str) : Str → Str → Prop
  | whole (core : Str) : name = t.pre ++ core ++ t.suf → core ≠ [] →
      (member = true ∨ '/' ∉ name.dropLast ∨ '/' ∈ t.pre ∨ '/' ∈ t.suf) → Fits member t name [] core
  | inDir (dir base core : Str) : member = false → '/' ∉ t.pre → '/' ∉ t.suf → Split name dir base →
      base = t.pre ++ core ++ t.suf → Fits member t name dir core

/-- The pattern that fits every name. -/
def Anything (t : PatTarget) : Prop := t.pre = [] ∧ t.suf = []

/-- Some pattern other than `%` fits, of a rule that is not in use and has not been cancelled. -/
def SpecificFits (rules : List PatRule) (inUse : List Nat) (member : Bool) (name : Str) : Prop :=
  ∃ i r t dir core, rules[i]? = some r ∧ i ∉ inUse ∧ t ∈ r.targets ∧ ¬ Anything t ∧
    (r.deps = [] ∨ r.cmds ≠ none) ∧ Fits member t name dir core

/-- Target pattern `j` of rule `i` is to be considered for `name`: it fits, the rule has a recipe and
is not in use, and a rule for anything is terminal or nothing specific fits (and is not used for
intermediate files). -/
structure Candidate (rules : List PatRule) (inUse : List Nat) (recursing member : Bool) (name : Str)
    (i j : Nat) (r : PatRule) (dir core : Str) : Prop where
  rule : rules[i]? = some r
  free : i ∉ inUse
  recipe : r.cmds ≠ none
  fits : ∃ t, r.targets[j]? = some t ∧ Fits member t name dir core ∧
    (recursing = true → Anything t → r.terminal = true)
  specific : r.terminal = true ∨ (∀ t ∈ r.targets, ¬ Anything t) ∨
    ¬ SpecificFits rules inUse member name

/-- Candidate `(stem, i, j)` comes before another: shorter stem, then earlier rule, then earlier
target. -/
def Before (n i j n' i' j' : Nat) : Prop :=
  n < n' ∨ n = n' ∧ (i < i' ∨ i = i' ∧ j < j')

/-- A prerequisite that need not be made: asked for explicitly, mentioned in the makefile, existing,
or found in a search directory - and not known to be impossible. -/
def Good (env : SearchEnv) (explicit : List Str) (s : SearchState) (n : Str) : Prop :=
  n ∉ s.impossible ∧
    (n ∈ explicit ∨ n ∈ s.known ∨ env.fileExists n = true ∨ env.vpath n = true)

/-- The prerequisite can be had: it ought to exist, exists, or can be made by a chain of implicit
rules - or is another target of a rule that applies. -/
inductive Ready (env : SearchEnv) (rules : List PatRule) (known : List Str) : Str → Prop
  | mentioned {n} : n ∈ known → Ready env rules known n
  | exists_ {n} : env.fileExists n = true → Ready env rules known n
  | found {n} : env.vpath n = true → Ready env rules known n
  | made {n} (r : PatRule) (t : PatTarget) (dir core : Str) (member : Bool) :
      r ∈ rules → r.cmds ≠ none → t ∈ r.targets → Fits member t n dir core →
      (∀ d ∈ wanted env dir core r, Ready env rules known d.name) → Ready env rules known n
  | sibling {n} (r : PatRule) (t u : PatTarget) (m dir core : Str) (member : Bool) :
      r ∈ rules → r.cmds ≠ none → t ∈ r.targets → Fits member t m dir core →
      (∀ d ∈ wanted env dir core r, Ready env rules known d.name) → u ∈ r.targets →
      n = u.pre ++ (dir ++ core) ++ u.suf → Ready env rules known n

/-- What a rule asks for, as prerequisites of the target. -/
def asFound (d : WantedDep) : FoundDep :=
  { name := d.name, ignoreMtime := d.ignoreMtime, ignoreAuto := d.ignoreAuto }

/-- The result `f` of a search for `name` says how to make it: a pattern fits (for an intermediate file,
`rec`, not just a non-terminal `%`), the recipe and stem are
those of the rule, all prerequisites can be had, and they are those the rule asks for (if it has
any). -/
def HowToMake (env : SearchEnv) (rules : List PatRule) (known : List Str) (rec member : Bool)
    (name : Str) (f : FoundRule) : Prop :=
  ∃ r t dir core, rules[f.rule]? = some r ∧ r.targets[f.target]? = some t ∧ r.cmds ≠ none ∧
    Fits member t name dir core ∧ (rec = true → Anything t → r.terminal = true) ∧ f.stem = dir ++ core ∧ f.cmds = r.cmds ∧
    f.also = alsoMake r f.target (dir ++ core) ∧
    (∀ d ∈ f.deps, Ready env rules known d.name) ∧
    (r.deps ≠ [] → f.deps = (wanted env dir core r).map asFound)

/-- Whether a name stands for an archive member. -/
def isMember (archive : Bool) (name : Str) : Bool := archive || decide (arName name = .yes)

/-- What the search guarantees for a result. -/
structure Chosen (env : SearchEnv) (rules : List PatRule) (inUse : List Nat) (rec member : Bool)
    (ex : List Str) (name : Str) (s s' : SearchState) (f : FoundRule) : Prop where
  main : ∃ r dir core, Candidate rules inUse rec member name f.rule f.target r dir core ∧
    f.stem = dir ++ core ∧ dir.length + core.length ≤ env.pathMax ∧
    (((∀ d ∈ wanted env dir core r, Good env ex s d.name) ∧
      ∀ i j r' dir' core', Candidate rules inUse rec member name i j r' dir' core' →
        Before (dir'.length + core'.length) i j (dir.length + core.length) f.rule f.target →
        env.pathMax < dir'.length + core'.length ∨ (r'.deps ≠ [] ∧ ∃ d ∈ wanted env dir' core' r', ¬ Good env ex s d.name)) ∨
     (r.terminal = false ∧
      (∀ i j r' dir' core', Candidate rules inUse rec member name i j r' dir' core' →
        env.pathMax < dir'.length + core'.length ∨ (r'.deps ≠ [] ∧ ∃ d ∈ wanted env dir' core' r', ¬ Good env ex s d.name)) ∧
      ∀ i j r' dir' core', Candidate rules inUse rec member name i j r' dir' core' →
        Before (dir'.length + core'.length) i j (dir.length + core.length) f.rule f.target →
        env.pathMax < dir'.length + core'.length ∨ r'.terminal = true ∨
          ∃ d ∈ wanted env dir' core' r', d.name ∈ s'.impossible))

/-- What it guarantees when nothing is found. -/
def NoneFits (env : SearchEnv) (rules : List PatRule) (inUse : List Nat) (rec member : Bool)
    (ex : List Str) (name : Str) (s s' : SearchState) : Prop :=
  ∀ i j r dir core, Candidate rules inUse rec member name i j r dir core →
    env.pathMax < dir.length + core.length ∨
    (r.deps ≠ [] ∧ (∃ d ∈ wanted env dir core r, ¬ Good env ex s d.name) ∧
      (r.terminal = true ∨ ∃ d ∈ wanted env dir core r, d.name ∈ s'.impossible))

end Remake.Spec

namespace Remake.Spec
open Remake

/-! ## The list of rules -/

/-- What identifies a pattern rule: its target patterns and its prerequisites. -/
def headOf (r : PatRule) : List Str × List Str := (r.targets.map PatTarget.text, r.deps.map (·.name))

/-- A pattern rule that the suffixes call for. -/
inductive FromSuffix (posix : Bool) (file : Str → Option SuffixTarget) (suffixes : List Str) : PatRule → Prop
  /-- `%.x:` without recipe: such a name is not made by a rule for anything -/
  | known (s : Str) : s ∈ suffixes →
      FromSuffix posix file suffixes { targets := [⟨[], s⟩], deps := [], cmds := none }
  /-- the target `.x` -/
  | one (s : Str) (f : SuffixTarget) (c : Nat) : s ∈ suffixes → file s = some f → f.cmds = some c →
      FromSuffix posix file suffixes { targets := [⟨[], []⟩], deps := [{ name := '%' :: s }], cmds := some c }
  /-- the target `.x.y` -/
  | two (s s2 : Str) (f : SuffixTarget) (c : Nat) : s ∈ suffixes → s2 ∈ suffixes → s ≠ s2 →
      file (s ++ s2) = some f → f.cmds = some c → ¬ (f.hasDeps = true ∧ posix = true) →
      FromSuffix posix file suffixes { targets := [⟨[], s2⟩], deps := [{ name := '%' :: s }], cmds := some c }
  /-- the target `.x.a` -/
  | archive (s : Str) (f : SuffixTarget) (c : Nat) : s ∈ suffixes → ['.', 'a'] ∈ suffixes → s ≠ ['.', 'a'] →
      file (s ++ ['.', 'a']) = some f → f.cmds = some c → ¬ (f.hasDeps = true ∧ posix = true) →
      FromSuffix posix file suffixes
        { targets := [⟨['('], ['.', 'o', ')']⟩], deps := [{ name := '%' :: s }], cmds := some c }

/-- The other target of a rule that makes `dir ++ …` with `core` for `%`: in the same directory, unless
the pattern has a directory of its own. -/
def siblingName (dir core : Str) (t : PatTarget) : Str :=
  if '/' ∈ t.pre ∨ '/' ∈ t.suf then t.pre ++ (dir ++ core) ++ t.suf else dir ++ t.pre ++ core ++ t.suf

end Remake.Spec
