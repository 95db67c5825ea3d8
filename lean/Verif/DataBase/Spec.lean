import Verif.DataBase.Model
import Verif.Reader.Spec2
import Verif.Read.LineSpec
/-! Specification vocabulary for the rules in the printed data base (C145). -/
namespace Remake.Spec
open Remake

variable {σ : Type}

/-- A name without characters that mean something in a makefile, and without `./` in front. -/
def DbName (w : Str) : Prop :=
  w ≠ [] ∧ (∀ c ∈ w, isSpace c = false ∧
    c ∉ ['=', ':', '$', '\\', '&', ';', '#', '(', '~', '?', '*', '[', '|']) ∧ ¬ ['.', '/'] <+: w

/-- The words that may stand before an assignment. -/
def assignWords : List Str :=
  ["define".toList, "undefine".toList, "export".toList, "override".toList, "private".toList]

/-- The text of a recipe as it is stored when it is read: logical lines, each with its newline. -/
def RecipeRows (t : Str) (ls : List Str) : Prop :=
  t = ls.flatMap (fun l => l ++ ['\n']) ∧ ∀ l ∈ ls, AllEscaped l ∧ ¬ EndsOdd l

/-- The text of a comment line. -/
def DbNote (n : Str) : Prop := '\n' ∉ n ∧ '\\' ∉ n

/-- A prefix that is not the beginning of something else. -/
def DbPrefixOk (p : Char) (fs : List DbFile) : Prop :=
  p ≠ '#' ∧ p ≠ '\\' ∧ p ≠ '\n' ∧ ∀ f ∈ fs, f.name.head? ≠ some p

/-- A file whose names can be written in a makefile as they are, and whose recipe has the prefix `p`. -/
structure DbFileOk (p : Char) (f : DbFile) : Prop where
  name : DbName f.name
  deps : ∀ d ∈ f.deps, DbName d.name ∧ d.name ∉ assignWords
  notes : ∀ n ∈ dbNotes f, DbNote n
  cmds : ∀ c ∈ f.cmds, c.pfx = p ∧ DbNote c.place ∧ ∃ ls, RecipeRows c.text ls

/-- The prerequisites as a makefile has them: the order-only ones after the others. -/
def normalFirst (ds : List PreReq) : List PreReq :=
  (ds.filter fun d => !d.orderOnly) ++ ds.filter fun d => d.orderOnly

/-- The rule `w` with the recipe `t` is the one of the file `f`. -/
structure RuleOf (fs : FsEnv) (p : Char) (f : DbFile) (w : Waiting) (t : Str) : Prop where
  names : w.names = [f.name]
  grouped : w.grouped = false
  pattern : w.pattern = none
  double : w.twoColon = f.double
  pfx : w.pfx = p
  none : f.deps = [] → w.deps = none
  some : f.deps ≠ [] → ∃ d, w.deps = some d ∧ splitPrereqs fs d = some (normalFirst f.deps)
  recipe : t = match f.cmds with
    | .none => []
    | .some c => c.text

/-- `FileRules E s fs e`: in the state `s`, giving make the rules of the files `fs` one after the other leads to `e`. -/
inductive FileRules (E : RdEnv σ) : σ → List DbFile → σ → Prop where
  | nil {s : σ} : FileRules E s [] s
  | cons {s e : σ} {f : DbFile} {fs : List DbFile} {w : Waiting} {t : Str} : RuleOf E.fs (E.cmdPrefix s) f w t →
      FileRules E (E.record s w t) fs e → FileRules E s (f :: fs) e

/-- A pattern rule whose names can be written in a makefile as they are, and whose recipe has the prefix `p`. -/
structure DbRuleOk (p : Char) (r : DbRule) : Prop where
  some : r.targets ≠ []
  names : ∀ n ∈ r.targets, DbName n ∧ n.head? ≠ .some p ∧ '%' ∈ n
  deps : ∀ d ∈ r.deps, DbName d.name ∧ d.name ∉ assignWords
  cmds : ∀ c ∈ r.cmds, c.pfx = p ∧ DbNote c.place ∧ ∃ ls, RecipeRows c.text ls

/-- The rule `w` with the recipe `t` is the pattern rule `r`. -/
structure PatternOf (fs : FsEnv) (p : Char) (r : DbRule) (w : Waiting) (t : Str) : Prop where
  names : w.names = r.targets
  grouped : w.grouped = false
  pattern : w.pattern = none
  double : w.twoColon = r.terminal
  pfx : w.pfx = p
  none : r.deps = [] → w.deps = none
  some : r.deps ≠ [] → ∃ d, w.deps = some d ∧ splitPrereqs fs d = some (normalFirst r.deps)
  recipe : t = match r.cmds with
    | .none => []
    | .some c => c.text

/-- `PatternsOf E s rs e`: in the state `s`, giving make the pattern rules `rs` one after the other leads to `e`. -/
inductive PatternsOf (E : RdEnv σ) : σ → List DbRule → σ → Prop where
  | nil {s : σ} : PatternsOf E s [] s
  | cons {s e : σ} {r : DbRule} {rs : List DbRule} {w : Waiting} {t : Str} : PatternOf E.fs (E.cmdPrefix s) r w t →
      PatternsOf E (E.record s w t) rs e → PatternsOf E s (r :: rs) e

end Remake.Spec
