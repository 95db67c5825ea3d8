import Verif.Include.Model
import Verif.Reader.Spec
import Verif.Files.Spec
/-! Specification vocabulary for included makefiles (C120). -/
namespace Remake.Spec
open Remake

variable {σ : Type}

/-- The file that an included name stands for: the name itself if it can be opened, else, unless the name is absolute, the
name in the first directory of the search path in which it can be opened. -/
def StandsFor (content : Str → Option (List Str)) (dirs : List Str) (name path : Str) (ls : List Str) : Prop :=
  content path = some ls ∧
    (path = name ∨
      (content name = none ∧ name.head? ≠ some '/' ∧
        ∃ before d after, dirs = before ++ d :: after ∧ path = d ++ "/".toList ++ name ∧
          ∀ x ∈ before, content (x ++ "/".toList ++ name) = none))

/-- There is no such file. -/
def StandsForNone (content : Str → Option (List Str)) (dirs : List Str) (name : Str) : Prop :=
  content name = none ∧ (name.head? = some '/' ∨ ∀ d ∈ dirs, content (d ++ "/".toList ++ name) = none)

/-- A line with the word `w`, one of those that include makefiles, and the text `t` after it. -/
def IncludeLine (posix : Bool) (l w t : Str) : Prop :=
  l ≠ [] ∧ parseVarAssignment (evalText posix l) = none ∧ evalText posix l ≠ [] ∧
    firstWord (evalText posix l) = w ∧ afterWord (evalText posix l) = t ∧
    (w = "include".toList ∨ w = "-include".toList ∨ w = "sinclude".toList)

/-- The word says that it is no error if a file does not exist. -/
def Lenient (w : Str) : Bool := decide (w ≠ "include".toList)

/-- The text names the makefiles `names`: it is empty after expansion, or a list of them. -/
inductive Names (I : IncEnv σ) (s : σ) (t : Str) : σ → List Str → Prop where
  | none {e : σ} : I.base.expand s t = (e, []) → Names I s t e []
  | some {e : σ} {x r : Str} {names : List Str} : I.base.expand s t = (e, x) → x ≠ [] →
      parseFileSeq I.base.fs { noar := true } .none (fun _ => false) x = .some (names, r) → Names I s t e names

/-- The state in which the lines of an included file are read. -/
def atStart (I : IncEnv σ) (s : σ) (w path : Str) : σ := I.listed (I.note s path (Lenient w) true) path

/-- `FilesMean I n w s names s'`: reading the makefiles `names`, one after the other, leads from `s` to `s'`.  Of those that
do not exist only a note is taken; the others are read to their end, when `n` more files can be opened. -/
inductive FilesMean (I : IncEnv σ) (n : Nat) (w : Str) : σ → List Str → σ → Prop where
  | nil {s : σ} : FilesMean I n w s [] s
  | missing {s s' : σ} {name : Str} {names : List Str} : StandsForNone (I.content s) I.dirs name →
      FilesMean I n w (I.note s name (Lenient w) false) names s' → FilesMean I n w s (name :: names) s'
  | found {s s1 s' : σ} {name path : Str} {ls names : List Str} : StandsFor (I.content s) I.dirs name path ls →
      readMakefile (incEnv I n) (some (atStart I s w path)) ls = .done (some s1) →
      FilesMean I n w s1 names s' → FilesMean I n w s (name :: names) s'

/-- A name without the characters that stand for something else in an `include` line. -/
def NoWild (w : Str) : Prop := '~' ∉ w ∧ '?' ∉ w ∧ '*' ∉ w ∧ '[' ∉ w

/-- Where a makefile may be continued by another text without the rule at its end taking in lines of that text: lines
without text, then the end or a line that is neither conditional nor recipe line. -/
def StartsAfresh (posix : Bool) (c : Char) (post : List Str) : Prop :=
  (∀ l ∈ post, NoText posix l ∧ ¬ IsRecipeLine c l) ∨
    ∃ lead l rest, post = lead ++ l :: rest ∧ (∀ l ∈ lead, NoText posix l ∧ ¬ IsRecipeLine c l) ∧
      ¬ IsRecipeLine c l ∧ evalText posix l ≠ [] ∧ ¬ Reserved (firstWord (evalText posix l))

end Remake.Spec
