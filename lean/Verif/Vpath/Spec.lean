import Verif.Vpath.Model
import Verif.Text.Spec
/-!
# What search paths should do

The directories of a search path, the directives in force, and the places in which a file is
looked for, in order.
-/
namespace Remake.Spec
open Remake

/-- The pieces of a text between separators. -/
def fieldsOf (sep : Char → Bool) (s : Str) : List Str := (s.splitOnP sep).filter (fun w => !w.isEmpty)

/-- Colons and blanks separate directories. -/
def dirSep (c : Char) : Bool := decide (c = ' ' ∨ c = '\t' ∨ c = ':')

/-- Without the slash at the end, except for the root. -/
def withoutSlash (d : Str) : Str := if d ≠ ['/'] ∧ d.getLast? = some '/' then d.dropLast else d

/-- The directories of a search path; the current directory does not count. -/
def dirsOf (text : Str) : List Str :=
  ((fieldsOf dirSep text).map withoutSlash).filter (fun d => decide (d ≠ ['.']))

/-- What a `vpath` line says. -/
inductive VpathDirective where
  | clear
  | remove (pat : Pct)
  | add (pat : Pct) (dirs : List Str)
deriving DecidableEq, Repr

/-- How the text of a `vpath` line is read. -/
inductive VpathReads : Str → VpathDirective → Prop
  | clear {s} : (∀ c ∈ s, isSpace c = true) → VpathReads s .clear
  | remove {a w b q} : (∀ c ∈ a, isSpace c = true) → w ≠ [] → (∀ c ∈ w, isSpace c = false) →
      (∀ c ∈ b, isSpace c = true) → ReadsAs '%' w q → VpathReads (a ++ w ++ b) (.remove q)
  | add {a w b r q} : (∀ c ∈ a, isSpace c = true) → w ≠ [] → (∀ c ∈ w, isSpace c = false) →
      (∀ c ∈ b, isSpace c = true) → b ≠ [] → r ≠ [] → (∀ c, r.head? = some c → isSpace c = false) →
      ReadsAs '%' w q → VpathReads (a ++ w ++ (b ++ r)) (.add q (dirsOf r))

/-- A later line that takes back what was said about the pattern. -/
def cancels (p : Pct) : VpathDirective → Bool
  | .clear => true
  | .remove q => decide (q = p)
  | .add _ _ => false

/-- The directives in force after reading the lines, in their order. -/
def inForce : List VpathDirective → List (Pct × List Str)
  | [] => []
  | .add p dirs :: ds => if dirs = [] ∨ ds.any (cancels p) then inForce ds else (p, dirs) :: inForce ds
  | _ :: ds => inForce ds

open Classical in
/-- The directories in which a file is looked for: those of the directives that match its name, then those
of `VPATH`. -/
noncomputable def places (ds : List VpathDirective) (vpath file : Str) : List Str :=
  ((inForce ds).filter (fun e => decide (e.1.Matches file))).flatMap (·.2) ++ dirsOf vpath

/-- The directory is thought to have the file. -/
def Cached (env : VpathEnv) (path : Str) : Prop :=
  ∃ d b, path = d ++ '/' :: b ∧ '/' ∉ b ∧ env.dirHas d b = true

/-- The file is mentioned as one that will do: as a target, or at all if the name searched for is not a
target. -/
def Mentioned (env : VpathEnv) (file path : Str) (f : VpathFile) : Prop :=
  env.lookup path = some f ∧ (f.isTarget = true ∨ ∀ g, env.lookup file = some g → g.isTarget = false)

/-- The file is there under this name, with this time: mentioned in the makefile, or existing. -/
inductive There (env : VpathEnv) (file path : Str) : VpathTime → Prop
  | plain {f} : Mentioned env file path f → f.special = none → There env file path .unknown
  | special {f b} : Mentioned env file path f → f.special = some b → There env file path (.special b)
  | exists_ {t} : (∀ f, ¬ Mentioned env file path f) → Cached env path → env.stat path = some t →
      There env file path (.stat t)

/-- The path made of a directory and a name. -/
def joinedDir (dir file : Str) : Str := dir ++ '/' :: file

/-- The first of the directories that has the file. -/
inductive FirstIn (env : VpathEnv) (file : Str) : List Str → Option (Str × VpathTime) → Prop
  | none {ds} : (∀ d ∈ ds, ∀ t, ¬ There env file (joinedDir d file) t) → FirstIn env file ds none
  | some {before d after t} : (∀ d ∈ before, ∀ t, ¬ There env file (joinedDir d file) t) →
      There env file (joinedDir d file) t →
      FirstIn env file (before ++ d :: after) (some (joinedDir d file, t))

/-- Names for which the path is put together without mistake: not starting at the root, and without a
double slash before the last part. -/
def Regular (file : Str) : Prop :=
  file.head? ≠ some '/' ∧ ∀ d b, file = d ++ '/' :: b → '/' ∉ b → d.getLast? ≠ some '/'

end Remake.Spec

namespace Remake.Spec
open Remake

/-- The lists of directories with the pattern they are for: the directives in force, then `VPATH`. -/
def searchLists (ds : List VpathDirective) (vpath : Str) : List (Pct × List Str) :=
  inForce ds ++ (if dirsOf vpath = [] then [] else [(.pat [] [], dirsOf vpath)])

/-- No file of this name in the directory. -/
def NotIn (env : VpathEnv) (dir name : Str) : Prop := ∀ t, ¬ There env name (joinedDir dir name) t

/-- Which file a library stands for, given the names it may have: the earliest place that has one of them
- the current directory, the search directories, the standard directories - and there the first
name. -/
inductive LibFound (env : VpathEnv) (lists : List (Pct × List Str)) (std names : List Str) : Option Str → Prop
  | here {a n b} : names = a ++ n :: b → (∀ m ∈ a, env.stat m = none) → env.stat n ≠ none →
      LibFound env lists std names (some n)
  | path {la p da d db lb a n b t} : (∀ m ∈ names, env.stat m = none) →
      lists = la ++ (p, da ++ d :: db) :: lb →
      (∀ e ∈ la, ∀ x ∈ e.2, ∀ m ∈ names, e.1.Matches m → NotIn env x m) →
      (∀ x ∈ da, ∀ m ∈ names, p.Matches m → NotIn env x m) →
      names = a ++ n :: b → (∀ m ∈ a, p.Matches m → NotIn env d m) →
      p.Matches n → There env n (joinedDir d n) t →
      LibFound env lists std names (some (joinedDir d n))
  | standard {sa d sb a n b} : (∀ m ∈ names, env.stat m = none) →
      (∀ e ∈ lists, ∀ x ∈ e.2, ∀ m ∈ names, e.1.Matches m → NotIn env x m) →
      std = sa ++ d :: sb → (∀ x ∈ sa, ∀ m ∈ names, env.stat (joinedDir x m) = none) →
      names = a ++ n :: b → (∀ m ∈ a, env.stat (joinedDir d m) = none) → env.stat (joinedDir d n) ≠ none →
      LibFound env lists std names (some (joinedDir d n))
  | missing : (∀ m ∈ names, env.stat m = none) →
      (∀ e ∈ lists, ∀ x ∈ e.2, ∀ m ∈ names, e.1.Matches m → NotIn env x m) →
      (∀ x ∈ std, ∀ m ∈ names, env.stat (joinedDir x m) = none) → LibFound env lists std names none

end Remake.Spec
