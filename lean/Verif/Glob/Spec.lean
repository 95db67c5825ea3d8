import Verif.Glob.MatchSpec
/-! Which files a pattern with directories stands for. -/
namespace Remake.Spec

/-- A pattern for a path: a first part, `/` before it or not, then more parts. -/
inductive PathPat where
  | base (abs : Bool) (c : List GItem)
  | sub (d : PathPat) (c : List GItem)
deriving DecidableEq, Repr

/-- The text of a pattern for a path. -/
def PathPat.text : PathPat → Str
  | .base abs c => (if abs then ['/'] else []) ++ patText c
  | .sub d c => d.text ++ '/' :: patText c

/-- A wildcard. -/
def GItem.wild : GItem → Bool
  | .lit _ _ => false
  | _ => true

/-- The text that a part without wildcards stands for. -/
def GItem.char : GItem → Str
  | .lit _ c => [c]
  | _ => []

/-- The name `n` in the directory `dir`, whose path is `q`, is one that the part stands for: a part with wildcards stands for the
names in the directory that match, a part without for itself if there is such a file. -/
def Here (file : Str → Prop) (listed : Str → Str → Prop) (c : List GItem) (dir n q : Str) : Prop :=
  if c.any GItem.wild then listed dir n ∧ Matches false true true c n else n = c.flatMap GItem.char ∧ file q

/-- The path is one that the pattern stands for; `listed`: the names in a directory, `now` for the parts before the last, which are
directories. -/
def Finds (file : Str → Prop) (now : Str → Str → Prop) : (listed : Str → Str → Prop) → PathPat → Str → Prop
  | listed, .base abs c, q => ∃ n, q = (if abs then ['/'] else []) ++ n ∧ Here file listed c (if abs then ['/'] else ['.']) n q
  | listed, .sub d c, q => ∃ r n, q = r ++ '/' :: n ∧ Finds file now now d r ∧ Here file listed c r n q

/-- A part whose text means it: not empty, without slashes, and backslashes only where there are wildcards. -/
def partOk (c : List GItem) : Prop :=
  c ≠ [] ∧ '/' ∉ patText c ∧ (∀ p ∈ c, p.plain false) ∧ (c.any GItem.wild = false → ∀ p ∈ c, ∃ x, p = .lit false x)

/-- A pattern whose text means it. -/
def PathPat.ok : PathPat → Prop
  | .base _ c => partOk c
  | .sub d c => d.ok ∧ partOk c

end Remake.Spec
