import Verif.Ask.Model
import Verif.Var.Spec
/-!
# What the answers about variables should be
-/
namespace Remake.Spec
open Remake

/-- The word the manual gives for where a definition was made; `-e` given or not. -/
inductive OriginWord (e : Bool) : Origin → Str → Prop
  | default : OriginWord e .default "default".toList
  | env : e = false → OriginWord e .env "environment".toList
  | envE : e = true → OriginWord e .env "environment override".toList
  | envO : OriginWord e .envOverride "environment override".toList
  | file : OriginWord e .file "file".toList
  | command : OriginWord e .command "command line".toList
  | override : OriginWord e .override "override".toList
  | automatic : OriginWord e .automatic "automatic".toList

/-- The word for a flavour. -/
def flavorWord (r : Bool) : Str := if r = true then "recursive".toList else "simple".toList

/-- The names are those of the variables defined, each once. -/
def NamesOf (s : VarSet) (l : List Str) : Prop := l.Nodup ∧ ∀ n, n ∈ l ↔ s n ≠ none

/-- The text lists the names with single spaces between. -/
inductive ListedAs : List Str → Str → Prop
  | one (n : Str) : ListedAs [n] n
  | more (n m : Str) (ns : List Str) (t : Str) : ListedAs (m :: ns) t → ListedAs (n :: m :: ns) (n ++ ' ' :: t)

/-- The history neither defines nor undefines the variable. -/
def LeavesAlone (n : Str) (ops : List VlOp) : Prop :=
  ∀ op ∈ ops, (∀ e v o r, op ≠ .op (.define e n v o r)) ∧ (∀ e o, op ≠ .op (.undefine e n o))

/-- The definitions and undefinitions of a history. -/
def setChanges : List VlOp → List VarOp
  | [] => []
  | .op o :: ops => o :: setChanges ops
  | .look _ :: ops => setChanges ops

/-- A definition from the environment or built in. -/
def NotUsers (d : Def) : Prop := d.origin = .env ∨ d.origin = .envOverride ∨ d.origin = .default

end Remake.Spec
