import Verif.Home.Model

/-!
# Specification: home directories in file names
-/

namespace Remake.Spec
open Remake

/-- The home directory meant by `~` and the name `u` after it: one's own if there is no name. -/
inductive HomeIs (E : HomeEnv) : Str → Str → Prop
  | fromVariable (h : E.var ≠ []) : HomeIs E [] E.var
  | environment (d : Str) (h : E.var = []) (h1 : E.env = some d) (h2 : d ≠ []) : HomeIs E [] d
  | login (d : Str) (h : E.var = []) (h1 : E.env = none ∨ E.env = some []) (h2 : E.login = some d) : HomeIs E [] d
  | other (u d : Str) (h : u ≠ []) (h1 : E.user u = some d) : HomeIs E u d

/-- The parts of a name that starts with `~`: the name of the user up to the first slash, and the rest. -/
def TildeParts (u r : Str) : Prop := '/' ∉ u ∧ (r = [] ∨ ∃ t, r = '/' :: t)

/-- A name is that of a file in the home directory of another user who is known. -/
def BelowOther (E : HomeEnv) (name : Str) : Prop :=
  ∃ u r, name = '~' :: (u ++ r) ∧ TildeParts u r ∧ u ≠ [] ∧ r ≠ [] ∧ (∃ d, E.user u = some d)

end Remake.Spec
