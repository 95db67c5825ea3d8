import Verif.Where.Model
/-!
# What is expected of the messages about the directory
-/
namespace Remake.Spec
open Remake

/-- Text, not a message about the directory. -/
def WdText : WdMark → Prop
  | .own _ | .cmd _ => True
  | _ => False

/-- Every "Entering" has its "Leaving", and they nest; the names are not compared. -/
inductive WdBalanced : List WdMark → Prop
  | nil : WdBalanced []
  | text (m : WdMark) (l : List WdMark) : WdText m → WdBalanced l → WdBalanced (m :: l)
  | group (d d' : Option Str) (a b : List WdMark) : WdBalanced a → WdBalanced b →
      WdBalanced (.enter d :: a ++ .leave d' :: b)

/-- The text is in groups, each between an "Entering" and a "Leaving" for directory `d`. -/
inductive WdGroups (d : Str) : List WdMark → Prop
  | nil : WdGroups d []
  | group (a b : List WdMark) : a ≠ [] → (∀ m ∈ a, WdText m) → WdGroups d b →
      WdGroups d (.enter (some d) :: a ++ .leave (some d) :: b)

/-- The text is one group. -/
def WdOne (d : Str) (l : List WdMark) : Prop :=
  ∃ a, (∀ m ∈ a, WdText m) ∧ l = .enter (some d) :: a ++ [.leave (some d)]

/-- The texts of make's own messages of a history, in order. -/
def wdOwnTexts : List WdOp → List Str
  | [] => []
  | .message _ s :: os => if s = [] then wdOwnTexts os else s :: wdOwnTexts os
  | .raw s :: os => s :: wdOwnTexts os
  | _ :: os => wdOwnTexts os

/-- The text of a list of marks that belongs to messages of make. -/
def wdOwn : List WdMark → List Str
  | [] => []
  | .own s :: ms => s :: wdOwn ms
  | _ :: ms => wdOwn ms

end Remake.Spec
