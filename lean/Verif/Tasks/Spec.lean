import Verif.Tasks.Model
/-!
# What descriptions belong to which rules
-/
namespace Remake.Spec

/-- The manual: a comment `#: ` before a rule, and after the rule before it, describes its targets; it may stand on the line of the rule.  If there are several it
is the last one. -/
def descriptions : Option Str → List DscLine → List (List Str × Option Str)
  | _, [] => []
  | cur, l :: ls =>
    let cur := (commentDescription l.text).or cur
    match l.kind with
    | .rule ts => (ts, cur) :: descriptions none ls
    | _ => descriptions cur ls

/-- Has the line a description? -/
def hasDescription (l : DscLine) : Bool := (commentDescription l.text).isSome

/-- After a rule, up to and with the line that ends it, there is at most one description. -/
def AtMostOne (ls : List DscLine) : Prop :=
  ∀ a r ts mid b, ls = a ++ r :: (mid ++ b) → r.kind = .rule ts → (∀ l ∈ mid.dropLast, l.kind = .other) → (mid.filter hasDescription).length ≤ 1

end Remake.Spec
