import Verif.Base.Chars
/-!
# Where a line stands
-/
namespace Remake.Spec

/-- The line `l` stands in the text with line number `n`: there are `n - 1` newlines before it, the last of them directly before it. -/
def StandsAt (text l : Str) (n : Nat) : Prop :=
  ∃ a b, text = a ++ l ++ b ∧ n = a.count '\n' + 1 ∧ (a = [] ∨ a.getLast? = some '\n') ∧ (b = [] ∨ b.head? = some '\n')

/-- A line of a recipe. -/
def RecipeLine (pre : Char) (l : Str) : Prop := l.head? = some pre

/-- A line that holds nothing or only a comment. -/
def BlankOrComment (pre : Char) (l : Str) : Prop :=
  l.head? ≠ some pre ∧ ∃ a b, l = a ++ b ∧ (∀ c ∈ a, isSpace c = true) ∧ (b = [] ∨ b.head? = some '#')

end Remake.Spec
