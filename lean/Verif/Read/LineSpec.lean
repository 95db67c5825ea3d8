import Verif.Base.Chars
import Verif.Text.Spec
/-!
# What the logical lines of a makefile are
-/
namespace Remake.Spec

/-- The text ends in an odd number of backslashes: a newline after it is escaped. -/
def EndsOdd (s : Str) : Prop :=
  ∃ a n, s = a ++ List.replicate n '\\' ∧ a.getLast? ≠ some '\\' ∧ n % 2 = 1

/-- Every newline in the text is escaped. -/
def AllEscaped (l : Str) : Prop := ∀ a b, l = a ++ '\n' :: b → EndsOdd a

/-- The logical lines of a text: it is cut at exactly the newlines that are not escaped;
the last line may lack its newline. -/
inductive LogicalLines : Str → List Str → Prop
  | nil : LogicalLines [] []
  | last {l : Str} (hne : l ≠ []) (he : AllEscaped l) : LogicalLines l [l]
  | line {l rest : Str} {ls : List Str} (he : AllEscaped l) (ho : ¬ EndsOdd l)
      (h : LogicalLines rest ls) : LogicalLines (l ++ '\n' :: rest) (l :: ls)

/-- The same, with the number of newline characters each line took up; a last line
without any newline counts 1. -/
inductive CountedLines : Str → List (Str × Int) → Prop
  | nil : CountedLines [] []
  | last {l : Str} (hne : l ≠ []) (he : AllEscaped l) :
      CountedLines l [(l, (max 1 (l.count '\n') : Nat))]
  | line {l rest : Str} {ls : List (Str × Int)} (he : AllEscaped l) (ho : ¬ EndsOdd l)
      (h : CountedLines rest ls) :
      CountedLines (l ++ '\n' :: rest) ((l, (l.count '\n' + 1 : Nat)) :: ls)

end Remake.Spec
