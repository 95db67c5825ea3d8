import Verif.Files.Spec
/-!
# Lists of names with archive members

`lib(a b)` stands for `lib(a) lib(b)`.
-/
namespace Remake.Spec

/-- A plain word that may stand for an archive or a member: no blanks, quoting, parentheses, home directories or wildcards, and
no leading `./`. -/
def ArWord (special : Char → Bool) (m : Str) : Prop :=
  m ≠ [] ∧ (∀ c ∈ m, special c = false ∧ isSpace c = false ∧ c ∉ ['\\', '(', ')', '~', '?', '*', '[']) ∧ ¬ ['.', '/'] <+: m

/-- Only blanks. -/
def Blanks (s : Str) : Prop := ∀ c ∈ s, isBlank c = true

/-- The text between the parentheses lists the members. -/
inductive MemberRow (special : Char → Bool) : List Str → Str → Prop
  | nil {sp : Str} : Blanks sp → MemberRow special [] sp
  | last {sp m : Str} : Blanks sp → ArWord special m → MemberRow special [m] (sp ++ m)
  | cons {sp m r : Str} {b : Char} {ms : List Str} : Blanks sp → ArWord special m → isBlank b = true → MemberRow special ms r →
      MemberRow special (m :: ms) (sp ++ m ++ b :: r)

/-- An element of a list of names. -/
inductive ArItem where
  | word (w : Str)
  | members (lib : Str) (ms : List Str)

/-- The names an element stands for; `f` normalises file names. -/
def ArItem.names (f : Str → Str) : ArItem → List Str
  | .word w => [f w]
  | .members lib ms => ms.map fun m => lib ++ '(' :: m ++ [')']

/-- How elements are written. -/
inductive ItemText (special : Char → Bool) (e : Bool) : ArItem → Str → Prop
  | word {w t : Str} : PlainWord w → Begins t → Quoted special e t w → ItemText special e (.word w) t
  | members {lib r : Str} {ms : List Str} : ArWord special lib → MemberRow special ms r → r ≠ [] →
      ItemText special e (.members lib ms) (lib ++ '(' :: r ++ [')'])

/-- `ArListing special e items t`: the text `t` lists the elements, separated by blanks. -/
inductive ArListing (special : Char → Bool) : Bool → List ArItem → Str → Prop
  | nil {e : Bool} {sp : Str} : Spaces sp → ArListing special e [] sp
  | last {e : Bool} {sp t : Str} {i : ArItem} : Spaces sp → ItemText special e i t → ArListing special e [i] (sp ++ t)
  | cons {e : Bool} {sp t rest : Str} {i : ArItem} {b : Char} {is : List ArItem} : Spaces sp → ItemText special false i t →
      isBlank b = true → ArListing special e is rest → ArListing special e (i :: is) (sp ++ t ++ b :: rest)

end Remake.Spec
