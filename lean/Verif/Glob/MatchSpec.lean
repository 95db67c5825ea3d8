import Verif.Base.Chars
/-! What wildcard patterns mean. -/
namespace Remake.Spec

/-- An item between brackets. -/
inductive SetItem where
  | ch (c : Char)
  | range (a b : Char)
deriving DecidableEq, Repr

/-- A part of a pattern; `esc`: the character is written after a backslash. -/
inductive GItem where
  | lit (esc : Bool) (c : Char)
  | any
  | star
  | set (neg : Bool) (items : List SetItem)
deriving DecidableEq, Repr

/-- The characters of an item between brackets. -/
def SetItem.has : SetItem → Char → Prop
  | .ch c, x => x = c
  | .range a b, x => a ≤ x ∧ x ≤ b

instance (i : SetItem) (x : Char) : Decidable (i.has x) := by
  cases i <;> unfold SetItem.has <;> infer_instance

/-- Is the character one of a bracket? -/
def inSet (neg : Bool) (items : List SetItem) (x : Char) : Prop :=
  (∃ i ∈ items, i.has x) ↔ neg = false

/-- The text of an item between brackets. -/
def SetItem.text : SetItem → Str
  | .ch c => [c]
  | .range a b => [a, '-', b]

/-- The text of a pattern. -/
def GItem.text : GItem → Str
  | .lit true c => ['\\', c]
  | .lit false c => [c]
  | .any => ['?']
  | .star => ['*']
  | .set neg items => '[' :: (if neg then ['!'] else []) ++ items.flatMap SetItem.text ++ [']']

/-- The text of a pattern. -/
def patText (ps : List GItem) : Str := ps.flatMap GItem.text

/-- The name matches the pattern.  `slashes`: a slash is matched only by a slash; `bar`: the name starts here and a period here is matched
only by a period at the start of the pattern. -/
inductive Matches (slashes period : Bool) : (bar : Bool) → List GItem → Str → Prop where
  | nil (bar) : Matches slashes period bar [] []
  | lit (bar esc c ps s) (h : Matches slashes period (slashes && period && c == '/') ps s) :
      Matches slashes period bar (.lit esc c :: ps) (c :: s)
  | any (bar x ps s) (h1 : ¬ (slashes = true ∧ x = '/')) (h2 : ¬ (bar = true ∧ x = '.'))
      (h : Matches slashes period (slashes && period && x == '/') ps s) : Matches slashes period bar (.any :: ps) (x :: s)
  | set (bar x neg items ps s) (h1 : ¬ (slashes = true ∧ x = '/')) (h2 : ¬ (bar = true ∧ x = '.')) (h3 : inSet neg items x)
      (h : Matches slashes period (slashes && period && x == '/') ps s) :
      Matches slashes period bar (.set neg items :: ps) (x :: s)
  | star (bar u ps s) (h1 : ¬ (slashes = true ∧ '/' ∈ u)) (h2 : ¬ (bar = true ∧ (u ++ s).head? = some '.'))
      (h : Matches slashes period (bar && u.isEmpty) ps s) : Matches slashes period bar (.star :: ps) (u ++ s)

/-- A character that has no special meaning between brackets. -/
def plainInSet (c : Char) : Prop := c ∉ "]\\-[".toList

/-- An item between brackets that is written without special characters; a range goes upward from an ASCII character. -/
def SetItem.plain : SetItem → Prop
  | .ch c => plainInSet c
  | .range a b => plainInSet a ∧ plainInSet b ∧ a.toNat < 128 ∧ a ≤ b

/-- A part whose text means it: characters with a meaning are escaped, brackets are not empty and have plain characters, the first
one does not negate. -/
def GItem.plain (noescape : Bool) : GItem → Prop
  | .lit true _ => noescape = false
  | .lit false c => c ∉ "*?[".toList ∧ (c = '\\' → noescape = true)
  | .any => True
  | .star => True
  | .set neg items => items ≠ [] ∧ (∀ i ∈ items, i.plain) ∧
      (neg = false → (items.flatMap SetItem.text).head? ≠ some '!' ∧ (items.flatMap SetItem.text).head? ≠ some '^')

end Remake.Spec
