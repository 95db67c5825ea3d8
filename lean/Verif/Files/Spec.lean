import Verif.Base.Chars
import Verif.Text.Spec
/-! Specification vocabulary for file names in makefiles and for merging of rules (C33, C34, C35,
C57, C68, C69). -/
namespace Remake.Spec
open Remake

/-! ## Names -/

/-- A sequence of `./`, each with any number of further slashes. -/
inductive Dots : Str → Prop where
  | nil : Dots []
  | more {k : Nat} {d : Str} : Dots d → Dots ('.' :: '/' :: (List.replicate k '/' ++ d))

/-- `Stripped s n`: `n` is what is left of `s` without its leading `./` sequences; a name
that is nothing else is `./`. -/
def Stripped (s n : Str) : Prop :=
  ∃ d r, s = d ++ r ∧ Dots d ∧ (d ≠ [] → r.head? ≠ some '/') ∧ ¬ ['.', '/'] <+: r ∧
    n = if r = [] then ['.', '/'] else r

/-! ## Lists of names -/

/-- `Quoted special e t w`: the text `t` stands for the name `w` when `special` characters end a
name.  Backslashes before a special character of the name are doubled and one more is added; all
other backslashes stand for themselves.  At the end of the name backslashes are doubled too,
unless it is the end of the text (`e`). -/
inductive Quoted (special : Char → Bool) : Bool → Str → Str → Prop where
  | nil {e : Bool} : Quoted special e [] []
  | char {e : Bool} {k : Nat} {c : Char} {t w : Str} : special c = false → c ≠ '\\' →
      Quoted special e t w →
      Quoted special e (List.replicate k '\\' ++ c :: t) (List.replicate k '\\' ++ c :: w)
  | quoted {e : Bool} {k : Nat} {c : Char} {t w : Str} : special c = true →
      Quoted special e t w →
      Quoted special e (List.replicate (2 * k + 1) '\\' ++ c :: t) (List.replicate k '\\' ++ c :: w)
  | mid {k : Nat} : Quoted special false (List.replicate (2 * k) '\\') (List.replicate k '\\')
  | atEnd {k : Nat} : Quoted special true (List.replicate k '\\') (List.replicate k '\\')

/-- Only white space. -/
def Spaces (s : Str) : Prop := ∀ c ∈ s, isSpace c = true

/-- The text begins with a character that is not white space. -/
def Begins (t : Str) : Prop := ∃ c cs, t = c :: cs ∧ isSpace c = false

/-- `Listing special e ws t`: the text `t` lists the names `ws`. -/
inductive Listing (special : Char → Bool) : Bool → List Str → Str → Prop where
  | nil {e : Bool} {sp : Str} : Spaces sp → Listing special e [] sp
  | last {e : Bool} {sp t w : Str} : Spaces sp → Begins t → Quoted special e t w →
      Listing special e [w] (sp ++ t)
  | cons {e : Bool} {sp t w rest : Str} {b : Char} {ws : List Str} : Spaces sp → Begins t →
      Quoted special false t w → isBlank b = true → Listing special e ws rest →
      Listing special e (w :: ws) (sp ++ t ++ b :: rest)

/-- A name without the characters that stand for something else: no archive member, no home
directory, no wildcards. -/
def PlainWord (w : Str) : Prop :=
  '(' ∉ w ∧ '~' ∉ w ∧ '?' ∉ w ∧ '*' ∉ w ∧ '[' ∉ w

/-! ## Rules for one target -/

/-- What one mention of a target in a rule contributes: the prerequisites (any type) and
the recipe. -/
structure Mention (α : Type) where
  deps : List α
  recipe : Option Nat

/-- The prerequisites given with recipes, those of the latest rule first. -/
def withRecipe {α : Type} (ms : List (Mention α)) : List α :=
  (ms.filter (·.recipe.isSome)).reverse.flatMap (·.deps)

/-- The prerequisites given without recipes, in reading order. -/
def withoutRecipe {α : Type} (ms : List (Mention α)) : List α :=
  (ms.filter (·.recipe.isNone)).flatMap (·.deps)

/-- The recipes given, in reading order. -/
def recipes {α : Type} (ms : List (Mention α)) : List Nat := ms.filterMap (·.recipe)

/-- The changes in a list of recipes: each one that differs from the one before it, with that
one. -/
def changes : List Nat → List (Nat × Nat)
  | a :: b :: l => if a = b then changes (b :: l) else (b, a) :: changes (b :: l)
  | _ => []

/-! ## Static pattern rules -/

/-- The text with the stem in the place of the percent sign. -/
def fillStem (stem : Str) : Pct → Str
  | .lit t => t
  | .pat a b => a ++ stem ++ b

/-! ## The default goal -/

/-- A name that starts with a dot and has no slash. -/
def DotName (n : Str) : Prop := n.head? = some '.' ∧ '/' ∉ n

/-- The target of a suffix rule: one suffix or two. -/
def SuffixName (suffixes : List Str) (n : Str) : Prop :=
  n ∈ suffixes ∨ ∃ a ∈ suffixes, ∃ b ∈ suffixes, n = a ++ b

end Remake.Spec
