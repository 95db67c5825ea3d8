import Verif.PatSecond.Model
import Verif.Snap.Spec

/-!
# What second expansion in pattern rules is to give

The text of the prerequisites is cut into words before it is expanded: white space inside a reference does not end a word, and a bar does.
-/
namespace Remake.Spec
open Remake

/-- Text in which the parentheses match. -/
inductive ParenText (opn cls : Char) : Str → Prop
  | nil : ParenText opn cls []
  | char {c : Char} {t : Str} : c ≠ opn → c ≠ cls → c ≠ '\x00' → ParenText opn cls t → ParenText opn cls (c :: t)
  | group {a t : Str} : ParenText opn cls a → ParenText opn cls t → ParenText opn cls (opn :: a ++ cls :: t)

/-- The two kinds of parentheses. -/
def Parens (opn cls : Char) : Prop := (opn = '(' ∧ cls = ')') ∨ (opn = '{' ∧ cls = '}')

/-- `Pieces t`: a text of characters that do not end a word, of `$$`, of references to variables with names of one character and of references
in parentheses. -/
inductive Pieces : Str → Prop
  | nil : Pieces []
  | char {c : Char} {t : Str} : c ≠ '\x00' → c ≠ ' ' → c ≠ '\t' → c ≠ '|' → c ≠ '$' → Pieces t → Pieces (c :: t)
  | one {c : Char} {t : Str} : c ≠ '\x00' → c ≠ '(' → c ≠ '{' → Pieces t → Pieces ('$' :: c :: t)
  | ref {opn cls : Char} {a t : Str} : Parens opn cls → ParenText opn cls a → Pieces t → Pieces ('$' :: opn :: a ++ cls :: t)

/-- `Filled d w t`: `t` is the word `w` with `$*`, or `$(*F)` if there is a directory to be added, for its first percent sign. -/
def Filled (d : Bool) (w t : Str) : Prop :=
  ('%' ∉ w ∧ t = w) ∨ ∃ a b, w = a ++ '%' :: b ∧ '%' ∉ a ∧ t = a ++ (if d then "$(*F)".toList else "$*".toList) ++ b

/-- `WordLists g dir oo t ps oo'`: the expanded text `t` lists the prerequisites `ps`; `oo` is whether there was a bar before it and `oo'`
whether there was one by its end; `dir` is put in front of each name. -/
inductive WordLists (g : Str → Str) (dir : Str) : Bool → Str → List (Str × Bool) → Bool → Prop
  | normal {t : Str} {ns : List Str} : Listing endsName true ns t → (∀ w ∈ ns, PlainWord w) →
      WordLists g dir false t (ns.map fun w => (dir ++ g w, false)) false
  | both {t1 t2 : Str} {ns os : List Str} : Listing endsName false ns t1 → Listing isBlank true os t2 → (∀ w ∈ ns, PlainWord w) →
      (∀ w ∈ os, PlainWord w) →
      WordLists g dir false (t1 ++ '|' :: t2) (ns.map (fun w => (dir ++ g w, false)) ++ os.map fun w => (dir ++ g w, true)) true
  | order {t : Str} {ns : List Str} : Listing isBlank true ns t → (∀ w ∈ ns, PlainWord w) →
      WordLists g dir true t (ns.map fun w => (dir ++ g w, true)) true

/-- What a word stands for. -/
def WordMeans (g ex : Str → Str) (dir : Option Str) (oo : Bool) (w : Str) (ps : List (Str × Bool)) (oo' : Bool) : Prop :=
  ∃ t, Filled dir.isSome w t ∧ WordLists g (if '%' ∈ w then dir.getD [] else []) oo (ex t) ps oo'

/-- The text of prerequisites `t`, after a bar if `oo`, stands for the prerequisites `ps`. -/
inductive SecondText (g ex : Str → Str) (dir : Option Str) : Bool → Str → List (Str × Bool) → Prop
  | done {oo : Bool} {sp : Str} : Spaces sp → SecondText g ex dir oo sp []
  /-- a bar on its own -/
  | bar {sp rest : Str} {ps : List (Str × Bool)} : Spaces sp → SecondText g ex dir true rest ps →
      SecondText g ex dir false (sp ++ '|' :: rest) ps
  | word {oo oo' : Bool} {sp w rest : Str} {ps qs : List (Str × Bool)} : Spaces sp → Begins w → Pieces w →
      (rest = [] ∨ ∃ b r, rest = b :: r ∧ isBlank b = true) → WordMeans g ex dir oo w ps oo' → SecondText g ex dir oo' rest qs →
      SecondText g ex dir oo (sp ++ w ++ rest) (ps ++ qs)
  /-- a bar directly after a word, or a further bar -/
  | wordBar {oo oo' : Bool} {sp w rest : Str} {ps qs : List (Str × Bool)} : Spaces sp → (Begins w ∨ (w = [] ∧ oo = true)) → Pieces w →
      WordMeans g ex dir oo (w ++ ['|']) ps oo' → SecondText g ex dir oo' rest qs →
      SecondText g ex dir oo (sp ++ w ++ '|' :: rest) (ps ++ qs)

end Remake.Spec
