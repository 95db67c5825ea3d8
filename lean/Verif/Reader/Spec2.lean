import Verif.Reader.Model
import Verif.Files.Spec
import Verif.Quote.Spec
import Verif.Text.Spec
import Verif.Var.Spec
/-! Specification vocabulary for rule lines (C88) and modifiers of assignments (C90). -/
namespace Remake.Spec
open Remake

variable {σ : Type}

/-! ## Words of a rule line -/

/-- A word of a rule line: text without blanks, colons and equals signs, except in references and after a backslash.  It
does not end in an ampersand or a lone backslash. -/
inductive Piece : Str → Prop where
  | nil : Piece []
  | char {c : Char} {w : Str} : c ≠ ' ' → c ≠ '\t' → c ≠ '=' → c ≠ ':' → c ≠ '$' → c ≠ '\\' → c ≠ '&' →
      Piece w → Piece (c :: w)
  | amp {w : Str} : w ≠ [] → Piece w → Piece ('&' :: w)
  | bs {c : Char} {w : Str} : c ≠ ';' → c ≠ '\\' → Piece (c :: w) → Piece ('\\' :: c :: w)
  | quoted {c : Char} {w : Str} : c = ':' ∨ c = ';' ∨ c = '=' ∨ c = '\\' → Piece w → Piece ('\\' :: c :: w)
  | dollar {c : Char} {w : Str} : c ≠ '(' → c ≠ '{' → Piece w → Piece ('$' :: c :: w)
  | ref {o c : Char} {body w : Str} : Brackets o c → NoEarlyClose o c body → body.count c = body.count o →
      Piece w → Piece ('$' :: o :: (body ++ c :: w))

/-- The blanks before a word, and the word. -/
structure Lead where
  sep : Str
  word : Str

/-- Words with blanks before each of them; there may be none before the first. -/
def WordRow (ps : List Lead) : Prop :=
  (∀ p ∈ ps, (∀ c ∈ p.sep, isBlank c = true) ∧ Piece p.word ∧ p.word ≠ [] ∧ p.word.head? ≠ some ';') ∧
    ∀ p ∈ ps.tail, p.sep ≠ []

/-- The text of words and blanks. -/
def leadText (ps : List Lead) : Str := ps.flatMap fun p => p.sep ++ p.word

/-- The signs between targets and prerequisites. -/
inductive RuleSign where
  | colon | dcolon | ampcolon | ampdcolon
deriving DecidableEq, Repr

/-- How they are written. -/
def RuleSign.text : RuleSign → Str
  | .colon => [':']
  | .dcolon => [':', ':']
  | .ampcolon => ['&', ':']
  | .ampdcolon => ['&', ':', ':']
/-- The targets are made together. -/
def RuleSign.grouped : RuleSign → Bool
  | .ampcolon | .ampdcolon => true
  | _ => false
/-- The rule is independent of other rules for its targets. -/
def RuleSign.double : RuleSign → Bool
  | .dcolon | .ampdcolon => true
  | _ => false
/-- The text after the sign does not make it another one: a colon is followed neither by a colon nor by an equals sign;
after two colons the second character is not an equals sign. -/
def RuleSign.Ends (rest stale : Str) : RuleSign → Prop
  | .colon => rest.head? ≠ some ':' ∧ rest.head? ≠ some '='
  | .dcolon => rest.tail.head? ≠ some '=' ∧ (rest = [] → stale.head? ≠ some '=')
  | .ampcolon => rest.head? ≠ some ':'
  | .ampdcolon => True

/-- Expanding texts one after the other. -/
def expandAll (x : σ → Str → σ × Str) : σ → List Str → σ × List Str
  | s, [] => (s, [])
  | s, t :: ts =>
    let e := x s t
    let r := expandAll x e.1 ts
    (r.1, e.2 :: r.2)

/-- Expansion leaves text without `$` alone. -/
def LiteralText (x : σ → Str → σ × Str) : Prop := ∀ s t, '$' ∉ t → x s t = (s, t)

/-- The targets of a rule as text: the expansions of the words, each followed by a space. -/
def targetText (ts : List Str) : Str := ts.flatMap fun t => t ++ [' ']

/-- The text after the first unquoted equals sign is looked for: backslashes before equals signs up to it are
undone. -/
def EqualsUndone (t u : Str) : Prop :=
  ∃ p, ReadsAs '=' t p ∧ u = match p with
    | .lit s => s
    | .pat a b => a ++ '=' :: b

/-! ## Modifiers -/

/-- The three words that may precede an assignment. -/
inductive Modifier where
  | export_ | override | private_
deriving DecidableEq, Repr

def Modifier.text : Modifier → Str
  | .export_ => "export".toList
  | .override => "override".toList
  | .private_ => "private".toList

def Modifier.set : Modifier → VMods → VMods
  | .export_, m => { m with exportV := true }
  | .override, m => { m with overrideV := true }
  | .private_, m => { m with privateV := true }

/-- The text is a variable assignment. -/
def Assigns (p : Str) : Prop := ∃ n f v, IsAssignment p n f v

/-- The text is the word `w` and then `rest`, which begins with no white space. -/
def WordThen (w p rest : Str) : Prop :=
  ∃ sp, p = w ++ sp ++ rest ∧ Spaces sp ∧ (rest ≠ [] → sp ≠ [] ∧ Begins rest)

/-- `Modified p m q`: the text `p` is modifiers `m` followed by `q`, which is an assignment, or a name to be defined or
undefined.  A modifier's name may itself be assigned to. -/
inductive Modified : Str → VMods → VMods → Str → Prop where
  | assign {p : Str} {m : VMods} : Assigns p → Modified p m m p
  | define {p q : Str} {m : VMods} : ¬ Assigns p → WordThen "define".toList p q →
      Modified p m { m with defineV := true } q
  | undefine {p q : Str} {m : VMods} : ¬ Assigns p → WordThen "undefine".toList p q →
      Modified p m { m with undefineV := true } q
  | modifier {k : Modifier} {p r q : Str} {m m' : VMods} : ¬ Assigns p → WordThen k.text p r → r ≠ [] →
      Modified r (k.set m) m' q → Modified p m m' q

/-- The line is an assignment, a `define` or an `undefine`. -/
def AssignLine (line : Str) (m : VMods) (q : Str) : Prop :=
  ∃ sp p, line = sp ++ p ∧ Spaces sp ∧ Begins p ∧ Modified p {} m q

end Remake.Spec
