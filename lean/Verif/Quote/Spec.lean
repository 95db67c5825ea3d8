import Verif.Base.Chars
/-! Specification vocabulary for C18: comments on makefile lines. -/
namespace Remake.Spec
open Remake

/-- The bracket pairs of a variable reference. -/
def Brackets (o c : Char) : Prop := (o = '(' ∧ c = ')') ∨ (o = '{' ∧ c = '}')

/-- In `body` no closing bracket is unmatched. -/
def NoEarlyClose (o c : Char) (body : Str) : Prop :=
  ∀ p, p <+: body → p.count c ≤ p.count o

/-- `CommentRead line kept comment`: the text `kept` remains of the line, and `comment` is what
follows an unquoted `#`.  A `#` inside a variable reference does not count; backslashes directly
before a `#` quote each other in pairs and an odd one quotes the `#`. -/
inductive CommentRead : Str → Str → Option Str → Prop where
  | nil : CommentRead [] [] none
  /-- a lone `$` at the end -/
  | lone : CommentRead ['$'] ['$'] none
  | char {c : Char} {rest kept : Str} {com : Option Str} : c ≠ '#' → c ≠ '\\' → c ≠ '$' →
      CommentRead rest kept com → CommentRead (c :: rest) (c :: kept) com
  /-- `$` before a backslash is an ordinary character -/
  | dollarBs {rest kept : Str} {com : Option Str} : rest.head? = some '\\' →
      CommentRead rest kept com → CommentRead ('$' :: rest) ('$' :: kept) com
  /-- `$x`: the character after `$` is never a comment sign -/
  | dollar {o : Char} {rest kept : Str} {com : Option Str} : o ≠ '(' → o ≠ '{' → o ≠ '\\' →
      CommentRead rest kept com → CommentRead ('$' :: o :: rest) ('$' :: o :: kept) com
  /-- `$(...)` up to the matching bracket is taken verbatim -/
  | ref {o c : Char} {body rest kept : Str} {com : Option Str} : Brackets o c →
      NoEarlyClose o c body → body.count c = body.count o → CommentRead rest kept com →
      CommentRead ('$' :: o :: body ++ c :: rest) ('$' :: o :: body ++ c :: kept) com
  /-- an unterminated reference extends to the end of the line -/
  | unterminated {o c : Char} {body : Str} : Brackets o c → NoEarlyClose o c body →
      CommentRead ('$' :: o :: body) ('$' :: o :: body) none
  /-- backslashes not before a `#` are ordinary characters -/
  | backslashes {k : Nat} {rest kept : Str} {com : Option Str} : 0 < k →
      rest.head? ≠ some '\\' → rest.head? ≠ some '#' → CommentRead rest kept com →
      CommentRead (List.replicate k '\\' ++ rest) (List.replicate k '\\' ++ kept) com
  | cut {k : Nat} {comment : Str} :
      CommentRead (List.replicate (2 * k) '\\' ++ '#' :: comment) (List.replicate k '\\') (some comment)
  | quoted {k : Nat} {rest kept : Str} {com : Option Str} : CommentRead rest kept com →
      CommentRead (List.replicate (2 * k + 1) '\\' ++ '#' :: rest)
        (List.replicate k '\\' ++ '#' :: kept) com

/-- A text in which `\` before `ch` has been undone: an odd run of backslashes directly before
`ch` is halved, all other backslashes stay. -/
inductive Unescaped (ch : Char) : Str → Str → Prop where
  | nil : Unescaped ch [] []
  | char {c : Char} {rest out : Str} : c ≠ '\\' → Unescaped ch rest out →
      Unescaped ch (c :: rest) (c :: out)
  | kept {k : Nat} {rest out : Str} : 0 < k → rest.head? ≠ some '\\' →
      (rest.head? ≠ some ch ∨ k % 2 = 0) → Unescaped ch rest out →
      Unescaped ch (List.replicate k '\\' ++ rest) (List.replicate k '\\' ++ out)
  | halved {k : Nat} {rest out : Str} : Unescaped ch rest out →
      Unescaped ch (List.replicate (2 * k + 1) '\\' ++ ch :: rest)
        (List.replicate k '\\' ++ ch :: out)

end Remake.Spec
