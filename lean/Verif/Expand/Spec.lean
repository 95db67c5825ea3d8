import Verif.Expand.Model
import Verif.Var.Spec
/-!
# Specification vocabulary for expansion
-/
namespace Remake.Spec
open Remake

/-- The names of the functions. -/
def functionNames : List String :=
  ["abspath", "addprefix", "addsuffix", "basename", "dir", "notdir", "subst", "suffix", "filter",
   "filter-out", "findstring", "firstword", "flavor", "join", "lastword", "patsubst", "realpath",
   "shell", "sort", "strip", "wildcard", "word", "wordlist", "words", "origin", "foreach", "call",
   "info", "error", "warning", "if", "or", "and", "value", "eval", "file", "debugger"]

/-- The text in brackets is a function call: the name of a function, a blank, the arguments. -/
def IsCall (body : Str) : Prop :=
  ∃ f ∈ functionNames, ∃ b rest, body = f.toList ++ b :: rest ∧ isSpace b = true

/-- The text in the brackets of a reference: brackets match, and if the closing bracket occurs
inside, it is a call or a `$` comes before (only then are brackets counted). -/
def RefText (o c : Char) (body : Str) : Prop :=
  Matched o c body ∧ (c ∉ body ∨ '$' ∈ body.takeWhile (· ≠ c) ∨ IsCall body)

/-- A text in which no reference is left open. -/
inductive Closed : Str → Prop
  | nil : Closed []
  | char {c s} : c ≠ '$' → Closed s → Closed (c :: s)
  | dollar {s} : Closed s → Closed ('$' :: '$' :: s)
  | var {c s} : c ≠ '$' → c ≠ '(' → c ≠ '{' → Closed s → Closed ('$' :: c :: s)
  | paren {b s} : RefText '(' ')' b → Closed s → Closed ('$' :: '(' :: b ++ ')' :: s)
  | brace {b s} : RefText '{' '}' b → Closed s → Closed ('$' :: '{' :: b ++ '}' :: s)

/-- A plain variable name: no reference, bracket, colon, and no blank (so no function call). -/
def PlainName (n : Str) : Prop :=
  n ≠ [] ∧ ∀ c ∈ n, c ≠ '$' ∧ c ≠ ')' ∧ c ≠ '(' ∧ c ≠ ':' ∧ isSpace c = false

/-- A reference to a variable. -/
def refTo (n : Str) : Str := '$' :: '(' :: n ++ [')']

/-- Texts put together with single blanks; there is none before the first text that is not empty. -/
def joinTexts (l : List Str) : Str := l.foldl (fun acc x => if acc = [] then x else acc ++ ' ' :: x) []

/-- Operations on the output buffer: adding text, and taking back the last character. -/
inductive BufOp where
  | out (s : Str)
  | back

/-- The text that the operations amount to. -/
def BufOp.text (acc : Str) : BufOp → Str
  | .out s => acc ++ s
  | .back => acc.dropLast

/-- The operations on the buffer; `fills` is what the memory obtained holds. -/
def BufOp.run (fill : Char) (b : Buf) : BufOp → Option Buf
  | .out s => bufferOutput fill b s
  | .back => some { b with pos := b.pos - 1 }

/-- All of them. -/
def BufOp.runAll (fill : Char) : List BufOp → Buf → Option Buf
  | [], b => some b
  | op :: ops, b => (op.run fill b).bind (runAll fill ops)

/-- The text does not mention `call`. -/
def NoCall (s : Str) : Prop := ¬ ['c', 'a', 'l', 'l'] <:+: s

/-- Finitely many variables are defined. -/
def FinitelyMany (chain : List (VarSet × Bool)) : Prop :=
  ∃ names : List Str, ∀ s ∈ chain, ∀ n v, s.1 n = some v → n ∈ names

/-- What a name means. -/
def meaning (st : XState) (n : Str) : Option Str := (lookupVariable st.chain n).map (·.value)

end Remake.Spec

namespace Remake.Spec
open Remake

/-- The text of an argument: brackets match, and commas are inside brackets. -/
inductive ArgText (o c : Char) : Str → Prop
  | nil : ArgText o c []
  | char {a s} : a ≠ o → a ≠ c → a ≠ ',' → ArgText o c s → ArgText o c (a :: s)
  | nest {s t} : Matched o c s → ArgText o c t → ArgText o c (o :: s ++ c :: t)

/-- Texts with commas between them. -/
def joinArgs : List Str → Str
  | [] => []
  | [a] => a
  | a :: b :: r => a ++ ',' :: joinArgs (b :: r)

/-- A function call as it is written. -/
def fnText (f : String) (ts : List Str) : Str := '$' :: '(' :: f.toList ++ ' ' :: joinArgs ts ++ [')']

/-- Texts that can be the arguments of a call. -/
def ArgTexts (ts : List Str) : Prop :=
  ts ≠ [] ∧ (∀ t ∈ ts, ArgText '(' ')' t) ∧ ∀ t, ts.head? = some t → ∀ c, t.head? = some c → isSpace c = false

/-- Texts are expanded one after the other. -/
inductive ExpandAll (rec : XState → Str → XRes Str) : List Str → XState → List Str → XState → Prop
  | nil {st} : ExpandAll rec [] st [] st
  | cons {t ts st v st1 vs st2} : rec st t = .ok v st1 → ExpandAll rec ts st1 vs st2 →
      ExpandAll rec (t :: ts) st (v :: vs) st2

/-- `st2` is the state in which the body of a function called with the arguments `vals` is
expanded: `$(0)`, `$(1)`, ... are exactly the arguments, those which only outer calls have
bound are empty, and everything else means what it meant before. -/
structure CallScope (ext : List (VarSet × Bool) → Str → List Str → Option Str) (st1 st2 : XState)
    (vals : List Str) : Prop where
  args : ∀ fuel i v, vals[i]? = some v → expand ext (fuel + 1) st2 (refTo (argName i)) = .ok v st2
  hidden : ∀ fuel i, vals.length ≤ i → i < st1.maxArgs → expand ext (fuel + 1) st2 (refTo (argName i)) = .ok [] st2
  others : ∀ n, (∀ i, i < max vals.length st1.maxArgs → n ≠ argName i) →
    lookupVariable st2.chain n = lookupVariable st1.chain n
  bound : st2.maxArgs = max vals.length st1.maxArgs

/-- The body of a `foreach` is expanded once for every word, with the variable bound to the
word and everything else as outside; `outs` are the results. -/
inductive EachWord (rec : XState → Str → XRes Str) (var body : Str) (chain : List (VarSet × Bool)) :
    List Str → XState → List Str → XState → Prop
  | nil {st} : EachWord rec var body chain [] st [] st
  | cons {w ws st st0 out st1 outs st2} :
      (lookupVariable st0.chain var).map (fun v => (v.value, v.recursive)) = some (w, false) →
      (∀ n, n ≠ var → lookupVariable st0.chain n = lookupVariable chain n) →
      st0.maxArgs = st.maxArgs → st0.expanding = st.expanding → st0.count = st.count →
      rec st0 body = .ok out st1 → EachWord rec var body chain ws st1 outs st2 →
      EachWord rec var body chain (w :: ws) st (out :: outs) st2

/-- The variables named by `C` are recursive and the value of each refers to one of them. -/
def Cyclic (chain : List (VarSet × Bool)) (C : Str → Prop) : Prop :=
  ∀ n, C n → PlainName n ∧ ∃ v a n' b, lookupVariable chain n = some v ∧ v.recursive = true ∧ v.append = false ∧
    v.value = a ++ refTo n' ++ b ∧ Closed a ∧ C n'

/-- The values of recursive variables do not mention `call`. -/
def NoCallValues (chain : List (VarSet × Bool)) : Prop :=
  ∀ x ∈ chain, ∀ n v, x.1 n = some v → v.recursive = true → NoCall v.value

end Remake.Spec
