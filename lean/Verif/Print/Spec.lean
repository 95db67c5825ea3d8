import Verif.Print.Model
import Verif.Var.Spec
import Verif.Quote.Spec
import Verif.Read.LineSpec
import Verif.Read.CondSpec
/-!
# When a printed variable can be read again
-/
namespace Remake.Spec

/-- A name without characters that mean something in an assignment. -/
def PrintableName (n : Str) : Prop :=
  n ≠ [] ∧ ∀ c ∈ n, c ≠ '$' ∧ c ≠ '#' ∧ c ≠ ':' ∧ c ≠ '=' ∧ c ≠ '\x00' ∧ isSpace c = false

/-- Nothing but white space, and some of it. -/
def AllBlank (v : Str) : Prop := v ≠ [] ∧ ∀ c ∈ v, isSpace c = true

/-- A text that is one whole line of a file: reading does not cut it, continue it, or drop a character from its end. -/
def PrintedLine (t : Str) : Prop := '\n' ∉ t ∧ '\x00' ∉ t ∧ ¬ EndsOdd t ∧ t.getLast? ≠ some '\r'

/-- A value that can stand on the line of an assignment. -/
def OneLineValue (v : Var) : Prop :=
  PrintedLine v.value ∧ v.value.head?.all (fun c => !isSpace c) = true ∧
    if v.recursive = true then CommentRead v.value v.value none else '#' ∉ v.value

/-- A value that can stand in a `define`: its lines are whole lines, and each `define` among them has its `endef`,
without comment. -/
def ManyLinesValue (posix : Bool) (pre : Char) (v : Var) : Prop :=
  v.recursive = true ∧ ∃ ls : List Str, 2 ≤ ls.length ∧ v.value = ['\n'].intercalate ls ∧
    (∀ l ∈ ls, PrintedLine l ∧ (Closes posix pre l → '#' ∉ l)) ∧ Nested posix pre ls

/-- A global variable whose printed definition can be read again, where `pre` is the recipe prefix. -/
def Printable (posix : Bool) (pre : Char) (p : PrintedVar) : Prop :=
  PrintableName p.name ∧ p.var.origin ≠ .invalid ∧ p.var.append = false ∧
  (∀ f n, p.loc = some (f, n) → '\n' ∉ f ∧ '\x00' ∉ f) ∧
  ((AllBlank p.var.value ∧ '\n' ∉ p.var.value) ∨ OneLineValue p.var ∨
    (ManyLinesValue posix pre p.var ∧ ¬ EndsOdd p.name))

/-- The value the variable has afterwards: the same, except that the text of a recursive one that is all white
space is a call of `subst`. -/
def BackValue (v : Var) (t : Str) : Prop :=
  (¬ (v.recursive = true ∧ AllBlank v.value ∧ '\n' ∉ v.value) → t = v.value) ∧
  ((v.recursive = true ∧ AllBlank v.value ∧ '\n' ∉ v.value) → t = "$(subst ,,".toList ++ v.value ++ [')'])

/-- Assignments expand texts as the model of expansion does, to the depth `fuel`; texts whose expansion changes
nothing leave the state as it is. -/
def ExpandsAs (E : DefEnv) (ext : List (VarSet × Bool) → Str → List Str → Option Str) (fuel : Nat) : Prop :=
  ∀ st t out, (∀ x : XState, expand ext fuel x t = .ok out x) → E.expand st t = (st, out)

/-- `$(subst from,to,text)` replaces `from` by `to`; here only for an empty `from`, which occurs once, at the end. -/
def SubstOk (ext : List (VarSet × Bool) → Str → List Str → Option Str) : Prop :=
  ∀ ch t, ext ch "subst".toList [[], [], t] = some t

/-- The reader carries out assignments on the variable sets; once it has stopped (`none`) nothing happens. -/
structure CarriesOut (E : RdEnv (Option DefState)) (D : DefEnv) : Prop where
  assign : ∀ s m q, E.assign s m q = s.bind fun st => assignLine D st m q
  define : ∀ s m q b, E.define s m q b = s.bind fun st => defineLine D st m q b

end Remake.Spec
