import Verif.Load.Model
/-!
# Loading objects: the words of the statements
-/
namespace Remake.Spec

/-- The name has the form `object(symbol)`. -/
def HasSymbol (name : Str) : Prop := ∃ obj sym : Str, '(' ∉ obj ∧ ')' ∉ sym ∧ name = obj ++ '(' :: (sym ++ [')'])

/-- The name on a `load` line stands for this object and this setup function: `object(symbol)`, or else the object alone, with
the letters, digits and `_` its last part starts with, followed by `_gmk_setup`. -/
inductive LoadName : Str → Str → Str → Prop where
  | given (obj sym : Str) : '(' ∉ obj → ')' ∉ sym → sym ≠ [] → LoadName (obj ++ '(' :: (sym ++ [')'])) obj sym
  | made (dir stem rest : Str) : ¬ HasSymbol (dir ++ (stem ++ rest)) → (dir = [] ∨ dir.getLast? = some '/') →
      '/' ∉ stem → '/' ∉ rest → (∀ c ∈ stem, isAlnumC c = true ∨ c = '_') →
      (∀ c, rest.head? = some c → isAlnumC c = false ∧ c ≠ '_') →
      LoadName (dir ++ (stem ++ rest)) (dir ++ (stem ++ rest)) (stem ++ ['_', 'g', 'm', 'k', '_', 's', 'e', 't', 'u', 'p'])

/-- Names with single spaces between them. -/
def ldList : List Str → Str
  | [] => []
  | [a] => a
  | a :: b :: l => a ++ ' ' :: ldList (b :: l)

/-- The setup functions add functions only; they do not load objects themselves. -/
def NoNesting (env : DlEnv) : Prop :=
  ∀ h o s, ∀ a ∈ (env.setup h o s).1, ∃ name min max, a = .reg name min max

/-- Nothing open defines the symbol, nor does make itself. -/
def SymFree (env : DlEnv) (st : LdSt) (sym : Str) : Prop :=
  env.own sym = false ∧ ∀ o ∈ st.opened, env.syms o sym = false

/-- The linker finds the object: a name without a slash is tried in the working directory first. -/
def LdOpens (env : DlEnv) (obj : Str) (o : Nat) : Prop :=
  ('/' ∉ obj ∧ env.find ('.' :: '/' :: obj) = some o) ∨
  (('/' ∈ obj ∨ env.find ('.' :: '/' :: obj) = none) ∧ env.find obj = some o)

/-- A record of the calls of setup functions: the name on the line, the object it stands for, what was called, the result. -/
structure LdCall where
  word : Str
  obj : Str
  call : Option Nat × Str
  result : Int

/-- Each record has the result of its function, given the calls before it, and the name stands for that object and symbol. -/
def LogOk (env : DlEnv) : List (Option Nat × Str) → List LdCall → Prop
  | _, [] => True
  | before, c :: cs => LoadName c.word c.obj c.call.2 ∧ c.result = (env.setup before c.call.1 c.call.2).2 ∧
      LogOk env (before ++ [c.call]) cs

/-- The names on the lines of a history. -/
def lineNames : List LdEv → List Str
  | [] => []
  | .line _ ns :: es => ns ++ lineNames es
  | .remake _ :: es => lineNames es

end Remake.Spec
