import Verif.Start.Model
import Verif.Files.Spec
/-!
# Specification of the start of make
-/
namespace Remake.Spec

/-! ## Goals -/

/-- A word that names a goal: it is not a lone `-` and no assignment. -/
def IsGoalWord (w : Str) : Prop := w ≠ ['-'] ∧ ∀ n f v, ¬ IsAssignment w n f v

/-- The file a goal names: `~` is expanded, if it can be, and leading `./` are removed. -/
def GoalName (tilde : Str → Option Str) (w n : Str) : Prop :=
  (w.head? ≠ some '~' ∧ Stripped w n) ∨
  (w.head? = some '~' ∧ ((∃ e, tilde w = some e ∧ e ≠ [] ∧ Stripped e n) ∨ ((tilde w = none ∨ tilde w = some []) ∧ Stripped w n)))

/-- The goals that words name, in order. -/
inductive GoalsOf (tilde : Str → Option Str) : List Str → List Str → Prop
  | nil : GoalsOf tilde [] []
  | skip {w : Str} {ws gs : List Str} : ¬ IsGoalWord w → GoalsOf tilde ws gs → GoalsOf tilde (w :: ws) gs
  | goal {w n : Str} {ws gs : List Str} : IsGoalWord w → GoalName tilde w n → GoalsOf tilde ws gs →
      GoalsOf tilde (w :: ws) (n :: gs)

/-! ## The environment -/

/-- An entry of the environment with a name and a value. -/
def IsEntry (e : Str) : Prop := nulChar ∉ e ∧ '=' ∈ e

/-- The last entry for a name gives it this value. -/
def LastEntry (es : List Str) (n v : Str) : Prop :=
  ∃ pre post, es = pre ++ (n ++ '=' :: v) :: post ∧ '=' ∉ n ∧ ∀ e ∈ post, ¬ (n ++ ['=']) <+: e

/-- The names that are not passed on. -/
def keptBack : List Str := ["SHELL".toList, "MAKE_RESTARTS".toList]

/-- The variable for an entry: recursive, from the environment, passed on unless `keptBack`.  `MAKE_RESTARTS` loses its
minus sign. -/
def FromEntry (n v : Str) (x : Var) : Prop :=
  x.origin = .env ∧ x.recursive = true ∧ (n ∈ keptBack → x.exp = .noexport) ∧ (n ∉ keptBack → x.exp = .export_) ∧
    ((n = "MAKE_RESTARTS".toList ∧ v = '-' :: x.value) ∨ ((n = "MAKE_RESTARTS".toList → v.head? ≠ some '-') ∧ x.value = v))

/-! ## Jobs -/

/-- An own limit: 0 is none. -/
def ownLimit (n : Nat) : JobLimit := if n = 0 then .unlimited else if n = 1 then .serial else .master n

/-- How jobs are limited: by `-j` of the command line, else by that of the makefiles, else by the jobserver of the parent; if
there is a jobserver that cannot be used, to one job; else by `-j` of the environment, else to one job. -/
inductive Limits (a : SlotArgs) : JobLimit → Prop
  | argv {n : Nat} : a.argv = some n → Limits a (ownLimit n)
  | makefile {n : Nat} : a.argv = none → a.makefile = some n → Limits a (ownLimit n)
  | client : a.argv = none → a.makefile = none → a.auth = true → a.usable = true → Limits a .client
  | broken : a.argv = none → a.makefile = none → a.auth = true → a.usable = false → Limits a .serial
  | env {n : Nat} : a.argv = none → a.makefile = none → a.auth = false → a.env = some n → Limits a (ownLimit n)
  | none : a.argv = .none → a.makefile = .none → a.auth = false → a.env = .none → Limits a .serial

end Remake.Spec
