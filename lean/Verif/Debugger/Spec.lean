import Verif.Debugger.Model
/-! Specification vocabulary for C53, C55 and C66. -/
namespace Remake.Spec
open Remake

/-- A breakpoint as the user sees it. -/
structure Bp where
  num : Nat
  target : Nat
  mask : Nat
deriving DecidableEq, Repr

/-- The commands on a plain list: how many breakpoints have been made, and those that are left. -/
def bpStep (s : Nat × List Bp) : BpCmd → Nat × List Bp
  | .break_ t m => (s.1 + 1, s.2 ++ [⟨s.1 + 1, t, m⟩])
  | .delete i => (s.1, s.2.filter (fun b => b.num ≠ i))
  | .deleteAll => (s.1, [])

/-- The list after a sequence of commands. -/
def bpList (cmds : List BpCmd) : Nat × List Bp := cmds.foldl bpStep (0, [])

/-- What `break` without arguments shows. -/
def shown (st : BpState) : Option (List Bp) :=
  (listBreakpoints st.heap (st.fresh + 1) st.top).map (·.map fun n => ⟨n.num, n.target, n.mask⟩)

/-- A sequence of commands from the start. -/
def bpRun (cmds : List BpCmd) : Option BpState :=
  cmds.foldlM (fun st c => c.run st) BpState.init

/-- Words separated by single blanks. -/
def spaced : List Str → Str
  | [] => []
  | [w] => w
  | w :: ws => w ++ ' ' :: spaced ws

/-- A word: not empty and without blanks or tabs. -/
def WhiteFree (w : Str) : Prop := w ≠ [] ∧ ∀ c ∈ w, isWhite c = false

/-- The command a word stands for: a name of the table, or an alias for one. -/
inductive Means : Str → Char → Prop
  | name {n c} : (n, c) ∈ dbgCommands → Means n c
  | alias {a n c} : (n, a) ∈ dbgAliases → (n, c) ∈ dbgCommands → Means a c

end Remake.Spec
