import Verif.Debugger.Step
/-!
# Stops of the debugger: the words the properties are stated in
-/
namespace Remake.Spec

/-- The target has a breakpoint for what happens at the place: bit 0 before the prerequisites, 1 after
them, 2 at the end. -/
def BreakpointAt (tracing : Nat → Nat) : Place → Prop
  | .before t _ => (tracing t).testBit 0
  | .after t => (tracing t).testBit 1
  | .ended t => (tracing t).testBit 2
  | _ => False

/-- The places that `step` counts: before targets with recipes, at their ends, before commands. -/
def StepPlace : Place → Prop
  | .before _ cmds => cmds = true
  | .ended _ => True
  | .command _ => True
  | _ => False

/-- The places that `next` counts: targets with recipes that do not exist. -/
def NextPlace : Place → Prop
  | .missing _ cmds => cmds = true
  | _ => False

/-- Part of the ordinary course of a run, as opposed to errors, calls of `$(debugger)`, reading of
makefiles and goals that are up to date. -/
def Ordinary : Place → Prop
  | .before .. | .missing .. | .after .. | .ended .. | .command .. => True
  | _ => False

/-- The target of an ordinary place. -/
def targetOf : Place → Option Nat
  | .before t _ | .missing t _ | .after t | .ended t | .command t => some t
  | _ => none

/-- There is a breakpoint, of any kind, for the target of the place. -/
def Traced (tracing : Nat → Nat) (p : Place) : Prop := ∃ t, targetOf p = some t ∧ tracing t ≠ 0

instance : DecidablePred StepPlace := fun p => by cases p <;> simp only [StepPlace] <;> infer_instance
instance : DecidablePred NextPlace := fun p => by cases p <;> simp only [NextPlace] <;> infer_instance

/-- After some commands the debugger, with the changed state, asks for the next one. -/
inductive Prompts (stack : List Nat) : List DbgCmd → DbgState → DbgState → Prop
  | none {s} : Prompts stack [] s s
  | command {c cs s s1 s2} : c.run stack s = .again s1 → Prompts stack cs s1 s2 → Prompts stack (c :: cs) s s2

end Remake.Spec
