import Verif.Fatal.Model

/-!
# Fatal signals: what is claimed

Vocabulary for the theorems about fatal signals.
-/
namespace Remake.Spec

/-- Make can get into this state, from its start without jobs. -/
def FatalReach (s : FState) : Prop := FSteps {} s

/-- Process `p` belongs to a recipe: make has started it, has not waited for it, and it is not that of the function `shell`. -/
def RecipeProc (s : FState) (p : Nat) : Prop := p ∈ s.procs ∧ s.shell ≠ some p

/-- The signal can be delivered now. -/
def CanSignal (s : FState) : Prop := s.pc.live = true ∧ s.blocked = false

/-- `n` steps. -/
inductive FTimes : Nat → FState → FState → Prop where
  | zero (s) : FTimes 0 s s
  | succ {n s t u} : FTimes n s t → FStep t u → FTimes (n + 1) s u

end Remake.Spec
