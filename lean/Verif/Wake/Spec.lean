import Verif.Wake.Model
/-! # Sleeping and waking up: the words the properties are stated in -/
namespace Remake.Spec

/-- Make has not ended, and waits for something to happen. -/
def Asleep (calm : Bool) (m : WMake) (p : Nat) : Prop :=
  m.pc ≠ .ended ∧ ∀ m' p', ¬ WOwn calm m p m' p'

/-- Make is trying to get a slot for a new job. -/
def Seeks (m : WMake) : Prop :=
  m.pc = .top ∨ m.pc = .dup ∨ m.pc = .store ∨ m.pc = .reap ∨ m.pc = .queue ∨ m.pc = .queueReap ∨ m.pc = .queueStart ∨
  m.pc = .check ∨ m.pc = .sel ∨ m.pc = .selRead ∨ m.pc = .flags ∨ m.pc = .load ∨ m.pc = .read

/-- It waits for a token. -/
def WaitsForToken (m : WMake) : Prop := m.pc = .sel ∨ m.pc = .read

/-- The process of a job is running. -/
def Running (k : WJob) : Prop := ∃ subs, k.proc = .runs subs

/-- The command of a job waits for nothing: it is running, and all makes that it has started have ended. -/
def AtWork (w : WWorld) (k : WJob) : Prop :=
  ∃ subs, k.proc = .runs subs ∧ ∀ j ∈ subs, ∀ m, w.makes[j]? = some m → m.pc = .ended

/-- The tokens a make has taken from the pipe: one for each job but the first, and the one in its hand. -/
def Held (m : WMake) : Nat := (m.tokens - 1) + (if m.pc = .start ∧ m.tokens ≠ 0 then 1 else 0)

end Remake.Spec
