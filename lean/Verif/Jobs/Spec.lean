import Verif.Jobs.Model
/-! What is counted: outstanding jobs, running jobs. -/
namespace Remake.Spec

/-- The jobs a make has begun and not finished. -/
def outstanding (p : Proc) : Nat := p.children.length + p.waiting.length

/-- The jobs that a make needs a token of the pipe for: all but the first. -/
def beyondFirst (p : Proc) : Nat := outstanding p - 1

/-- The sum over all makes. -/
def total (f : Proc → Nat) (w : World) : Nat := (w.procs.map f).sum

/-- A process of a make that is running and is not just waiting for another make. -/
def isJob (c : Kid) : Bool := decide (0 < c.pid) && decide (c.makes = 0)

/-- The running jobs of one make. -/
def jobs (p : Proc) : Nat := p.children.countP isJob

/-- No make has a job left. -/
def allDone (w : World) : Prop := ∀ p ∈ w.procs, p.children = [] ∧ p.waiting = []

/-- No command runs more than one make at a time. -/
def oneMakeEach (w : World) : Prop := ∀ p ∈ w.procs, ∀ c ∈ p.children, c.makes ≤ 1

end Remake.Spec
