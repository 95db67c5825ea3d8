import Verif.Base.Chars
set_option linter.unusedVariables false
/-!
# Jobs that end while the debugger is enabled

Models `src/job.c` `reap_children` 498-953 as far as it is about the list of jobs, their records in memory, and what becomes of a job that ends (the walk 541-563, the status 768-775, the
debugger 801-807 and 938-942, failures 809-830, further commands 831-888, the end of the job 900-952), and `free_child` 962-1008; `src/main.c` `die` 3276-3357 (the wait for jobs 3290-3293).
`debugger_enabled` is set by `-X`, `--debugger` and `--post-mortem` (main.c 1438-1475).

Simplifications: local jobs only, with one slot each; the next command of a job can always be started; `dontcare` and `-q` are left out; the prompts of the debugger are left out.
-/
namespace Remake

/-- A job (`struct child`, job.h): its record in memory, whether errors of its commands are ignored, how many commands follow. -/
structure QtJob where
  id : Nat
  noerror : Bool
  more : Nat
deriving DecidableEq, Repr

/-- `debugger_enabled`, `-k`, `-i`, and whether `.DELETE_ON_ERROR` is a target. -/
structure QtEnv where
  dbg : Bool
  keep : Bool
  ignore : Bool
  delete : Bool
deriving DecidableEq, Repr

/-- Make works; waits for its jobs in `die`; has exited; has used memory that was freed. -/
inductive QtPhase where
  | working
  | dying (status : Nat)
  | exited (status : Nat)
  | ub
deriving DecidableEq, Repr

/-- What make says and does about a job. -/
inductive QtNote where
  | failed (id : Nat)
  | deleted (id : Nat)
  | ignored (id : Nat)
  | next (id : Nat)
  | made (id : Nat)
deriving DecidableEq, Repr

/-- The state: `children`, the records that have been freed, `job_slots_used`, the phase, and what was noted. -/
structure QtSt where
  children : List QtJob
  freed : List Nat
  slots : Nat
  phase : QtPhase
  notes : List QtNote
deriving DecidableEq, Repr

/-- At the start. -/
def qtInit : QtSt := ⟨[], [], 0, .working, []⟩

/-- A job is started; a command of a job ends, with its exit status (0 if it was killed) and whether a signal killed it. -/
inductive QtOp where
  | starts (j : QtJob)
  | ends (id : Nat) (code : Nat) (killed : Bool)
deriving DecidableEq, Repr

/-- `die` (main.c 3276-3357) with so many jobs left; when make is dying already it exits at once. -/
def qtDie (phase : QtPhase) (slots status : Nat) : QtPhase :=
  match phase with
  | .working => if slots = 0 then .exited status else .dying status
  | .dying _ => .exited status
  | p => p

/-- The end of a job (job.c 900-952): its record leaves the list and is freed. -/
def qtFinish (env : QtEnv) (st : QtSt) (j : QtJob) (failed : Bool) (notes : List QtNote) : QtSt :=
  { children := st.children.filter (fun c => c.id ≠ j.id)
    freed := j.id :: st.freed
    slots := st.slots - 1
    notes := st.notes ++ notes
    phase :=
      match st.phase with
      | .working => if failed ∧ ¬ env.keep then qtDie .working (st.slots - 1) 2 else .working
      | .dying s => if st.slots - 1 = 0 then .exited s else .dying s
      | p => p }

/-- A turn of the loop of `reap_children` in which a command ends (job.c 498-953). -/
def qtReap (env : QtEnv) (st : QtSt) (id code : Nat) (killed : Bool) : QtSt :=
  if st.children.any (fun c => st.freed.contains c.id) then { st with phase := .ub }
  else
    match st.children.find? (fun c => c.id = id) with
    | none => st
    | some j =>
      if code = 77 ∧ killed = false ∧ env.dbg then
        { st with slots := st.slots - 1, freed := j.id :: st.freed, phase := qtDie st.phase (st.slots - 1) 77 }
      else if (code ≠ 0 ∨ killed) ∧ ¬ j.noerror ∧ ¬ env.ignore then
        qtFinish env st j true (if killed ∨ env.delete then [.failed id, .deleted id] else [.failed id])
      else
        let n := if code ≠ 0 ∨ killed then [QtNote.ignored id] else []
        if 0 < j.more then
          { st with children := st.children.map (fun c => if c.id = j.id then { c with more := c.more - 1 } else c)
                    notes := st.notes ++ n ++ [.next id] }
        else qtFinish env st j false (n ++ [.made id])

/-- One event; jobs are started only while make works. -/
def qtStep (env : QtEnv) (st : QtSt) : QtOp → QtSt
  | .starts j =>
    match st.phase with
    | .working => { st with children := j :: st.children, slots := st.slots + 1 }
    | _ => st
  | .ends id code killed =>
    match st.phase with
    | .working | .dying _ => qtReap env st id code killed
    | _ => st

/-- A history. -/
def qtRun (env : QtEnv) (st : QtSt) (ops : List QtOp) : QtSt := ops.foldl (qtStep env) st

end Remake
