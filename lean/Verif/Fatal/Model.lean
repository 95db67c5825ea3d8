/-!
# Fatal signals

Models what happens to the jobs when make gets a fatal signal (`SIGINT`, `SIGTERM`, `SIGHUP`, `SIGQUIT`) at any point: the parts of
`start_job_command` (job.c 1234, 1270-1280, 1397-1398), `start_waiting_job` (job.c 1412-1476) and `reap_children` (job.c 477-958) that
change the chain of children and the number of slots, with `block_sigs` and `unblock_sigs` (job.c 341-353); `free_child`
(job.c 965-1008); the function `shell` as far as it starts a process (function.c 1715-1777); `fatal_error_signal`
(commands.c 583-696); and the end of make by `die` (main.c 3276-3293).

Simplified: all jobs are local.  There is one signal; other fatal signals do not come while it is being handled.  The job server
is in use.  The numbers of processes are not used again.  Which command comes next, how it ends and whether a process can be
started are choices.  The debugger does not stop.  Children that make did not start itself do not occur.
-/
namespace Remake

/-- A `struct child` (job.h 48-70): which job it is, `pid` (`none`: negative, the process could not be started), `jobslot`,
`deleted`.  `late` is not in the code: the first command of the job could not be started. -/
structure FJob where
  id : Nat
  pid : Option Nat := none
  slot : Bool := false
  deleted : Bool := false
  late : Bool := false
deriving DecidableEq, Repr

/-- How make has ended: by `die`; by the signal, after the intermediate files have been removed (commands.c 672-696);
with `wait: No child processes` (job.c 601). -/
inductive FExit where
  | left
  | signal
  | noChild
deriving DecidableEq, Repr

/-- Where make is. -/
inductive FPc where
  /-- anywhere else -/
  | run
  /-- there is a token for the job in hand (job.c 1694) -/
  | got
  /-- after `block_sigs` at job.c 1271, for a new job -/
  | fresh
  /-- after `child_execute_job` at job.c 1279 -/
  | forked
  /-- after job.c 1454 -/
  | counted
  /-- after `children = c`, job.c 1456 -/
  | chained
  /-- the process of job `i` of `children` is no more, `reap_children` looks what to do (job.c 737-898) -/
  | dead (i : Nat)
  /-- after `block_sigs` at job.c 1271, for the next command of job `i` -/
  | next (i : Nat)
  /-- after `child_execute_job` at job.c 1279, for the next command -/
  | nextForked
  /-- after `block_sigs` at job.c 906 -/
  | remove (i : Nat)
  /-- after job.c 916 -/
  | uncounted (i : Nat)
  /-- after job.c 922, the job in hand is off the chain -/
  | unchained
  /-- after `free_child` at job.c 931 -/
  | freed
  /-- the test in the loop of `fatal_error_signal` (commands.c 665) -/
  | dloop
  /-- the loop of `reap_children` called by `fatal_error_signal`, with the value of `block` (job.c 499-500) -/
  | dreap (block : Bool)
  /-- make has ended -/
  | gone (how : FExit)
deriving DecidableEq, Repr

/-- A make: `children`, `job_slots_used`, `waiting_jobs`, the job in hand, the processes it has started and has not waited for,
`shell_function_pid`, whether fatal signals are blocked, `jobserver_tokens`, and what is not in the code: the tokens taken from the
pipe and not given back, the number of the next process, to which processes `SIGTERM` was sent, the jobs whose targets
`fatal_error_signal` has dealt with. -/
structure FState where
  pc : FPc := .run
  kids : List FJob := []
  used : Nat := 0
  waiting : List FJob := []
  hand : Option FJob := none
  procs : List Nat := []
  shell : Option Nat := none
  blocked : Bool := false
  tokens : Nat := 0
  owed : Nat := 0
  fresh : Nat := 1
  sent : List Nat := []
  erased : List Nat := []
deriving DecidableEq, Repr

/-- `fatal_error_signal` has been called: `handling_fatal_signal` (commands.c 583, 623). -/
def FPc.dying : FPc → Bool
  | .dloop | .dreap _ | .gone .signal | .gone .noChild => true
  | _ => false

/-- Make runs, and not in the handler. -/
def FPc.live : FPc → Bool
  | .dloop | .dreap _ | .gone _ => false
  | _ => true

/-- What `child_execute_job` does (job.c 2001-2155): `ok` if a process is started. -/
def FState.spawn (s : FState) (ok : Bool) : FState :=
  if ok then { s with procs := s.fresh :: s.procs, fresh := s.fresh + 1 } else s

/-- The value of `child_execute_job`. -/
def FState.spawned (s : FState) (ok : Bool) : Option Nat := if ok then some s.fresh else none

/-- `wait` has returned process `p`. -/
def FState.waited (s : FState) (p : Nat) : FState := { s with procs := s.procs.filter (· != p) }

/-- `free_child`, the tokens (job.c 970-984). -/
def FState.free (s : FState) : FState :=
  { s with tokens := s.tokens - 1, owed := if 1 < s.tokens then s.owed - 1 else s.owed }

/-- job.c 915-916. -/
def FState.uncount (s : FState) (c : FJob) : FState :=
  { s with used := if 0 < s.used then s.used - c.slot.toNat else s.used }

/-- The end of a job in `reap_children` while make is dying (job.c 837-847, 906-933): no next command is started, the job is
taken off the chain.  Simplified: in one step, the signal does not come a second time. -/
def FState.drop (s : FState) (i : Nat) (c : FJob) : FState :=
  { (s.uncount c).free with kids := s.kids.eraseIdx i }

/-- The processes that get `SIGTERM` (commands.c 632-638). -/
def FState.targets (s : FState) : List Nat := s.kids.filterMap (·.pid)

/-- The jobs for which `delete_child_targets` deletes targets (commands.c 660-661, 755-771). -/
def FState.deletions (s : FState) : List Nat :=
  (s.kids.filter (fun c => !c.deleted && c.pid.isSome)).map (·.id)

/-- The call of `fatal_error_signal` up to its loop (commands.c 623-661); `term` if the signal is `SIGTERM`. -/
def FState.signal (s : FState) (term : Bool) : FState :=
  { s with
    pc := .dloop
    sent := if term then s.targets else []
    erased := s.deletions
    kids := s.kids.map (fun c => if c.pid.isSome then { c with deleted := true } else c) }

/-- One step. -/
inductive FStep : FState → FState → Prop where
  /-- `new_job` has a token for a job (job.c 1650-1694); the first is free -/
  | token (s) (id : Nat) : s.pc = .run → s.hand = none →
      FStep s { s with pc := .got, hand := some { id := id }, tokens := s.tokens + 1, owed := if s.tokens = 0 then s.owed else s.owed + 1 }
  /-- the load is too high, job.c 1424-1437 -/
  | wait (s) (c : FJob) : s.pc = .got → s.hand = some c → FStep s { s with pc := .run, hand := none, waiting := c :: s.waiting }
  /-- `start_waiting_jobs`, job.c 1981-1988 -/
  | unwait (s) (c : FJob) (l) : s.pc = .run → s.hand = none → s.waiting = c :: l →
      FStep s { s with pc := .got, hand := some c, waiting := l }
  /-- there is nothing to run, job.c 1460-1468 -/
  | nothing (s) (c : FJob) : s.pc = .got → s.hand = some c → FStep s { s.free with pc := .run, hand := none }
  /-- job.c 1234, 1271 -/
  | block (s) (c : FJob) : s.pc = .got → s.hand = some c →
      FStep s { s with pc := .fresh, hand := some { c with deleted := false }, blocked := true }
  /-- job.c 1279 -/
  | fork (s) (c : FJob) (ok : Bool) : s.pc = .fresh → s.hand = some c →
      FStep s { s.spawn ok with pc := .forked, hand := some { c with pid := s.spawned ok, late := !ok } }
  /-- job.c 1446-1454 -/
  | count (s) (c : FJob) : s.pc = .forked → s.hand = some c →
      FStep s { s with
        pc := .counted
        used := if c.pid.isSome then s.used + 1 else s.used
        hand := some (if c.pid.isSome then { c with slot := true } else c) }
  /-- job.c 1456 -/
  | chain (s) (c : FJob) : s.pc = .counted → s.hand = some c →
      FStep s { s with pc := .chained, kids := c :: s.kids, hand := none }
  /-- job.c 1457 -/
  | unblock (s) : s.pc = .chained → FStep s { s with pc := .run, blocked := false }
  /-- a command of a job has ended, job.c 586-594 and 718-721 -/
  | died (s) (p i : Nat) (c : FJob) : s.pc = .run → p ∈ s.procs → s.shell ≠ some p → s.kids[i]? = some c → c.pid = some p →
      FStep s { s.waited p with pc := .dead i }
  /-- a job that could not be started, job.c 550-557 -/
  | unstarted (s) (i : Nat) (c : FJob) : s.pc = .run → s.kids[i]? = some c → c.pid = none → FStep s { s with pc := .dead i }
  /-- the command has failed and the targets are deleted, job.c 824-825, 872-874 -/
  | fails (s) (i : Nat) (c : FJob) : s.pc = .dead i → s.kids[i]? = some c →
      FStep s { s with kids := s.kids.set i (if c.pid.isSome then { c with deleted := true } else c) }
  /-- the job is finished, job.c 906 -/
  | ends (s) (i : Nat) : s.pc = .dead i → FStep s { s with pc := .remove i, blocked := true }
  /-- there is another command, job.c 860, 1234, 1271 -/
  | again (s) (i : Nat) (c : FJob) : s.pc = .dead i → s.kids[i]? = some c →
      FStep s { s with pc := .next i, kids := s.kids.set i { c with deleted := false }, blocked := true }
  /-- job.c 1279 -/
  | refork (s) (i : Nat) (c : FJob) (ok : Bool) : s.pc = .next i → s.kids[i]? = some c →
      FStep s { s.spawn ok with pc := .nextForked, kids := s.kids.set i { c with pid := s.spawned ok } }
  /-- job.c 865 -/
  | reunblock (s) : s.pc = .nextForked → FStep s { s with pc := .run, blocked := false }
  /-- job.c 915-916 -/
  | uncount (s) (i : Nat) (c : FJob) : s.pc = .remove i → s.kids[i]? = some c → FStep s { s.uncount c with pc := .uncounted i }
  /-- job.c 919-922 -/
  | unchain (s) (i : Nat) (c : FJob) : s.pc = .uncounted i → s.kids[i]? = some c →
      FStep s { s with pc := .unchained, kids := s.kids.eraseIdx i, hand := some c }
  /-- job.c 931 -/
  | free (s) : s.pc = .unchained → FStep s { s.free with pc := .freed, hand := none }
  /-- job.c 933 -/
  | freeUnblock (s) : s.pc = .freed → FStep s { s with pc := .run, blocked := false }
  /-- the function `shell` starts its command, function.c 1715-1734 -/
  | shell (s) : s.pc = .run → s.shell = none → FStep s { s.spawn true with shell := some s.fresh }
  /-- the command of the function `shell` has ended, job.c 711-715 -/
  | shellEnds (s) (p : Nat) : s.pc = .run → s.shell = some p → p ∈ s.procs → FStep s { s.waited p with shell := none }
  /-- the end by `die`, main.c 3292-3293 -/
  | leave (s) : s.pc = .run → s.used = 0 → FStep s { s with pc := .gone .left }
  /-- the signal comes, if it is not blocked -/
  | signal (s) (term : Bool) : s.pc.live = true → s.blocked = false → FStep s (s.signal term)
  /-- commands.c 665-666 -/
  | dmore (s) : s.pc = .dloop → 0 < s.used → FStep s { s with pc := .dreap true }
  /-- commands.c 665, 672-696 -/
  | dend (s) : s.pc = .dloop → s.used = 0 → FStep s { s with pc := .gone .signal }
  /-- job.c 499: there is nothing to wait for -/
  | dnone (s) (b : Bool) : s.pc = .dreap b → s.kids = [] → s.shell = none → FStep s { s with pc := .dloop }
  /-- job.c 550-557, 906-957 -/
  | dunstarted (s) (b : Bool) (i : Nat) (c : FJob) : s.pc = .dreap b → s.kids[i]? = some c → c.pid = none →
      FStep s { s.drop i c with pc := .dreap false }
  /-- job.c 586-594, 718-721, 906-957 -/
  | ddied (s) (b : Bool) (p i : Nat) (c : FJob) : s.pc = .dreap b → (∀ d ∈ s.kids, d.pid ≠ none) → p ∈ s.procs →
      s.shell ≠ some p → s.kids[i]? = some c → c.pid = some p →
      FStep s { (s.waited p).drop i c with pc := .dreap false }
  /-- job.c 711-715 -/
  | dshell (s) (b : Bool) (p : Nat) : s.pc = .dreap b → (∀ d ∈ s.kids, d.pid ≠ none) → p ∈ s.procs → s.shell = some p →
      FStep s { s.waited p with shell := none, pc := .dloop }
  /-- job.c 588-590, 610-616: no process has ended -/
  | dlater (s) : s.pc = .dreap false → (∀ d ∈ s.kids, d.pid ≠ none) → s.procs ≠ [] → FStep s { s with pc := .dloop }
  /-- job.c 598-601: there is no process that `wait` could wait for -/
  | dfail (s) (b : Bool) : s.pc = .dreap b → (s.kids ≠ [] ∨ s.shell ≠ none) → (∀ d ∈ s.kids, d.pid ≠ none) → s.procs = [] →
      FStep s { s with pc := .gone .noChild }

/-- Some number of steps. -/
inductive FSteps : FState → FState → Prop where
  | refl (s) : FSteps s s
  | tail {s t u} : FSteps s t → FStep t u → FSteps s u

end Remake
