/-!
# Sleeping and waking up

Models where make sleeps when it uses the job server: the loop of `new_job` that gets a token (job.c 1650-1694) with
`jobserver_pre_acquire`, `jobserver_acquire` and `jobserver_signal` (posixos.c 236-439), in the version with `pselect` and in the
one without; `child_handler` (job.c 460-466); `reap_children` (job.c 477-958) as far as it waits; `start_waiting_jobs`
(job.c 1966-1992); the loop of `die` (main.c 3289-3292).

A signal may arrive between any two steps below, unless it is blocked: with `pselect` it is blocked everywhere else
(main.c 1765-1774; `unblock_sigs`, job.c 349-353, is about other signals).  Simplified: jobs are local; children that make did not
start itself are represented only by the signal they cause; the function `shell` does not run a command during these loops;
what a command is, how it ends, whether the load is too high and whether a process can be started are choices.  The debugger
does not stop.  `reap_children` looks at jobs that could not be started before it asks for dead processes; here in any order.
-/
namespace Remake

/-- The process of a job: it runs, and may have started makes that use the job server (their numbers); it has ended and make
has not asked for its status; it could not be started (`pid < 0`). -/
inductive JobProc where
  | runs (makes : List Nat)
  | ended
  | unstarted
deriving DecidableEq, Repr

/-- A `struct child` in `children`: its process, how many commands are left, `jobslot`. -/
structure WJob where
  proc : JobProc
  more : Nat
  slot : Bool
deriving DecidableEq, Repr

/-- Where make is. -/
inductive WPc where
  /-- outside of the loops below; there it may also reap and start waiting jobs -/
  | busy
  /-- `reap_children (1, …)` -/
  | wait
  /-- the test at job.c 1659 -/
  | top
  /-- `jobserver_pre_acquire`: the test of `job_rfd`, and the assignment of what `dup` has returned -/
  | dup
  | store
  /-- `reap_children (0, …)` at job.c 1666 -/
  | reap
  /-- `start_waiting_jobs`: the test of `waiting_jobs`, `reap_children (0, …)`, the start of the first job -/
  | queue
  | queueReap
  | queueStart
  /-- the tests at job.c 1673-1679 -/
  | check
  /-- `pselect`, and the `read` after it -/
  | sel
  | selRead
  /-- without `pselect`: the change of the handlers, `job_rfd` is fetched, `read` -/
  | flags
  | load
  | read
  /-- there is a slot for the new job -/
  | start
  /-- the loop of `die` -/
  | die
  /-- the process has ended -/
  | ended
  /-- an internal error -/
  | fatal
deriving DecidableEq, Repr

/-- A make: `trad` if it was built without `pselect`; `children`, `waiting_jobs` (of each, how many commands come after the first),
`jobserver_tokens`, `job_slots_used`; whether `SIGCHLD` is pending; whether `job_rfd` is open; the descriptor that `read` was given
was open; an alarm is set. -/
structure WMake where
  trad : Bool
  pc : WPc := .busy
  kids : List WJob := []
  waiting : List Nat := []
  tokens : Nat := 0
  used : Nat := 0
  pend : Bool := false
  rfd : Bool := true
  reg : Bool := false
  timer : Bool := false
deriving DecidableEq, Repr

/-- `free_child` (job.c 965-988): the make and the tokens put into the pipe. -/
def WMake.free (m : WMake) : WMake × Nat :=
  if m.tokens = 0 then ({ m with pc := .fatal }, 0)
  else ({ m with tokens := m.tokens - 1 }, if 1 < m.tokens then 1 else 0)

/-- What has become of a command that is to be started: a process, no process, or nothing was to be done. -/
inductive WStarted where
  | runs
  | unstarted
  | finished
deriving DecidableEq, Repr

/-- `start_waiting_job` (job.c 1411-1476); `high`: `load_too_high`. -/
def WMake.startJob (m : WMake) (more : Nat) (high : Bool) (s : WStarted) : WMake × Nat :=
  if decide (0 < m.used) && high then ({ m with waiting := more :: m.waiting }, 0)
  else
    match s with
    | .runs => ({ m with kids := ⟨.runs [], more, true⟩ :: m.kids, used := m.used + 1 }, 0)
    | .unstarted => ({ m with kids := ⟨.unstarted, more, false⟩ :: m.kids }, 0)
    | .finished => m.free

/-- The job number `i`, whose process has ended or was never started, starts its next command (job.c 837-869). -/
def WMake.again (m : WMake) (i : Nat) (started : Bool) : WMake :=
  { m with kids := m.kids.modify i fun k => { k with proc := if started then .runs [] else .unstarted, more := k.more - 1 } }

/-- It is taken off the list (job.c 914-931). -/
def WMake.remove (m : WMake) (i : Nat) (k : WJob) : WMake × Nat :=
  { m with used := if 0 < m.used then m.used - k.slot.toNat else m.used, kids := m.kids.eraseIdx i }.free

/-- Something to reap: an ended process, or one that could not be started. -/
def WJob.over (k : WJob) : Prop := k.proc = .ended ∨ k.proc = .unstarted

/-- The places that reap. -/
def WPc.reaps (pc : WPc) : Prop := pc = .busy ∨ pc = .wait ∨ pc = .reap ∨ pc = .queueReap ∨ pc = .die

/-- Where make is after a job was taken off the list: `reap_children (1, …)` waits for one only (job.c 956-957); make may
die of the failure (job.c 944-953). -/
def WPc.reaped (pc : WPc) (fails : Bool) : WPc :=
  if fails then (if pc = .die then .ended else .die) else if pc = .wait then .busy else pc

/-- The first waiting job is taken off the list (job.c 1981-1983); `pc`: where make will be. -/
def WMake.dequeue (m : WMake) (r : List Nat) (high : Bool) : WMake :=
  { m with waiting := r, pc := if m.pc = WPc.busy then .busy else if decide (0 < m.used) && high then .check else .queue }

/-- A step that make takes by itself, with the tokens in the pipe before and after.  With `calm`, every process can be started. -/
inductive WOwn (calm : Bool) : WMake → Nat → WMake → Nat → Prop where
  | newJob {m p} : m.pc = .busy → WOwn calm m p { m with pc := .top } p
  | waits {m p} : m.pc = .busy → WOwn calm m p { m with pc := .wait } p
  | dies {m p} : m.pc = .busy → WOwn calm m p { m with pc := .die } p
  /-- a job goes on (job.c 837-869; the loop continues, `block` stays) -/
  | again {m p i k} {started : Bool} : m.pc.reaps → m.kids[i]? = some k → k.over → 0 < k.more → (calm = true → started = true) →
      WOwn calm m p (m.again i started) p
  /-- a job is done or has failed -/
  | remove {m p i k} {fails : Bool} : m.pc.reaps → m.kids[i]? = some k → k.over →
      WOwn calm m p ({ m with pc := m.pc.reaped fails }.remove i k).1 (p + ({ m with pc := m.pc.reaped fails }.remove i k).2)
  | waitNone {m p} : m.pc = .wait → m.kids = [] → WOwn calm m p { m with pc := .busy } p
  | died {m p} : m.pc = .die → m.used = 0 → WOwn calm m p { m with pc := .ended } p
  | topFree {m p} : m.pc = .top → m.tokens = 0 → WOwn calm m p { m with pc := .start } p
  | topMore {m p} : m.pc = .top → m.tokens ≠ 0 → WOwn calm m p { m with pc := .dup } p
  | dup {m p} : m.pc = .dup → WOwn calm m p { m with pc := if m.trad && !m.rfd then .store else .reap } p
  | store {m p} : m.pc = .store → WOwn calm m p { m with pc := .reap, rfd := true } p
  /-- there is nothing to reap (job.c 499-500, 610-616) -/
  | reaped {m p} : m.pc = .reap → (∀ k ∈ m.kids, ¬ k.over) → WOwn calm m p { m with pc := .queue } p
  | queue {m p} : m.pc = .queue → WOwn calm m p { m with pc := if m.waiting = [] then .check else .queueReap } p
  | queueReaped {m p} : m.pc = .queueReap → (∀ k ∈ m.kids, ¬ k.over) → WOwn calm m p { m with pc := .queueStart } p
  /-- a waiting job is started, or is put back (job.c 1981-1988) -/
  | queueStart {m p more r} {high : Bool} {s : WStarted} : m.pc = .queueStart ∨ m.pc = .busy → m.waiting = more :: r →
      (calm = true → s ≠ .unstarted) →
      WOwn calm m p
        ((m.dequeue r high).startJob more high s).1
        (p + ((m.dequeue r high).startJob more high s).2)
  | checkFree {m p} : m.pc = .check → m.tokens = 0 → WOwn calm m p { m with pc := .start } p
  | checkFatal {m p} : m.pc = .check → m.tokens ≠ 0 → m.kids = [] → WOwn calm m p { m with pc := .fatal } p
  | checkMore {m p} : m.pc = .check → m.tokens ≠ 0 → m.kids ≠ [] → WOwn calm m p { m with pc := if m.trad then .flags else .sel } p
  /-- `SIGCHLD` arrives in `pselect`, which returns `EINTR` (posixos.c 289-294) -/
  | selSignal {m p} : m.pc = .sel → m.pend = true → WOwn calm m p { m with pc := .top, pend := false } p
  | selReady {m p} : m.pc = .sel → 0 < p → WOwn calm m p { m with pc := .selRead } p
  | selToken {m p} : m.pc = .selRead → WOwn calm m (p + 1) { m with pc := .start } p
  /-- another make was faster (posixos.c 313-317) -/
  | selSniped {m} : m.pc = .selRead → WOwn calm m 0 { m with pc := .sel } 0
  | flags {m p} : m.pc = .flags → WOwn calm m p { m with pc := .load, timer := !m.waiting.isEmpty } p
  | load {m p} : m.pc = .load → WOwn calm m p { m with pc := .read, reg := m.rfd } p
  | readToken {m p} : m.pc = .read → m.reg = true → m.rfd = true → WOwn calm m (p + 1) { m with pc := .start, timer := false } p
  /-- `EBADF` (posixos.c 420-438) -/
  | readBad {m p} : m.pc = .read → (m.reg = false ∨ m.rfd = false) → WOwn calm m p { m with pc := .top, timer := false } p
  /-- without `pselect` the signal is not blocked: `child_handler`, `jobserver_signal`; `interrupt`: `read` returns `EINTR` and is called
  again (posixos.c 420) -/
  | signal {m p} {interrupt : Bool} : m.trad = true → m.pc ≠ .ended → m.pc ≠ .fatal → m.pend = true →
      WOwn calm m p { m with pend := false, rfd := false, pc := if interrupt && decide (m.pc = .read) then .load else m.pc } p
  /-- the new job (job.c 1695, 1737) -/
  | start {m p more} {high : Bool} {s : WStarted} : m.pc = .start → (calm = true → s ≠ .unstarted) →
      WOwn calm m p ({ m with tokens := m.tokens + 1, pc := .busy }.startJob more high s).1
        (p + ({ m with tokens := m.tokens + 1, pc := .busy }.startJob more high s).2)

/-- What happens to a make from outside. -/
inductive WEnv : WMake → WMake → Prop where
  /-- a process ends -/
  | ends {m i subs more slot} : m.kids[i]? = some ⟨.runs subs, more, slot⟩ →
      WEnv m { m with kids := m.kids.set i ⟨.ended, more, slot⟩, pend := true }
  /-- `SIGCHLD` for another reason -/
  | noise {m} : WEnv m { m with pend := true }
  /-- a second is over in `pselect` (posixos.c 270-276, 305-307) -/
  | tick {m} : m.pc = .sel → m.waiting ≠ [] → WEnv m { m with pc := .top }
  /-- the alarm (posixos.c 385-397): `read` returns `EINTR` and is called again -/
  | alarm {m} : m.timer = true → WEnv m { m with timer := false, pc := if m.pc = .read then .load else m.pc }

/-- The process of job `i` starts the make number `j`. -/
def WMake.enters (m : WMake) (i j : Nat) (k : WJob) (subs : List Nat) : WMake :=
  { m with kids := m.kids.set i { k with proc := .runs (j :: subs) } }

/-- Make has just been started (posixos.c 97-98, 135). -/
def WMake.init (trad : Bool) : WMake := { trad := trad }

/-- What one make can come to, whatever others do with the pipe. -/
inductive WReach (trad calm : Bool) : WMake → Nat → Prop where
  | init {p} : WReach trad calm (WMake.init trad) p
  | own {m p m' p'} : WReach trad calm m p → WOwn calm m p m' p' → WReach trad calm m' p'
  | env {m p m'} : WReach trad calm m p → WEnv m m' → WReach trad calm m' p
  | enters {m p i k subs} (j : Nat) : WReach trad calm m p → m.kids[i]? = some k → k.proc = .runs subs →
      WReach trad calm (m.enters i j k subs) p
  | pipe {m p} (p' : Nat) : WReach trad calm m p → WReach trad calm m p'

/-- The makes that share a job server. -/
structure WWorld where
  makes : List WMake
  pipe : Nat

/-- Everything that can happen with a job server; the makes may have been built differently.  The number of slots is in the
pipe at the start (posixos.c 100-105). -/
inductive WTree (calm : Bool) (slots : Nat) : WWorld → Prop where
  | init {trad} : WTree calm slots ⟨[WMake.init trad], slots⟩
  | own {w i m m' p'} : WTree calm slots w → w.makes[i]? = some m → WOwn calm m w.pipe m' p' → WTree calm slots ⟨w.makes.set i m', p'⟩
  | env {w i m m'} : WTree calm slots w → w.makes[i]? = some m → WEnv m m' → WTree calm slots ⟨w.makes.set i m', w.pipe⟩
  /-- a command starts a make -/
  | enters {w i m n k subs trad} : WTree calm slots w → w.makes[i]? = some m → m.kids[n]? = some k → k.proc = .runs subs →
      WTree calm slots ⟨w.makes.set i (m.enters n w.makes.length k subs) ++ [WMake.init trad], w.pipe⟩

end Remake
