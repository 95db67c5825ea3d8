/-!
# Jobs, job slots and the job server

Models the parts of job.c that count jobs: `free_child` (965-1007), `start_waiting_job`
(1411-1476), the slots and tokens part of `new_job` (1628-1745), the part of `reap_children` that handles
one dead child (832-953), `start_waiting_jobs` (1968-1992), and `jobserver_setup`, `_acquire`,
`_release`, `_acquire_all` (posixos.c 83-326), `clean_jobserver` and the loop of `die` (main.c
3237-3293).

What a command does (`start_job_command`, the exit of a process, the load of the machine) is not
decided here: it is an argument of the functions or a choice of the step relation.  Jobs are
local (`start_remote_job_p` is the stub of remote-stub.c 37-41).  Signals are not modelled.
-/
namespace Remake

/-- A `struct child` (job.h): the file it is for, its process (`0`: not started; negative: it
could not be started), `jobslot`, and, as a ghost, the number of makes sharing the job server that
its command is running at the moment. -/
structure Kid where
  file : Nat
  pid : Int := 0
  jobslot : Bool := false
  makes : Nat := 0
deriving Repr, DecidableEq

/-- The variables of one make (job.c 142-167, main.c 197): `job_slots`, whether the job server is
enabled, `not_parallel`, `children`, `waiting_jobs`, `job_slots_used`, `jobserver_tokens`; `waitFor`
is the file that the loop at the end of `new_job` is waiting for (job.c 1739-1743). -/
structure Proc where
  slots : Nat
  server : Bool
  serial : Bool := false
  children : List Kid := []
  waiting : List Kid := []
  used : Nat := 0
  tokens : Nat := 0
  waitFor : Option Nat := none
deriving Repr, DecidableEq

/-- What `start_job_command` did: it started a process (or failed to: a negative number), or all
commands turned out to be empty or not to be run. -/
inductive Started where
  | running (pid : Int)
  | finished
deriving Repr, DecidableEq

/-- `free_child` (job.c 965-1007): the second component is the number of tokens written to the
pipe; `none` is the fatal error "no tokens left". -/
def freeChild (p : Proc) : Option (Proc × Nat) :=
  if p.tokens = 0 then none
  else some ({ p with tokens := p.tokens - 1 }, if p.server && decide (1 < p.tokens) then 1 else 0)

/-- `start_waiting_job` (job.c 1411-1476): `high` is the answer of `load_too_high`. -/
def startWaitingJob (p : Proc) (c : Kid) (high : Bool) (s : Started) : Option (Proc × Nat) :=
  if decide (0 < p.used) && high then some ({ p with waiting := c :: p.waiting }, 0)
  else
    match s with
    | .running pid =>
      if 0 < pid then
        some ({ p with children := { c with pid := pid, jobslot := true } :: p.children,
                       used := p.used + 1 }, 0)
      else some ({ p with children := { c with pid := pid } :: p.children }, 0)
    | .finished => freeChild p

/-- One round of the loop of `start_waiting_jobs` (job.c 1975-1990): the first waiting job is
taken off the list and started. -/
def startWaiting (p : Proc) (high : Bool) (s : Started) : Option (Proc × Nat) :=
  match p.waiting with
  | [] => some (p, 0)
  | c :: cs => startWaitingJob { p with waiting := cs } c high s

/-- May `new_job` go on without a token from the pipe (job.c 1633-1634, 1650-1660, 1673-1674)? -/
def freeToStart (p : Proc) : Bool :=
  if p.slots ≠ 0 then decide (p.used ≠ p.slots) else !p.server || decide (p.tokens = 0)

/-- Does `new_job` need a token from the pipe (job.c 1650-1690)? -/
def needsToken (p : Proc) : Bool := decide (p.slots = 0) && p.server && decide (p.tokens ≠ 0)

/-- The rest of `new_job` (job.c 1694-1743): the token is counted, the job started; with one
slot or `.NOTPARALLEL` the make then waits for the file. -/
def startNew (p : Proc) (c : Kid) (high : Bool) (s : Started) : Option (Proc × Nat) :=
  (startWaitingJob { p with tokens := p.tokens + 1 } c high s).map fun r =>
    ({ r.1 with waitFor := if decide (p.slots = 1) || p.serial then some c.file else none }, r.2)

/-- A dead child (job.c 832-953).  `again` is the process of the next command of the job, if it has one
that was started; otherwise the child is removed. -/
def reapKid (p : Proc) (i : Nat) (again : Option Int) : Option (Proc × Nat) :=
  match p.children[i]? with
  | none => some (p, 0)
  | some c =>
    match again with
    | some pid => some ({ p with children := p.children.set i { c with pid := pid } }, 0)
    | none =>
      freeChild { p with
        used := if 0 < p.used then p.used - c.jobslot.toNat else p.used
        children := p.children.eraseIdx i }

/-- The command state of the file is `cs_running`. -/
def Proc.running (p : Proc) (file : Nat) : Bool :=
  (p.children ++ p.waiting).any fun c => c.file == file

/-- `clean_jobserver` (main.c 3237-3259): the tokens written to the pipe, and whether an internal error
is reported. -/
def cleanTokens (p : Proc) (status : Nat) : Nat × Bool :=
  if p.server && decide (p.tokens ≠ 0) then
    if status ≠ 2 then (0, true) else (p.tokens - 1, false)
  else (0, false)

/-- `clean_jobserver` (main.c 3260-3271) in the master make: does it report a wrong number of
tokens?  `pipe` is what `jobserver_acquire_all` reads. -/
def masterComplains (slots pipe : Nat) : Bool := decide (1 + pipe ≠ slots)

/-! ## Several makes -/

/-- All makes that share a job server; the first one is the master.  `pipe` is the number of tokens
in the pipe. -/
structure World where
  procs : List Proc
  pipe : Nat

/-- The master make after `jobserver_setup (slots - 1)` (main.c 1962-1973, posixos.c 83-111). -/
def World.initial (slots : Nat) (serial : Bool) : World :=
  ⟨[{ slots := 0, server := true, serial := serial }], slots - 1⟩

/-- A make that was given the job server (main.c 1533-1549, 1948-1949). -/
def clientProc (serial : Bool) : Proc := { slots := 0, server := true, serial := serial }

/-- With `calm`, the load is never too high and every process can be started. -/
def Steady (calm high : Bool) (s : Started) : Prop :=
  calm = true → high = false ∧ ∀ pid, s = .running pid → 0 < pid

/-- The steps of one make by itself.  The numbers are the tokens taken from the pipe and
those written to it.  `new_job` calls `reap_children` and `start_waiting_jobs` at fixed places;
here these steps may be taken at any time, which allows more schedules than the program has. -/
inductive PStep (calm : Bool) : Proc → Nat → Nat → Proc → Prop where
  /-- a new job, without a token from the pipe -/
  | newFree {p p' : Proc} {r : Nat} {c : Kid} {high : Bool} {s : Started} :
      p.waitFor = none → c.jobslot = false → c.makes = 0 → freeToStart p = true → Steady calm high s →
      startNew p c high s = some (p', r) → PStep calm p 0 r p'
  /-- a new job, with a token from the pipe -/
  | newToken {p p' : Proc} {r : Nat} {c : Kid} {high : Bool} {s : Started} :
      p.waitFor = none → c.jobslot = false → c.makes = 0 → needsToken p = true → Steady calm high s →
      startNew p c high s = some (p', r) → PStep calm p 1 r p'
  /-- a waiting job -/
  | wait {p p' : Proc} {r : Nat} {high : Bool} {s : Started} : Steady calm high s →
      startWaiting p high s = some (p', r) → PStep calm p 0 r p'
  /-- the end of a process; the makes it ran have ended before -/
  | reap {p p' : Proc} {r i : Nat} {c : Kid} {again : Option Int} :
      p.children[i]? = some c → c.makes = 0 →
      reapKid p i again = some (p', r) → PStep calm p 0 r p'
  /-- the loop at the end of `new_job` ends (job.c 1742-1743) -/
  | done {p : Proc} {f : Nat} :
      p.waitFor = some f → p.running f = false → PStep calm p 0 0 { p with waitFor := none }

/-- Set the number of makes that the command of a child is running. -/
def setMakes (p : Proc) (i n : Nat) : Proc :=
  { p with children := p.children.modify i fun c => { c with makes := n } }

/-- The steps of all makes.  `ok` says in which state and with which status a make may end. -/
inductive WStep (ok : Proc → Nat → Prop) : World → World → Prop where
  | one {a b : List Proc} {p p' : Proc} {t r pipe : Nat} : PStep false p t r p' →
      WStep ok ⟨a ++ p :: b, pipe + t⟩ ⟨a ++ p' :: b, pipe + r⟩
  /-- the command of child `i` of `p`, which is running, starts a make -/
  | enter {a b : List Proc} {p : Proc} {i pipe : Nat} {c : Kid} {serial : Bool} :
      p.children[i]? = some c → 0 < c.pid →
      WStep ok ⟨a ++ p :: b, pipe⟩
        ⟨a ++ setMakes p i (c.makes + 1) :: b ++ [clientProc serial], pipe⟩
  /-- a make other than the master has ended (main.c 3276-3305); `status` is its exit status, `q` its
  state after the loop of `die` that waits until no slot is used.  It was started by the command of
  child `i` of `p`. -/
  | leave {l a b : List Proc} {p q : Proc} {k i pipe status : Nat} {c : Kid} :
      l[k]? = some q → k ≠ 0 → q.used = 0 → (∀ c ∈ q.children, c.makes = 0) → ok q status →
      l.eraseIdx k = a ++ p :: b → p.children[i]? = some c → 0 < c.makes →
      WStep ok ⟨l, pipe⟩
        ⟨a ++ setMakes p i (c.makes - 1) :: b, pipe + (cleanTokens q status).1⟩

/-- Everything that can happen with a job server of the given number of slots. -/
inductive Reach (ok : Proc → Nat → Prop) (slots : Nat) (serial : Bool) : World → Prop where
  | start : Reach ok slots serial (World.initial slots serial)
  | step {w w' : World} : Reach ok slots serial w → WStep ok w w' → Reach ok slots serial w'

/-- Everything that can happen in a make without a job server. -/
inductive PReach (calm : Bool) (slots : Nat) (serial : Bool) : Proc → Prop where
  | start : PReach calm slots serial { slots := slots, server := false, serial := serial }
  | step {p p' : Proc} {t r : Nat} : PReach calm slots serial p → PStep calm p t r p' →
      PReach calm slots serial p'

end Remake
