import Verif.Base.Chars
/-!
# The limit on the load average (`-l`)

Models `load_too_high` (job.c 1828-1964, without the method that reads `/proc/loadavg`, which is off: `PROC_FD_INIT` is -1, 1845),
`start_waiting_job` (job.c 1411-1437, 1442-1458), `start_waiting_jobs` (job.c 1968-1990) and the counter of jobs started in this
second (job.c 734-735, 1393-1394).  Simplified: numbers of type `double` are rational numbers; jobs are not started remotely
(remote-stub.c).
-/
set_option linter.unusedVariables false
namespace Remake

/-- The variables: `job_counter`, `last_sec`, `last_now`, `lossage` (`none`: -1), `job_slots_used`, the chain `waiting_jobs`; and,
as a record, the jobs started (oldest first) and the complaints about `getloadavg` by number of the error. -/
structure LaSt where
  counter : Nat
  lastSec : Rat
  lastNow : Int
  lossage : Option Nat
  used : Nat
  waiting : List Nat
  started : List Nat
  messages : List Nat

/-- A look at the clock and the load: the second, and the load or the number of the error. -/
structure LaLook where
  now : Int
  load : Except Nat Rat

/-- The load that is used and the complaint (job.c 1924-1939). -/
def laLoad (st : LaSt) : Except Nat Rat → Rat × LaSt
  | .ok l => (l, st)
  | .error e => (0, { st with
      messages := if st.lossage = some e then st.messages else st.messages ++ [e]
      lossage := some e })

/-- A new second (job.c 1945-1954). -/
def laSecond (st : LaSt) (now : Int) : LaSt :=
  if st.lastNow < now then { st with
    lastSec := if st.lastNow = now - 1 then (1 / 4 : Rat) * st.counter else 0
    counter := 0
    lastNow := now }
  else st

/-- `load_too_high` (job.c 1828-1964). -/
def loadTooHigh (limit : Rat) (st : LaSt) (k : LaLook) : Bool × LaSt :=
  if limit < 0 then (false, st)
  else
    let r := laLoad st k.load
    let st1 := laSecond r.2 k.now
    (decide (r.1 + (1 / 4 : Rat) * (st1.counter + st1.lastSec) ≥ limit), st1)

/-- `start_waiting_job` (job.c 1411-1458): whether the job was started; `forks`: a process was started for its first line (not
so if the recipe turns out empty, or under `-n`). -/
def laWaitingJob (limit : Rat) (st : LaSt) (c : Nat) (k : LaLook) (forks : Bool) : Bool × LaSt :=
  let r := if st.used > 0 then loadTooHigh limit st k else (false, st)
  if r.1 then (false, { r.2 with waiting := c :: r.2.waiting })
  else (true, { r.2 with
    started := r.2.started ++ [c]
    counter := if forks then r.2.counter + 1 else r.2.counter
    used := if forks then r.2.used + 1 else r.2.used })

/-- The loop of `start_waiting_jobs` (job.c 1976-1988), with what is seen at each turn (the list may be too short: then the loop
ends early, which the code does not do).  Children that end during the loop (1979) are events of their own: simplified. -/
def laWaitingJobs (limit : Rat) (st : LaSt) : List (LaLook × Bool) → LaSt
  | [] => st
  | (k, forks) :: ks =>
    match st.waiting with
    | [] => st
    | c :: w =>
      let r := laWaitingJob limit { st with waiting := w } c k forks
      if r.1 then laWaitingJobs limit r.2 ks else r.2

/-- What happens: a job is ready (new_job, job.c 1737), the waiting jobs are tried, a job ends (job.c 734-735, with its slot
given back), a job goes on to its next line (734-735, then 1393-1394). -/
inductive LaEv where
  | job (c : Nat) (k : LaLook) (forks : Bool)
  | retry (ks : List (LaLook × Bool))
  | finish
  | nextLine

/-- One event. -/
def laStep (limit : Rat) (st : LaSt) : LaEv → LaSt
  | .job c k forks => (laWaitingJob limit st c k forks).2
  | .retry ks => laWaitingJobs limit st ks
  | .finish => if st.used = 0 then st else { st with
      used := st.used - 1
      counter := st.counter - 1 }
  | .nextLine => if st.used = 0 then st else { st with counter := st.counter - 1 + 1 }

/-- A history. -/
def laRun (limit : Rat) (st : LaSt) (es : List LaEv) : LaSt := es.foldl (laStep limit) st

/-- The state at the start. -/
def laStart : LaSt := ⟨0, 0, 0, none, 0, [], [], []⟩

end Remake
