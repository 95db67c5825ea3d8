import Verif.Base.Chars
/-!
# Updating targets

Models `src/remake.c` 83-269 (`update_goal_chain`), 307-362 (`update_file`), 419-899
(`update_file_1`), 907-1039 (`notice_finished_file`), 1047-1186 (`check_dep`), 1256-1293
(`remake_file`) and the cached modification times of 1303-1505 (`f_mtime`), together with what
`src/job.c` 476-961 (`reap_children`) and 1480-1747 (`new_job`) do to the state of the targets.

The struct files and struct deps are numbered.  Struct deps are kept in a heap with their `next`
pointers, since the code unlinks circular dependencies while it is going through the lists.

What the outside world does is a parameter (`Env`): every call to stat, every moment at which a
recipe ends and how it ends, and what comes of starting a recipe.  They are numbered by a
counter, so that each of them may be different.  The theorems hold for all of them.

Left out: remaking makefiles (`rebuilding_makefiles`, `dontcare`, `no_diag`), `-t`, renaming by
VPATH, archive members, `.LOW_RESOLUTION_TIME`, messages, the debugger, profiling.  The search for
implicit rules is taken to have been made before: where the code searches, the search finds
nothing.
-/
namespace Remake

/-- `enum update_status` (filedef.h 80-86). -/
inductive UStatus where
  | success | none | question | failed
deriving DecidableEq, Repr

/-- The order of the enumeration. -/
def UStatus.rank : UStatus → Nat
  | .success => 0 | .none => 1 | .question => 2 | .failed => 3

/-- `if (new > status) status = new`. -/
def UStatus.max (a b : UStatus) : UStatus := if a.rank < b.rank then b else a

/-- `enum cmd_state` (filedef.h 87-93). -/
inductive CState where
  | notStarted | depsRunning | running | finished
deriving DecidableEq, Repr

/-- The order of the enumeration. -/
def CState.rank : CState → Nat
  | .notStarted => 0 | .depsRunning => 1 | .running => 2 | .finished => 3

/-- `cs_running` or `cs_deps_running`. -/
def CState.busy : CState → Bool
  | .depsRunning => true | .running => true | _ => false

/-- `struct file` (filedef.h 33-122), the members that matter here.  `head` is `double_colon`, or
the file itself if that is null; in a head, `chain` is the list of the entries linked by `prev`,
starting with the head.  `emptyCmds`: the recipe has nothing but blanks and prefix characters;
`allRecurse`: all its lines are marked recursive. -/
structure UFile where
  deps : Option Nat := none
  cmds : Bool := false
  emptyCmds : Bool := false
  allRecurse : Bool := false
  isTarget : Bool := false
  phony : Bool := false
  intermediate : Bool := false
  triedImplicit : Bool := false
  dcolon : Bool := false
  head : Nat := 0
  chain : List Nat := []
  alsoMake : List Nat := []
  updating : Bool := false
  updated : Bool := false
  considered : Nat := 0
  cstate : CState := .notStarted
  ustatus : UStatus := .none
  mtime : Nat := 0
deriving Repr

/-- `struct dep` (dep.h 50-63), the members that matter here. -/
structure UDep where
  file : Nat
  ignoreMtime : Bool := false
  next : Option Nat := none
  changed : Bool := false
deriving Repr

/-- What is observed: a recipe is started, a target is finished with a status, the circular
dependency of a target on another is dropped. -/
inductive UEvent where
  | start (f : Nat)
  | done (f : Nat) (st : UStatus)
  | dropped (f d : Nat)
deriving DecidableEq, Repr

/-- How a recipe ends: `MAKE_SUCCESS`, `MAKE_FAILURE` or `MAKE_TROUBLE` (job.c 770-775), ignored
errors counting as success; or a line after the first one that is not run because of `-q` (job.c
1097-1103). -/
inductive JobEnd where
  | ok | fail | trouble | asked
deriving DecidableEq, Repr

/-- What comes of starting a recipe (job.c 1017-1405): a process is running, or there was nothing
to run (empty lines, `-n`), or `-q` ended it. -/
inductive Launch where
  | spawned | nothing | asked
deriving DecidableEq, Repr

/-- The options and the outside world. -/
structure Env where
  keepGoing : Bool
  alwaysMake : Bool
  question : Bool
  justPrint : Bool
  /-- One job slot, or `.NOTPARALLEL`. -/
  serial : Bool
  /-- There is a recipe for `.DEFAULT`. -/
  hasDefault : Bool
  /-- `NEW_MTIME` -/
  newMtime : Nat
  /-- The result of looking at the time of a file: 1 if it does not exist.  It depends on the moment
  and on what has happened so far, the latest first. -/
  stat : Nat → List UEvent → Nat → Nat
  /-- The recipes that have ended when make looks. -/
  reap : Nat → List (Nat × JobEnd)
  /-- How the one ends that make waits for when none of these has. -/
  lone : Nat → JobEnd
  launch : Nat → Nat → Launch

/-- The state. -/
structure UState where
  file : Nat → UFile
  dep : Nat → Option UDep
  considered : Nat
  tick : Nat
  running : List Nat
  log : List UEvent

/-- Result of a step.  `dead`: `die` was called.  `undef`: a struct dep is used that has been
freed.  `fuel`: the bound on the depth of the recursion was reached. -/
inductive UOut (α : Type) where
  | ok (a : α) (s : UState)
  | dead (s : UState)
  | undef (s : UState)
  | fuel (s : UState)

/-- Steps. -/
def UM (α : Type) := UState → UOut α

instance : Monad UM where
  pure a := fun s => .ok a s
  bind m k := fun s =>
    match m s with
    | .ok a s => k a s
    | .dead s => .dead s
    | .undef s => .undef s
    | .fuel s => .fuel s

/-- The state. -/
def UM.get : UM UState := fun s => .ok s s

/-- Changing the state. -/
def UM.modify (g : UState → UState) : UM Unit := fun s => .ok () (g s)

/-- `die` (main.c 3276-3356).  Recipes that are still running are waited for; none is started. -/
def UM.die {α} : UM α := fun s => .dead s

/-- Changing a file. -/
def UState.setFile (s : UState) (f : Nat) (g : UFile → UFile) : UState :=
  { s with file := fun x => if x = f then g (s.file x) else s.file x }

/-- Something observable happens. -/
def UState.note (s : UState) (ev : UEvent) : UState := { s with log := ev :: s.log }

/-- Reading a struct dep. -/
def readDep (d : Nat) : UM UDep := fun s =>
  match s.dep d with
  | none => .undef s
  | some x => .ok x s

/-- Writing a struct dep. -/
def writeDep (d : Nat) (x : Option UDep) : UM Unit :=
  UM.modify fun s => { s with dep := fun y => if y = d then x else s.dep y }

variable (e : Env)

/-- The end of `f_mtime` (remake.c 1479-1502): the time is stored in all the entries for the file
that are as much updated as the first one; a file that turns out to exist is not intermediate
unless it was made or found by an implicit rule. -/
def storeMtime (s : UState) (f m : Nat) : UState :=
  let h := (s.file f).head
  { s with file := fun x =>
      let y := s.file x
      if x ∈ (s.file h).chain then
        let y := if m ≠ 1 ∧ y.cstate = .notStarted ∧ ¬ y.triedImplicit ∧ y.intermediate then
            { y with intermediate := false } else y
        if y.updated = (s.file h).updated then { y with mtime := m } else y
      else y }

/-- `f_mtime` (remake.c 1303-1505), for a file that is not an archive member and without VPATH. -/
def fMtime (f : Nat) : UM Nat := do
  let s ← UM.get
  let m := max 1 (e.stat s.tick s.log f)
  UM.modify fun s => { storeMtime s f m with tick := s.tick + 1 }
  pure m

/-- `file_mtime` (filedef.h 205-213). -/
def fileMtime (f : Nat) : UM Nat := do
  let s ← UM.get
  if (s.file f).mtime = 0 then fMtime e f else pure (s.file f).mtime

/-- `set_command_state` (file.c 683-699). -/
def setCState (s : UState) (f : Nat) (c : CState) : UState :=
  let s := s.setFile f fun x => { x with cstate := c }
  (s.file f).alsoMake.foldl (fun s g =>
    s.setFile g fun x => if x.cstate.rank < c.rank then { x with cstate := c } else x) s

/-- The targets that `also_make` lists are marked (remake.c 1018-1030). -/
def noticeAlso (st : UStatus) : List Nat → UM Unit
  | [] => pure ()
  | g :: gs => do
    UM.modify fun s => (s.setFile g fun x => { x with cstate := .finished, updated := true, ustatus := st }).note
      (.done g st)
    let s ← UM.get
    if (s.file g).phony then pure () else do
      let _ ← fMtime e g
      pure ()
    noticeAlso st gs

/-- The time given to a file when its recipe has been run (remake.c 962-983): unknown, or new under
`-n` and `-q` unless all lines are recursive, or new if there is no recipe. -/
def mtimeAfter (x : UFile) : Nat :=
  if (e.question || e.justPrint) && x.cmds then (if x.allRecurse then 0 else e.newMtime)
  else if x.isTarget && !x.cmds then e.newMtime else 0

/-- The largest of the times of the entries, an unknown one counting as the largest (remake.c
998-1006). -/
def maxMtime (s : UState) : Nat → List Nat → Nat
  | m, [] => m
  | m, x :: xs =>
    let t := (s.file x).mtime
    maxMtime s (if m ≠ 0 ∧ (t = 0 ∨ m < t) then t else m) xs

/-- `notice_finished_file` (remake.c 907-1039), without `-t`. -/
def notice (f : Nat) : UM Unit := do
  let s ← UM.get
  let ran := (s.file f).cstate = .running
  UM.modify fun s => s.setFile f fun x =>
    { x with cstate := .finished, updated := true,
             mtime := if ran ∧ ¬ x.phony then mtimeAfter e x else x.mtime }
  let s ← UM.get
  if (s.file f).dcolon then
    let ch := (s.file (s.file f).head).chain
    if ch.all fun x => (s.file x).updated then
      UM.modify fun s => { s with file := fun x =>
        if x ∈ ch then { s.file x with mtime := maxMtime s (s.file f).mtime ch } else s.file x }
    else pure ()
  else pure ()
  let s ← UM.get
  if ran ∧ (s.file f).ustatus ≠ .none then do
    UM.modify fun s => s.note (.done f (s.file f).ustatus)
    noticeAlso e (s.file f).ustatus (s.file f).alsoMake
  else
    UM.modify fun s =>
      let s := s.setFile f fun x => if x.ustatus = .none then { x with ustatus := .success } else x
      s.note (.done f (s.file f).ustatus)

/-- The status of a target whose recipe has ended (job.c 770-775, 808-881).  The last two arise only
under `-q`. -/
def endStatus : JobEnd → UStatus
  | .ok => .success
  | .fail => .failed
  | .trouble => if e.question then .question else .failed
  | .asked => if e.question then .question else .success

/-- `child_failed` (job.c 770-775, 833). -/
def JobEnd.failed : JobEnd → Bool
  | .fail => true
  | .trouble => true
  | _ => false

/-- A recipe has ended (job.c 770-953). -/
def finishJob (f : Nat) (j : JobEnd) : UM Unit := do
  let s ← UM.get
  if f ∈ s.running then do
    UM.modify fun s => { s.setFile f fun x => { x with ustatus := endStatus e j } with running := s.running.erase f }
    notice e f
    if j.failed ∧ ¬ e.keepGoing then UM.die else pure ()
  else pure ()

/-- Several recipes have ended. -/
def finishJobs : List (Nat × JobEnd) → UM Unit
  | [] => pure ()
  | (f, j) :: js => do
    finishJob e f j
    finishJobs js

/-- `reap_children (0, 0)`: the recipes that have ended. -/
def reapSome : UM Unit := do
  let s ← UM.get
  UM.modify fun s => { s with tick := s.tick + 1 }
  finishJobs e (e.reap s.tick)

/-- `reap_children (1, 0)`: at least one ends, if any is running. -/
def reapBlock : UM Unit := do
  let s ← UM.get
  reapSome e
  let s' ← UM.get
  match s'.running with
  | [] => pure ()
  | f :: fs => if s'.running.length < s.running.length then pure () else finishJob e f (e.lone s.tick)

/-- `new_job` (job.c 1480-1747): other recipes may end before this one is started.  A job that is
held back because of the load (1427-1442) counts as started.  If nothing is run,
`notice_finished_file` is called twice (1128, 1472); the second call changes nothing. -/
def newJob (f : Nat) : UM Unit := do
  reapSome e
  let s ← UM.get
  UM.modify fun s => { s.note (.start f) with tick := s.tick + 1 }
  match e.launch s.tick f with
  | .spawned => do
    UM.modify fun s => { setCState s f .running with running := f :: s.running }
    if e.serial then finishJob e f (e.lone s.tick) else pure ()
  | .nothing => do
    UM.modify fun s => (setCState s f .running).setFile f fun x => { x with ustatus := .success }
    notice e f
  | .asked =>
    if e.question then do
      UM.modify fun s => s.setFile f fun x => { x with ustatus := .question }
      notice e f
    else do
      UM.modify fun s => (setCState s f .running).setFile f fun x => { x with ustatus := .success }
      notice e f

/-- `execute_file_commands` (commands.c 545-577). -/
def executeCommands (f : Nat) : UM Unit := do
  let s ← UM.get
  if (s.file f).emptyCmds then do
    UM.modify fun s => (setCState s f .running).setFile f fun x => { x with ustatus := .success }
    notice e f
  else newJob e f

/-- `remake_file` (remake.c 1256-1293) with `complain` (remake.c 366-413), without `-t`. -/
def remakeFile (f : Nat) : UM Unit := do
  let s ← UM.get
  let x := s.file f
  if x.cmds then executeCommands e f
  else if x.phony ∨ x.isTarget then do
    UM.modify fun s => s.setFile f fun x => { x with ustatus := .success }
    notice e f
  else if ¬ e.keepGoing then UM.die
  else do
    UM.modify fun s => s.setFile f fun x => { x with ustatus := .failed }
    notice e f

/-- `start_updating`, `finish_updating` (remake.c 41-44). -/
def setUpdating (b : Bool) (f : Nat) : UM Unit :=
  UM.modify fun s => s.setFile (s.file f).head fun x => { x with updating := b }

/-- `is_updating` (remake.c 45-46). -/
def isUpdating (s : UState) (f : Nat) : Bool := (s.file (s.file f).head).updating

/-- Some entry for the file is running (remake.c 611-622, 675-686). -/
def anyBusy (s : UState) (f : Nat) : Bool :=
  (s.file (s.file f).head).chain.any fun x => (s.file x).cstate.busy

/-- The search for an implicit rule, which finds nothing, and the default recipe (remake.c 524-542,
1080-1098). -/
def lastResort (f : Nat) : UM Unit :=
  UM.modify fun s => s.setFile f fun x =>
    let x := if ¬ x.phony ∧ ¬ x.cmds ∧ ¬ x.triedImplicit then { x with triedImplicit := true } else x
    if ¬ x.cmds ∧ ¬ x.isTarget ∧ e.hasDefault then { x with cmds := true } else x

/-- `d` is unlinked: it follows `last`, or is the first (remake.c 579-583, 1139-1150).  In `check_dep` the struct dep is freed as well. -/
def unlink (f : Nat) (last : Option Nat) (next : Option Nat) : UM Unit :=
  match last with
  | none => UM.modify fun s => s.setFile f fun x => { x with deps := next }
  | some l => do
    let y ← readDep l
    writeDep l (some { y with next := next })

/-- What the loops over the prerequisites of a target gather: `dep_status`, `must_make`,
`running`. -/
structure Scan where
  status : UStatus := .success
  must : Bool := false
  running : Bool := false
deriving Repr

/-- The last loop over the prerequisites (remake.c 749-804): `must_make` and `deps_changed`. -/
def recordChanged (noexist : Bool) (thisM : Nat) : (n : Nat) → Option Nat → (must changed : Bool) → UM (Bool × Bool)
  | _, none, must, changed => pure (must, changed)
  | 0, some _, _, _ => fun s => .fuel s
  | n + 1, some d, must, changed => do
    let x ← readDep d
    let m ← fileMtime e x.file
    let s ← UM.get
    let must := must || (!x.ignoreMtime && decide (m = 1) && !(s.file x.file).intermediate)
    let changed := changed || (!x.ignoreMtime && x.changed)
    writeDep d (some { x with changed := x.changed || noexist || decide (thisM < m) })
    recordChanged noexist thisM n x.next must changed

/-- Whether the target is remade (remake.c 809-826). -/
def mustRemake (x : UFile) (noexist must changed : Bool) : Bool :=
  if x.dcolon && x.deps.isNone then true
  else if !noexist && x.isTarget && !changed && !x.cmds && !e.alwaysMake then false
  else if !must && x.cmds && e.alwaysMake then true
  else must

/-- The end of `update_file_1`, when no prerequisite is running (remake.c 714-899). -/
def decideFile (n : Nat) (f : Nat) (thisM : Nat) (sc : Scan) : UM UStatus := do
  if sc.status ≠ .success then do
    UM.modify fun s => s.setFile f fun x =>
      { x with ustatus := if sc.status = .none then .failed else sc.status }
    notice e f
    pure sc.status
  else do
    let s ← UM.get
    if (s.file f).cstate = .depsRunning then UM.modify fun s => setCState s f .notStarted else pure ()
    let s ← UM.get
    let r ← recordChanged e (decide (thisM = 1)) thisM n (s.file f).deps sc.must false
    let s ← UM.get
    if mustRemake e (s.file f) (decide (thisM = 1)) r.1 r.2 then do
      remakeFile e f
      let s ← UM.get
      if (s.file f).cstate = .finished then do
        UM.modify fun s => s.setFile f fun x => { x with updated := true }
        pure (s.file f).ustatus
      else pure .success
    else do
      notice e f
      pure .success

mutual

/-- `update_file` (remake.c 307-362). -/
def updateFile : (n : Nat) → (f : Nat) → UM UStatus
  | 0, _ => fun s => .fuel s
  | n + 1, f => do
    let s ← UM.get
    let h := (s.file f).head
    if (s.file h).considered = s.considered then
      pure (if (s.file h).cstate = .finished then (s.file h).ustatus else .success)
    else updateEntries n (s.file h).chain .success

/-- The loop of `update_file` over the double-colon entries (remake.c 335-359). -/
def updateEntries : (n : Nat) → List Nat → (status : UStatus) → UM UStatus
  | _, [], status => pure status
  | 0, _ :: _, _ => fun s => .fuel s
  | n + 1, x :: xs, status => do
    UM.modify fun s => s.setFile x fun y => { y with considered := s.considered }
    let new ← updateFile1 n x
    let s ← UM.get
    if new ≠ .success ∧ ¬ e.keepGoing then pure new
    else if (s.file x).cstate.busy then pure .success
    else updateEntries n xs (status.max new)

/-- `update_file_1` (remake.c 419-899). -/
def updateFile1 : (n : Nat) → (f : Nat) → UM UStatus
  | 0, _ => fun s => .fuel s
  | n + 1, f => do
    let s ← UM.get
    let x := s.file f
    if x.updated then pure (if UStatus.none.rank < x.ustatus.rank then x.ustatus else .success)
    else if x.cstate = .running then pure .success
    else if x.cstate = .finished then pure x.ustatus
    else do
      setUpdating true f
      let thisM ← fileMtime e f
      lastResort e f
      let s ← UM.get
      let sc ← scanLists n f thisM (f :: (s.file f).alsoMake) { must := decide (thisM = 1) }
      let s ← UM.get
      let sc ← if sc.must || e.alwaysMake then updateIntermediates n f (s.file f).deps sc else pure sc
      setUpdating false f
      if sc.running then do
        UM.modify fun s => setCState s f .depsRunning
        pure .success
      else decideFile e n f thisM sc

/-- The loop over the target and the targets made with it (remake.c 549-636).  A `break` of the inner
loop does not leave this one. -/
def scanLists : (n : Nat) → (f : Nat) → (thisM : Nat) → List Nat → Scan → UM Scan
  | _, _, _, [], sc => pure sc
  | 0, _, _, _ :: _, _ => fun s => .fuel s
  | n + 1, f, thisM, g :: gs, sc => do
    let s ← UM.get
    let sc ← scanDeps n f thisM none (s.file g).deps sc
    scanLists n f thisM gs sc

/-- The loop over the prerequisites (remake.c 560-635).  `f->deps` is changed even if the list is that
of another target (580). -/
def scanDeps : (n : Nat) → (f : Nat) → (thisM : Nat) → (last d : Option Nat) → Scan → UM Scan
  | _, _, _, _, none, sc => pure sc
  | 0, _, _, _, some _, _ => fun s => .fuel s
  | n + 1, f, thisM, last, some d, sc => do
    let x ← readDep d
    let mtime ← fileMtime e x.file
    let s ← UM.get
    if isUpdating s x.file then do
      UM.modify fun s => s.note (.dropped f x.file)
      unlink f last x.next
      scanDeps n f thisM last x.next sc
    else do
      let r ← checkDep n x.file thisM sc.must
      let x ← readDep d
      let s ← UM.get
      let sc : Scan :=
        { status := sc.status.max r.1
          must := if x.ignoreMtime then sc.must else r.2
          running := sc.running || anyBusy s x.file }
      if sc.status ≠ .success ∧ ¬ e.keepGoing then pure sc
      else do
        if sc.running then pure () else do
          let m ← fileMtime e x.file
          writeDep d (some { x with changed := decide (m ≠ mtime) || decide (mtime = 1) })
        scanDeps n f thisM (some d) x.next sc

/-- The loop over the intermediate prerequisites (remake.c 643-694). -/
def updateIntermediates : (n : Nat) → (f : Nat) → (d : Option Nat) → Scan → UM Scan
  | _, _, none, sc => pure sc
  | 0, _, some _, _ => fun s => .fuel s
  | n + 1, f, some d, sc => do
    let x ← readDep d
    let s ← UM.get
    if (s.file x.file).intermediate then do
      let mtime ← fileMtime e x.file
      UM.modify fun s => s.setFile x.file fun y => { y with considered := 0 }
      let new ← updateFile n x.file
      let x ← readDep d
      let s ← UM.get
      let sc : Scan :=
        { sc with status := sc.status.max new, running := sc.running || anyBusy s x.file }
      if sc.status ≠ .success ∧ ¬ e.keepGoing then pure sc
      else do
        if sc.running then pure () else do
          let m ← fileMtime e x.file
          let s ← UM.get
          writeDep d (some { x with
            changed := ((s.file f).phony && (s.file f).cmds) || decide (m ≠ mtime) })
        updateIntermediates n f x.next sc
    else updateIntermediates n f x.next sc

/-- `check_dep` (remake.c 1047-1186): the status and `*must_make_ptr`. -/
def checkDep : (n : Nat) → (f : Nat) → (thisM : Nat) → (must : Bool) → UM (UStatus × Bool)
  | 0, _, _, _ => fun s => .fuel s
  | n + 1, f, thisM, must => do
    setUpdating true f
    let s ← UM.get
    let r ← if (s.file f).phony ∨ ¬ (s.file f).intermediate then do
        let st ← updateFile n f
        let m ← fileMtime e f
        pure (st, must || decide (m = 1) || decide (thisM < m))
      else do
        lastResort e f
        let m ← fileMtime e f
        if m ≠ 1 ∧ thisM < m then pure (.success, true)
        else do
          UM.modify fun s =>
            if (s.file f).cstate = .running then s
            else
              let s := if (s.file f).cstate = .depsRunning then s.setFile f fun x => { x with considered := 0 } else s
              setCState s f .notStarted
          let s ← UM.get
          let r ← checkDeps n f thisM none (s.file f).deps { must := must }
          if r.running then UM.modify fun s => setCState s f .depsRunning else pure ()
          pure (r.status, r.must)
    setUpdating false f
    pure r

/-- The loop of `check_dep` over the prerequisites of an intermediate file (remake.c 1128-1172). -/
def checkDeps : (n : Nat) → (f : Nat) → (thisM : Nat) → (last d : Option Nat) → Scan → UM Scan
  | _, _, _, _, none, sc => pure sc
  | 0, _, _, _, some _, _ => fun s => .fuel s
  | n + 1, f, thisM, last, some d, sc => do
    let x ← readDep d
    let s ← UM.get
    if isUpdating s x.file then do
      UM.modify fun s => s.note (.dropped f x.file)
      unlink f last x.next
      writeDep d none
      checkDeps n f thisM last x.next sc
    else do
      let r ← checkDep n x.file thisM sc.must
      let x ← readDep d
      let s ← UM.get
      let sc : Scan := { sc with status := sc.status.max r.1, must := if x.ignoreMtime then sc.must else r.2 }
      if sc.status ≠ .success ∧ ¬ e.keepGoing then pure sc
      else checkDeps n f thisM (some d) x.next { sc with running := sc.running || (s.file x.file).cstate.busy }

end

/-- What `update_goal_chain` keeps of a goal while it goes through its entries. -/
structure GoalRes where
  status : UStatus
  stop : Bool := false
  notUpdated : Bool := false
deriving Repr

/-- The entries of a goal (remake.c 125-209).  `us_none` and `us_success` are not told apart: they
lead to the same exit status. -/
def goalEntries (n : Nat) : List Nat → GoalRes → UM GoalRes
  | [], r => pure r
  | x :: xs, r => do
    let fail ← updateFile e n x
    let s ← UM.get
    let y := s.file x
    let hit : Bool := (decide (fail ≠ .success) || y.updated) && decide (r.status.rank < UStatus.question.rank)
    let bad := hit && decide (y.ustatus ≠ .success)
    if hit && !bad then do
      let _ ← fileMtime e x
      pure ()
    else pure ()
    let r : GoalRes :=
      { status := if bad then y.ustatus else r.status
        stop := bad && e.question && !e.keepGoing
        notUpdated := r.notUpdated || !y.updated }
    if r.stop then pure r else goalEntries n xs r

/-- One pass over the goals (remake.c 115-253): the status, the goals that are left, and whether it
was stopped before the last goal. -/
def goalPass (n : Nat) : List Nat → UStatus → UM (UStatus × List Nat × Bool)
  | [], st => pure (st, [], false)
  | g :: gs, st => do
    let s ← UM.get
    let r ← goalEntries e n (s.file (s.file g).head).chain { status := st }
    if r.stop then pure (r.status, gs, !gs.isEmpty)
    else do
      let q ← goalPass n gs r.status
      pure (q.1, if r.notUpdated then g :: q.2.1 else q.2.1, q.2.2)

/-- The loop of `update_goal_chain` (remake.c 103-259). -/
def goalLoop (n : Nat) : (k : Nat) → List Nat → UStatus → UM UStatus
  | _, [], st => pure st
  | 0, _ :: _, _ => fun s => .fuel s
  | k + 1, gs@(_ :: _), st => do
    reapBlock e
    let r ← goalPass e n gs st
    if r.2.2 then pure () else UM.modify fun s => { s with considered := s.considered + 1 }
    goalLoop n k r.2.1 r.1

/-- `update_goal_chain` (remake.c 83-269). -/
def updateGoals (n k : Nat) (gs : List Nat) : UM UStatus := do
  UM.modify fun s => { s with considered := s.considered + 1 }
  goalLoop e n k gs .none

end Remake
