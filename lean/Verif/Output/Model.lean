import Verif.Base.Chars

/-!
# Synchronised output

Models `src/output.c` lines 57-75 (`_outputs`), 172-284 (reading temporary files and the lock), 310-351 (temporary files) and 353-404
(`output_dump`), as steps of several makes, and of the commands they run, that go on at the same time and share standard output and
standard error.

Simplifications.  A temporary file is its contents: it is in append mode (output.c 303), so that every write goes to its end.  Standard
output and error are open (`STREAM_OK`), and reads and writes succeed; the lock may fail (output.c 372).  A text that `pump_from_tmp` has
read reaches the terminal in one piece (`fflush`, output.c 248).  Each context of captured output has a number; what its job has written
with `write` and what make itself has put there with `_outputs` are not told apart.
-/
set_option linter.unusedVariables false
namespace Remake

/-- What all makes of a run have in common: whether standard output and error are the same (`combined_output`, output.c 180, 201-204), and
whether each dump is enclosed by messages on the directory, and which (output.c 375-376, 383-384). -/
structure OutConfig where
  combined : Bool
  logs : Bool
  entering : Nat → Str
  leaving : Nat → Str

/-- Something written on the terminal: by which make, for which context (none if it was not captured), on standard error or output,
whether it is a message on the directory, and the text. -/
structure OutEvent where
  make : Nat
  ctx : Option Nat
  err : Bool
  log : Bool
  text : Str
deriving DecidableEq, Repr

/-- The temporary files of a context, `out` and `err` of `struct output` (output.h 20-25); `err` is not used if they are the same file
(output.c 334-335). -/
structure TmpFiles where
  out : Str
  err : Str
deriving DecidableEq, Repr

/-- Where a make is: not in `output_dump`, or before the lock (output.c 372), before the first message (375), in `pump_from_tmp` (378-379,
380-381) with the number of characters read, before the last message (383), before unlocking (387), before emptying the files (391), or
killed.  `o` and `e` are `outfd_not_empty` and `errfd_not_empty`, `sem` whether the lock has been obtained. -/
inductive DumpPc where
  | idle
  | wait (j : Nat) (o e : Bool)
  | enter (j : Nat) (o e sem : Bool)
  | out (j pos : Nat) (e sem : Bool)
  | err (j pos : Nat) (sem : Bool)
  | leave (j : Nat) (sem : Bool)
  | unlock (j : Nat) (sem : Bool)
  | trunc (j : Nat)
  | dead (was : DumpPc)
deriving DecidableEq, Repr

/-- The makes, the terminal, and the lock with its owner. -/
structure OutSys where
  lock : Option Nat
  term : List OutEvent
  tmp : Nat → Nat → TmpFiles
  pc : Nat → DumpPc

/-- The start: nothing written. -/
def OutSys.init : OutSys := ⟨none, [], fun _ _ => ⟨[], []⟩, fun _ => .idle⟩

/-- The steps. -/
inductive OutLabel where
  | write (m j : Nat) (err : Bool) (s : Str)
  | direct (m : Nat) (err : Bool) (s : Str)
  | dump (m j : Nat)
  | lock (m : Nat)
  | lockFail (m : Nat)
  | log (m : Nat)
  | pump (m n : Nat)
  | eof (m : Nat)
  | unlock (m : Nat)
  | trunc (m : Nat)
  | kill (m : Nat)
deriving DecidableEq, Repr

/-- A make goes on elsewhere. -/
def OutSys.goto (s : OutSys) (m : Nat) (p : DumpPc) : OutSys := { s with pc := fun k => if k = m then p else s.pc k }

/-- New contents of the temporary files of a context. -/
def OutSys.setTmp (s : OutSys) (m j : Nat) (t : TmpFiles) : OutSys :=
  { s with tmp := fun k i => if k = m ∧ i = j then t else s.tmp k i }

/-- Something is written on the terminal. -/
def OutSys.emit (s : OutSys) (e : OutEvent) : OutSys := { s with term := s.term ++ [e] }

/-- A write to a context: to its file for standard error if it has one (output.c 57-75, 334-344; job.c 2016-2022). -/
def TmpFiles.append (c : OutConfig) (t : TmpFiles) (err : Bool) (s : Str) : TmpFiles :=
  if err && !c.combined then { t with err := t.err ++ s } else { t with out := t.out ++ s }

/-- The place after the first message (output.c 378-384). -/
def afterEnter (c : OutConfig) (j : Nat) (o e sem : Bool) : DumpPc :=
  if o then .out j 0 e sem else if e && !c.combined then .err j 0 sem else .leave j sem

/-- The place after standard output (output.c 380-384). -/
def afterOut (c : OutConfig) (j : Nat) (e sem : Bool) : DumpPc :=
  if e && !c.combined then .err j 0 sem else .leave j sem

/-- The start of `output_dump` (output.c 362-365). -/
def stepDump (c : OutConfig) (s : OutSys) (m j : Nat) : Option OutSys :=
  match s.pc m with
  | .idle =>
    let o := decide ((s.tmp m j).out ≠ [])
    let e := if c.combined then o else decide ((s.tmp m j).err ≠ [])
    some (if o || e then s.goto m (.wait j o e) else s)
  | _ => none

/-- `acquire_semaphore` (output.c 259-272): it waits until no other make has the lock. -/
def stepLock (s : OutSys) (m : Nat) : Option OutSys :=
  match s.pc m with
  | .wait j o e => if s.lock = none then some { s.goto m (.enter j o e true) with lock := some m } else none
  | _ => none

/-- `acquire_semaphore` that fails (output.c 270-271). -/
def stepLockFail (s : OutSys) (m : Nat) : Option OutSys :=
  match s.pc m with
  | .wait j o e => some (s.goto m (.enter j o e false))
  | _ => none

/-- The messages on the directory (output.c 374-376, 383-384). -/
def stepLog (c : OutConfig) (s : OutSys) (m : Nat) : Option OutSys :=
  match s.pc m with
  | .enter j o e sem =>
    let s := s.goto m (afterEnter c j o e sem)
    some (if c.logs then s.emit ⟨m, some j, false, true, c.entering m⟩ else s)
  | .leave j sem =>
    let s := s.goto m (.unlock j sem)
    some (if c.logs then s.emit ⟨m, some j, false, true, c.leaving m⟩ else s)
  | _ => none

/-- A turn of `pump_from_tmp` (output.c 235-249) in which `read` returns `n` characters, at most 8192. -/
def stepPump (s : OutSys) (m n : Nat) : Option OutSys :=
  match s.pc m with
  | .out j pos e sem =>
    if 1 ≤ n ∧ n ≤ 8192 ∧ pos + n ≤ (s.tmp m j).out.length then
      some ((s.goto m (.out j (pos + n) e sem)).emit ⟨m, some j, false, false, ((s.tmp m j).out.drop pos).take n⟩)
    else none
  | .err j pos sem =>
    if 1 ≤ n ∧ n ≤ 8192 ∧ pos + n ≤ (s.tmp m j).err.length then
      some ((s.goto m (.err j (pos + n) sem)).emit ⟨m, some j, true, false, ((s.tmp m j).err.drop pos).take n⟩)
    else none
  | _ => none

/-- The last turn, in which `read` returns 0 (output.c 241-242). -/
def stepEof (c : OutConfig) (s : OutSys) (m : Nat) : Option OutSys :=
  match s.pc m with
  | .out j pos e sem => if (s.tmp m j).out.length ≤ pos then some (s.goto m (afterOut c j e sem)) else none
  | .err j pos sem => if (s.tmp m j).err.length ≤ pos then some (s.goto m (.leave j sem)) else none
  | _ => none

/-- `release_semaphore` if the lock had been obtained (output.c 275-282, 387-388). -/
def stepUnlock (s : OutSys) (m : Nat) : Option OutSys :=
  match s.pc m with
  | .unlock j sem => some { s.goto m (.trunc j) with lock := if sem then none else s.lock }
  | _ => none

/-- The files are emptied (output.c 390-402). -/
def stepTrunc (s : OutSys) (m : Nat) : Option OutSys :=
  match s.pc m with
  | .trunc j => some ((s.goto m .idle).setTmp m j ⟨[], []⟩)
  | _ => none

/-- A make is killed; the system gives up its lock. -/
def stepKill (s : OutSys) (m : Nat) : Option OutSys :=
  match s.pc m with
  | .dead _ => none
  | p => some { s.goto m (.dead p) with lock := if s.lock = some m then none else s.lock }

/-- One step; nothing if it is not possible. -/
def outStep (c : OutConfig) (s : OutSys) : OutLabel → Option OutSys
  | .write m j err t => some (s.setTmp m j ((s.tmp m j).append c err t))
  | .direct m err t => some (s.emit ⟨m, none, err, false, t⟩)
  | .dump m j => stepDump c s m j
  | .lock m => stepLock s m
  | .lockFail m => stepLockFail s m
  | .log m => stepLog c s m
  | .pump m n => stepPump s m n
  | .eof m => stepEof c s m
  | .unlock m => stepUnlock s m
  | .trunc m => stepTrunc s m
  | .kill m => stepKill s m

/-- A run. -/
def outRun (c : OutConfig) : List OutLabel → OutSys → Option OutSys
  | [], s => some s
  | l :: ls, s => (outStep c s l).bind (outRun c ls)

end Remake
