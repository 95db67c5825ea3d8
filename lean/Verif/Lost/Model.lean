import Verif.Base.Chars
set_option linter.unusedVariables false
/-!
# What make writes on its standard output, and whether a loss is noticed

Models `src/output.c`: `_outputs` 58-75, `pump_from_tmp` 218-256, the end of `output_dump` 387-403, `close_stdout` 438-453, the part of `output_init` 483-486 that asks for
it; `src/misc.c` `writebuf` 256-274 as far as its answer is ignored in output.c 73; `src/main.c` 2317-2331 (the start of make again) and `exit` in 3357.

The streams of the C library are described by `LostStream`: text is collected in a buffer, a flush gives the buffer to the kernel, and where the kernel does not take all of it
the indicator for errors is set, which nothing but a new program clears (there is no `clearerr` in the sources).  What the kernel takes is a parameter everywhere.

Simplifications: one temporary file, for standard output (those of the contexts are alike; C62 says whose output goes where); the messages about the directory (C141) are among the messages.
-/
namespace Remake

/-- A stream of the C library: what the kernel has taken, the buffer, the indicator for errors. -/
structure LostStream where
  file : Str
  buf : Str
  err : Bool
deriving DecidableEq, Repr

/-- The answer of the kernel when a buffer is written: how many characters are taken; and what the library leaves in the buffer if these are not all. -/
structure LostAns where
  takes : Nat
  left : Str
deriving DecidableEq, Repr

/-- A buffer is written (C library: `fflush`, or a full buffer, or a newline in a buffer by lines, output.c 472). -/
def LostStream.flush (s : LostStream) (a : LostAns) : LostStream :=
  if s.buf.length ≤ a.takes then { s with file := s.file ++ s.buf, buf := [] }
  else { file := s.file ++ s.buf.take a.takes, buf := a.left, err := true }

/-- Text goes into the buffer (C library: `fputs`, `printf`, `fwrite`). -/
def LostStream.put (s : LostStream) (t : Str) : LostStream := { s with buf := s.buf ++ t }

/-- Text goes into the buffer in pieces; after each piece the library writes the buffer. -/
def LostStream.pieces (s : LostStream) : List (Str × LostAns) → LostStream
  | [] => s
  | (t, a) :: ps => ((s.put t).flush a).pieces ps

/-- A call of `read` in `pump_from_tmp` and what comes with it (output.c 233-247): it fails; or so many characters come, the library writes while they are put, and then `fflush` does. -/
inductive LostRead where
  | fails
  | takes (n : Nat) (during after : LostAns)
deriving DecidableEq, Repr

/-- `pump_from_tmp` (output.c 218-256): the text of the temporary file goes to the stream, up to a failing `read` or a failing `fwrite`.  (The answer of `fflush` is not used.)  At the end of
the list and at the end of the file `read` gives nothing. -/
def lostPump (s : LostStream) : Str → List LostRead → LostStream
  | _, [] => s
  | _, .fails :: _ => s
  | t, .takes n d a :: rs =>
    if t = [] ∨ n = 0 then s
    else
      let s1 := s.put (t.take n)
      if s1.buf.length ≤ d.takes then lostPump ((s1.flush d).flush a) (t.drop n) rs
      else s1.flush d

/-- A make: its standard output was open at the start (`STREAM_OK`, output.c 52, 484), the streams, the temporary file. -/
structure LostSt where
  open' : Bool
  out : LostStream
  err : LostStream
  tmp : Str
deriving DecidableEq, Repr

/-- What a make does: a message without and with a context (output.c 60-65 and 66-74); text by `printf`, as for `-d` and `-p`; a flush (job.c 1223, and the library's own); a command writes into
the temporary file; the temporary file is dumped; make starts itself again. -/
inductive LostOp where
  | direct (isErr : Bool) (ps : List (Str × LostAns)) (rest : Str) (a : LostAns)
  | saved (t : Str) (takes : Nat)
  | print (t : Str)
  | flush (a : LostAns)
  | command (t : Str)
  | dump (rs : List LostRead)
  | restart (a : LostAns)
deriving DecidableEq, Repr

/-- One step (output.c 58-75, 218-256, 387-403; main.c 2317-2331). -/
def lostStep (st : LostSt) : LostOp → LostSt
  | .direct false ps rest a => { st with out := ((st.out.pieces ps).put rest).flush a }
  | .direct true ps rest a => { st with err := ((st.err.pieces ps).put rest).flush a }
  | .saved t n => { st with tmp := st.tmp ++ t.take n }
  | .print t => { st with out := st.out.put t }
  | .flush a => { st with out := st.out.flush a }
  | .command t => { st with tmp := st.tmp ++ t }
  | .dump rs => { st with out := lostPump st.out st.tmp rs, tmp := [] }
  | .restart a =>
    { st with out := { file := (st.out.flush a).file, buf := [], err := false }
              err := { st.err with buf := [], err := false }
              tmp := [] }

/-- A history. -/
def lostRun (st : LostSt) (ops : List LostOp) : LostSt := ops.foldl lostStep st

/-- The end of make: what is in the file, the exit status, and whether it says "write error: stdout". -/
structure LostEnd where
  file : Str
  status : Nat
  said : Bool
deriving DecidableEq, Repr

/-- `exit` with a status (main.c 3357): `close_stdout` (output.c 438-453) if it was asked for (output.c 483-486), else the library only writes the buffer.  `closes`: whether `close` succeeds.
`MAKE_TROUBLE` is 1 (makeint.h 704). -/
def lostExit (st : LostSt) (status : Nat) (a : LostAns) (closes : Bool) : LostEnd :=
  let s := { st.out with err := false }.flush a
  if st.open' then
    if st.out.err ∨ s.err ∨ ¬ closes then ⟨s.file, 1, true⟩ else ⟨s.file, status, false⟩
  else ⟨s.file, status, false⟩

end Remake
