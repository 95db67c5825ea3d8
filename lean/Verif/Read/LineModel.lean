import Verif.Base.Chars
/-!
# Reading logical lines

Models `readstring` and `readline` (`src/read.c` lines 2589-2735).

Simplifications.  A file is the list of its bytes; `fgets` never fails except at the
end of the file, and the line length stays below `INT_MAX` (the cast in line 2653).
-/
namespace Remake

/-- Number of backslashes at the end of a text. -/
def trailingBs (s : Str) : Nat := (s.reverse.takeWhile (· == '\\')).length

/-- Outcome of reading one line from a file. -/
structure LineRead where
  /-- The return value: -1 at the end of the file, else the number of lines read. -/
  ret : Int
  /-- The text at `ebuf->buffer`. -/
  line : Str
  /-- `ebuf->size` afterwards. -/
  size : Nat
  /-- The rest of the file. -/
  rest : Str
deriving DecidableEq, Repr

/-- `fgets (p, n, fp)` (C standard): at most `n - 1` bytes, stopping after a newline. -/
def fgets : Nat → Str → Str × Str
  | n + 2, c :: cs =>
    if c = '\n' then ([c], cs)
    else
      let (a, b) := fgets (n + 1) cs
      (c :: a, b)
  | _, f => ([], f)

theorem fgets_append (n : Nat) (f : Str) : (fgets n f).1 ++ (fgets n f).2 = f := by
  induction f generalizing n with
  | nil => cases n with
    | zero => rfl
    | succ n => cases n <;> rfl
  | cons c cs ih =>
    match n with
    | 0 => rfl
    | 1 => rfl
    | n + 2 =>
      rw [fgets]; split
      · rfl
      · simp [ih]

theorem fgets_dec {n : Nat} {f : Str} (hc : ¬ (fgets n f).1 = []) : (fgets n f).2.length < f.length := by
  have h := congrArg List.length (fgets_append n f)
  have h2 : 0 < (fgets n f).1.length := List.length_pos_iff.mpr hc
  rw [List.length_append] at h
  omega

/-- The second half of the loop body of `readline`: the CR-LF rule (read.c 2687-2693).  `buf`
ends in a newline. -/
def dropLastCr (buf : Str) : Str :=
  if 1 < buf.length ∧ buf[buf.length - 2]? = some '\r' then
    buf.take (buf.length - 2) ++ buf.drop (buf.length - 1)
  else buf

/-- The loop of `readline` (read.c 2653-2725) and its end (2727-2734).  `buf` is the text
between `start` and `p`, `size` is `ebuf->size`, `f` the unread part of the file.
`none`: `fgets` was called with no space left. -/
def readlineLoop (buf : Str) (size : Nat) (nlines : Nat) (f : Str) : Option LineRead :=
  if hf : f = [] then
    some ⟨if nlines ≠ 0 then nlines else if buf = [] then -1 else 1, buf, size, []⟩
  else if hc : (fgets (size - buf.length) f).1 = [] then none
  else
    let chunk := (fgets (size - buf.length) f).1
    let rest := (fgets (size - buf.length) f).2
    let txt := chunk.takeWhile (· != '\x00')
    let txt := if txt = [] then ['\n'] else txt
    let buf := buf ++ txt
    if buf.getLast? ≠ some '\n' then readlineLoop buf (size * 2) nlines rest
    else
      let buf := dropLastCr buf
      if trailingBs buf.dropLast % 2 = 0 then some ⟨(nlines + 1 : Nat), buf.dropLast, size, rest⟩
      else if size - buf.length ≥ 80 then readlineLoop buf size (nlines + 1) rest
      else readlineLoop buf (size * 2) (nlines + 1) rest
termination_by f.length
decreasing_by all_goals exact fgets_dec hc

/-- `readline` on a file (read.c 2632-2735). -/
def readline (size : Nat) (f : Str) : Option LineRead := readlineLoop [] size 0 f

/-- Reading a whole file line by line, as `eval` does (read.c 658-674): the texts and the
return values. -/
def readFileGo (fuel size : Nat) (f : Str) : Option (List (Str × Int)) :=
  match fuel with
  | 0 => none
  | fuel + 1 =>
    match readline size f with
    | none => none
    | some r =>
      if r.ret < 0 then some []
      else (readFileGo fuel r.size r.rest).map fun ls => (r.line, r.ret) :: ls

/-- The lines of a file; the initial buffer has 200 bytes (read.c 431). -/
def readFile (f : Str) : Option (List (Str × Int)) := readFileGo (f.length + 1) 200 f

/-- The loop of `readstring` (read.c 2603-2622): the line and what follows its newline;
`acc` is the text before `eol`.  `none` for the rest means the text ended. -/
def readstringLoop (acc : Str) : Str → Str × Option Str
  | [] => (acc, none)
  | '\n' :: cs =>
    -- the backslashes are counted back to the beginning of the physical line (2618)
    let bol := (acc.reverse.takeWhile (· != '\n')).reverse
    if trailingBs bol % 2 = 0 then (acc, some cs)
    else readstringLoop (acc ++ ['\n']) cs
  | c :: cs => readstringLoop (acc ++ [c]) cs

/-- All lines of a string (`readstring`, read.c 2589-2630, until it returns -1). -/
def readStringGo : Nat → Str → List Str
  | 0, _ => []
  | fuel + 1, s =>
    if s = [] then []
    else
      match readstringLoop [] s with
      | (l, none) => [l]
      | (l, some rest) => l :: readStringGo fuel rest

/-- The lines of a string. -/
def readString (s : Str) : List Str := readStringGo (s.length + 1) s

end Remake
