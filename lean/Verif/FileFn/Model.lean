import Verif.Base.Chars

/-!
# The function `file`

Models `func_file` (function.c 2036-2119) with the addresses of the buffer that it writes to (`variable_buffer_output`, expand.c 55-72).
The files are a map from names to contents; which names `fopen` refuses for other reasons than a missing file, and whether reading or
writing fails, are parameters.  So is where `xrealloc` puts the buffer when it grows.  Simplified: two names are two files (`./a` and `a`);
no system call is interrupted (`ENULLLOOP` would repeat it); a failing write leaves no trace, as make ends there.
-/
namespace Remake

/-- How `fopen`, and what follows it, fail for a name. -/
structure FileErrs where
  openWrite : Str → Bool := fun _ => false
  openRead : Str → Bool := fun _ => false
  write : Str → Bool := fun _ => false
  read : Str → Bool := fun _ => false

/-- The fatal errors of `func_file` (function.c 2056 and 2081, 2084, 2116, 2060 and 2091, 2068 and 2071, 2103 and 2108). -/
inductive FileErr where
  | missingName
  | tooMany
  | invalid
  | openFails
  | writeFails
  | readFails
deriving DecidableEq, Repr

/-- `variable_buffer` (expand.c 45-46): its address, its length and the text before the pointer `o`.  So `o` is `base + text.length`. -/
structure OutBuf where
  base : Nat
  len : Nat
  text : Str
deriving DecidableEq, Repr

/-- The pointer `o` into the buffer (expand.c 48-53). -/
def OutBuf.ptr (b : OutBuf) : Nat := b.base + b.text.length

/-- `variable_buffer_output` (expand.c 55-72); `move` is the address that `xrealloc` gives for an old address and a new length. -/
def outPut (move : Nat → Nat → Nat) (b : OutBuf) (s : Str) : OutBuf :=
  if s.length + b.text.length + 5 > b.len then
    let len := if s.length + b.text.length + 100 > 2 * b.len then s.length + b.text.length + 100 else 2 * b.len
    ⟨move b.base len, len, b.text ++ s⟩
  else { b with text := b.text ++ s }

/-- What `func_file` does: a fatal error, or the buffer and the files after it. -/
inductive FileRes where
  | fatal (e : FileErr)
  | done (buf : OutBuf) (files : Str → Option Str)

/-- The content of one file is set. -/
def putFile (files : Str → Option Str) (name content : Str) : Str → Option Str :=
  fun n => if n = name then some content else files n

/-- What is written for `argv[1]` (function.c 2064-2067). -/
def fileLine (text : Str) : Str :=
  if text.length = 0 ∨ text.getLast? ≠ some '\n' then text ++ ['\n'] else text

/-- The loop with `fread` into 1024 bytes (function.c 2094-2106): a short block means the end; an empty one is not put out. -/
def freadLoop (move : Nat → Nat → Nat) (content : Str) (b : OutBuf) : OutBuf :=
  if content.length < 1024 then (if content.length > 0 then outPut move b content else b)
  else freadLoop move (content.drop 1024) (outPut move b (content.take 1024))
termination_by content.length
decreasing_by simp [List.length_drop]; omega

/-- "Remove trailing newline" (function.c 2110-2113).  `preo` is the pointer from before the loop (2075), which is not moved along with the
buffer; the comparison is the one of the addresses. -/
def cutNewline (preo : Nat) (b : OutBuf) : OutBuf :=
  if b.ptr > preo ∧ b.text.getLast? = some '\n' then
    let b := { b with text := b.text.dropLast }
    if b.ptr > preo ∧ b.text.getLast? = some '\r' then { b with text := b.text.dropLast } else b
  else b

/-- `func_file` after `>` or, if `append`, `>>` (function.c 2053-2072). -/
def fileWrite (errs : FileErrs) (append : Bool) (fn : Str) (arg : Option Str) (files : Str → Option Str) (b : OutBuf) : FileRes :=
  let name := nextToken fn
  if name = [] then .fatal .missingName
  else if errs.openWrite name then .fatal .openFails
  else
    let old := if append then (files name).getD [] else []
    match arg with
    | none => .done b (putFile files name old)
    | some text => if errs.write name then .fatal .writeFails else .done b (putFile files name (old ++ fileLine text))

/-- `func_file` after `<` (function.c 2074-2114). -/
def fileRead (errs : FileErrs) (move : Nat → Nat → Nat) (fn : Str) (arg : Option Str) (files : Str → Option Str) (b : OutBuf) : FileRes :=
  let name := nextToken fn
  if name = [] then .fatal .missingName
  else if arg.isSome then .fatal .tooMany
  else if errs.openRead name then .fatal .openFails
  else match files name with
    | none => .done b files
    | some content =>
      if errs.read name then .fatal .readFails else .done (cutNewline b.ptr (freadLoop move content b)) files

/-- `func_file` (function.c 2036-2119). -/
def funcFile (errs : FileErrs) (move : Nat → Nat → Nat) (arg0 : Str) (arg1 : Option Str) (files : Str → Option Str) (b : OutBuf) : FileRes :=
  match arg0 with
  | '>' :: fn =>
    match fn with
    | '>' :: fn => fileWrite errs true fn arg1 files b
    | _ => fileWrite errs false fn arg1 files b
  | '<' :: fn => fileRead errs move fn arg1 files b
  | _ => .fatal .invalid

/-- Several calls of `file`, one after the other, whose texts all go to one buffer, as in the expansion of one line; the first fatal error
ends make (expand.c 193-407, function.c 2036-2119). -/
def fileCalls (errs : FileErrs) (move : Nat → Nat → Nat) : List (Str × Option Str) → (Str → Option Str) → OutBuf → FileRes
  | [], files, b => .done b files
  | (arg0, arg1) :: rest, files, b =>
    match funcFile errs move arg0 arg1 files b with
    | .fatal e => .fatal e
    | .done b files => fileCalls errs move rest files b

end Remake
