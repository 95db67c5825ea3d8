import Verif.Base.Chars
set_option linter.unusedVariables false
/-!
# The directory make works in

Models `src/main.c` 1230-1247 (where make starts), 1511-1522 (`MAKE_COMMAND`), 1617-1627 (`-C`), 1647-1666 (`CURDIR`), 2262-2276 (before a restart), the moves of
`src/read.c` 251-256 (`-c`; when they are made is C99), and what `src/function.c` 1874-1881 puts before a relative name (the rest of `abspath` is C13).

Simplifications: directories are abstract; after a failing `getcwd` its buffer is given (`junk`).
-/
namespace Remake

/-- The kernel: changing directory, the name of the current one, and the file that a name leads to. -/
structure CwWorld (δ φ : Type) where
  chdir : δ → Str → Option δ
  getcwd : δ → Option Str
  file : δ → Str → φ

variable {δ φ : Type}

/-- The state: the current directory, `CURDIR`, `starting_directory`, `directory_before_chdir`, and `argv[0]`, which is `MAKE_COMMAND`. -/
structure CwSt (δ : Type) where
  cwd : δ
  curdir : Str
  starting : Option Str
  before : Option Str
  prog : Str
deriving DecidableEq, Repr

/-- `MAKE_COMMAND` (main.c 1516-1519). -/
def cwProg (cur argv0 : Str) : Str :=
  if cur ≠ [] ∧ argv0.head? ≠ some '/' ∧ '/' ∈ argv0 then cur ++ '/' :: argv0 else argv0

/-- The loop over `-C` (main.c 1617-1627); none is the fatal error. -/
def cwMoves (W : CwWorld δ φ) (d : δ) : List Str → Option δ
  | [] => some d
  | x :: xs =>
    match W.chdir d x with
    | none => none
    | some d' => cwMoves W d' xs

/-- The start of make up to the definition of `CURDIR` (main.c 1230-1247, 1516-1522, 1617-1666). -/
def cwStart (W : CwWorld δ φ) (junk : Str) (d0 : δ) (argv0 : Str) (dirs : List Str) : Option (CwSt δ) :=
  let cur := (W.getcwd d0).getD []
  match cwMoves W d0 dirs with
  | none => none
  | some d1 =>
    some
      { cwd := d1
        curdir := if dirs = [] then cur else (W.getcwd d1).getD junk
        starting := if dirs = [] then some cur else W.getcwd d1
        before := W.getcwd d0
        prog := cwProg cur argv0 }

/-- The search with `-c` goes up so many times (read.c 251-256); it stops where that fails. -/
def cwUp (W : CwWorld δ φ) (st : CwSt δ) : Nat → CwSt δ
  | 0 => st
  | n + 1 =>
    match W.chdir st.cwd "..".toList with
    | none => st
    | some d => cwUp W { st with cwd := d } n

/-- What `abspath` makes of a relative name, before it removes dots and slashes (function.c 1874-1881 and on). -/
def cwAbs (st : CwSt δ) (n : Str) : Option Str :=
  if n.head? = some '/' then some n
  else match st.starting with
    | none => none
    | some s => some (s ++ '/' :: n)

/-- A restart (main.c 2262-2276): the new make starts in the original directory if there is `-C`, else where the old one is. -/
def cwRestart (W : CwWorld δ φ) (junk : Str) (dirs : List Str) (st : CwSt δ) : Option (CwSt δ) :=
  if dirs = [] then cwStart W junk st.cwd st.prog dirs
  else
    match st.before with
    | none => none
    | some b =>
      match W.chdir st.cwd b with
      | none => none
      | some d => cwStart W junk d st.prog dirs

end Remake
