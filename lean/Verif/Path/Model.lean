import Verif.Text.Model
/-!
# abspath

Models `src/function.c` lines 1863-1976 (`abspath`) and 2121-2154 (`func_abspath`), POSIX paths.
The buffer `apath` up to `dest` is kept reversed.  `limit` is `GET_PATH_MAX`;
`start` is the global `starting_directory` (`none`: NULL).
-/
set_option linter.unusedVariables false
namespace Remake

/-- "Back up to previous component" (function.c 1952-1953): `for (--dest; dest[-1] is not a
separator; --dest)`. -/
def absBackup (dest : Str) : Str := dest.tail.dropWhile (fun c => c != '/')

/-- `if (dest > apath + root_len)` back up (function.c 1951-1953); `root_len` is 1. -/
def absUp (dest : Str) : Str := if dest.length > 1 then absBackup dest else dest

/-- `if (! STOP_SET (dest[-1], MAP_DIRSEP)) *dest++ = '/';` (function.c 1957-1958). -/
def absSlash (dest : Str) : Str := if dest.head? = some '/' then dest else '/' :: dest

theorem absGo_dec {name : Str} {c : Char} {cs : Str} (h : name.dropWhile (· == '/') = c :: cs) :
    ((c :: cs).dropWhile (fun c => c != '/')).length < name.length := by
  have h1 := dropWhile_length_le (· == '/') name
  have h2 := dropWhile_length_le (fun c => c != '/') cs
  have h3 : (c != '/') = true := by
    have hne : name.dropWhile (· == '/') ≠ [] := by rw [h]; simp
    have := List.head_dropWhile_not (· == '/') (l := name) hne
    simp only [h, List.head_cons] at this
    simpa using this
  rw [h] at h1
  simp only [List.dropWhile_cons, h3, if_true]
  simp at h1
  omega

/-- The component loop of `abspath` (function.c 1930-1967): the reversed buffer at the end, or
`none` for the NULL return. -/
def absGo (limit : Nat) (dest : Str) (name : Str) : Option Str :=
  match h : name.dropWhile (· == '/') with
  | [] => some dest
  | c :: cs =>
    let comp := (c :: cs).takeWhile (fun c => c != '/')
    let rest := (c :: cs).dropWhile (fun c => c != '/')
    if comp = ['.'] then absGo limit dest rest
    else if comp = ['.', '.'] then
      absGo limit (absUp dest) rest
    else if (absSlash dest).length + comp.length ≥ limit then none
    else absGo limit (comp.reverse ++ absSlash dest) rest
termination_by name.length
decreasing_by all_goals exact absGo_dec h

/-- `abspath` (function.c 1863-1976). -/
def abspath (start : Option Str) (limit : Nat) (name : Str) : Option Str :=
  match name with
  | [] => none
  | c :: cs =>
    let init : Option (Str × Str) :=
      if c ≠ '/' then
        match start with
        | none => none
        | some s => some (s.reverse, c :: cs)
      else some (['/'], cs)
    match init with
    | none => none
    | some (dest, name) =>
      match absGo limit dest name with
      | none => none
      | some d =>
        some (if d.length > 1 ∧ d.head? = some '/' then d.tail else d).reverse

/-- The loop body of `func_abspath` (function.c 2130-2147). -/
def abspathStep (start : Option Str) (limit : Nat) (st : Str × Bool) (w : Str) : Str × Bool :=
  if w.length < limit then
    match abspath start limit w with
    | some p => (st.1 ++ p ++ [' '], true)
    | none => st
  else st

/-- `func_abspath` (function.c 2121-2154). -/
def funcAbspath (start : Option Str) (limit : Nat) (text : Str) : Str :=
  let r := (tokens text).foldl (abspathStep start limit) ([], false)
  killLast r.2 r.1

end Remake
