import Verif.Glob.Match
/-!
# Files with wildcards

Models `glob`, `glob_in_dir`, `prefix_array`, `__glob_pattern_p` (lib/glob.c 363-1066, 1109-1413) for the flags that make gives
(read.c 3384: `GLOB_ALTDIRFUNC`), so that `GLOB_BRACE`, `GLOB_TILDE`, `GLOB_NOCHECK`, `GLOB_NOMAGIC`, `GLOB_DOOFFS`, `GLOB_ERR`,
`GLOB_APPEND` and the error function are absent.  Memory is never exhausted.  The list of names that a call makes is empty
exactly when it returns `GLOB_NOMATCH`.
-/
set_option linter.unusedVariables false
namespace Remake

/-- What `readdir` gives (glob.c 1322-1337): `real`: `REAL_DIR_ENTRY`; `other`: the type is known and is neither a directory nor a
symbolic link. -/
structure DirEnt where
  name : Str
  real : Bool := true
  other : Bool := false
deriving DecidableEq, Repr

/-- What the system says: `stat` succeeds, it says a directory, the entries of a directory (none if it cannot be opened), and
those in the cache of directories (`open_dirstream`, `read_dirstream`: dir.c 849-918). -/
structure GlobSys where
  stat : Str → Bool
  isDir : Str → Bool
  opendir : Str → Option (List DirEnt)
  cached : Str → Option (List DirEnt)
  posixly : Bool := false

/-- `__glob_pattern_p` with `quote` (glob.c 1177-1207). -/
def globPatternP (opened : Bool) : Str → Bool
  | [] => false
  | c :: p =>
    if c = '?' ∨ c = '*' then true
    else if c = '\\' then
      match p with
      | [] => false
      | _ :: p => globPatternP opened p
    else if c = '[' then globPatternP true p
    else if c = ']' then opened || globPatternP opened p
    else globPatternP opened p

/-- The loop over a directory (glob.c 1319-1358): `names` is the list `names`; none: a read outside of the pattern. -/
def globNames (posixly onlydir : Bool) (pattern : Str) : List DirEnt → List Str → Option (List Str)
  | [], names => some names
  | d :: ds, names =>
    if d.real = false then globNames posixly onlydir pattern ds names
    else if onlydir && d.other then globNames posixly onlydir pattern ds names
    else
      match fnmatch { posixly := posixly } true pattern d.name with
      | none => none
      | some true => globNames posixly onlydir pattern ds (d.name :: names)
      | some false => globNames posixly onlydir pattern ds names

/-- `glob_in_dir` (glob.c 1219-1413); `alt`: `GLOB_ALTDIRFUNC`, `onlydir`: `GLOB_ONLYDIR`. -/
def globInDir (sys : GlobSys) (alt onlydir : Bool) (pattern directory : Str) : Option (List Str) :=
  if globPatternP false pattern = false then
    some (if sys.stat (directory ++ '/' :: pattern) then [pattern] else [])
  else
    match (if alt then sys.cached else sys.opendir) directory with
    | none => some []
    | some ds => globNames sys.posixly onlydir pattern ds []

/-- `prefix_array` (glob.c 1109-1169). -/
def prefixArray (dirname : Str) (names : List Str) : List Str :=
  names.map fun n => (if dirname = ['/'] then [] else dirname) ++ '/' :: n

/-- `strrchr (pattern, '/')` (glob.c 513): the text before and after. -/
def lastSlash (s : Str) : Option (Str × Str) :=
  match s.reverse.dropWhile (· ≠ '/') with
  | [] => none
  | _ :: d => some (d.reverse, (s.reverse.takeWhile (· ≠ '/')).reverse)

theorem lastSlash_eq {s d f : Str} (h : lastSlash s = some (d, f)) : s = d ++ '/' :: f ∧ '/' ∉ f := by
  unfold lastSlash at h
  split at h
  · cases h
  · rename_i c t ht
    cases h
    have h1 := List.takeWhile_append_dropWhile (p := fun x : Char => decide (x ≠ '/')) (l := s.reverse)
    have h2 : c = '/' := by
      have := List.head?_dropWhile_not (fun x : Char => decide (x ≠ '/')) s.reverse
      rw [ht] at this
      simpa using this
    rw [ht, h2] at h1
    constructor
    · have := congrArg List.reverse h1
      simp only [List.reverse_append, List.reverse_cons, List.reverse_reverse, List.append_assoc, List.singleton_append] at this
      exact this.symm
    · intro hm
      have : ∀ (l : Str), ∀ x ∈ l.takeWhile (fun x : Char => decide (x ≠ '/')), x ≠ '/' := by
        intro l
        induction l with
        | nil => simp
        | cons y l ih =>
          intro x hx
          rw [List.takeWhile_cons] at hx
          split at hx
          · rename_i hy
            rcases List.mem_cons.1 hx with rfl | hx
            · simpa using hy
            · exact ih x hx
          · simp at hx
      exact this _ '/' (by simpa using hm) rfl

/-- The names in each of the directories, with the directory in front (glob.c 872-916). -/
def globDirs (sys : GlobSys) (alt onlydir : Bool) (filename : Str) : List Str → Option (List Str)
  | [] => some []
  | d :: ds =>
    match globInDir sys alt onlydir filename d with
    | none => none
    | some names =>
      match globDirs sys alt onlydir filename ds with
      | none => none
      | some r => some (prefixArray d names ++ r)

/-- `GLOB_MARK` (glob.c 1029-1050). -/
def globMark (sys : GlobSys) (mark : Bool) (names : List Str) : List Str :=
  names.map fun n => if mark && sys.isDir n then n ++ ['/'] else n

/-- `glob` before the names are sorted (glob.c 363-1050). -/
def globList (sys : GlobSys) (alt mark onlydir : Bool) (pattern : Str) : Option (List Str) :=
  let only := onlydir || pattern.getLast? == some '/'
  match h : lastSlash pattern with
  | none => (globInDir sys alt only pattern ['.']).map (globMark sys mark)
  | some ([], f) => (globInDir sys alt only f ['/']).map fun l => globMark sys mark (prefixArray ['/'] l)
  | some (c :: d, f) =>
    if f = [] ∧ d ≠ [] then globList sys alt true only (c :: d)
    else if globPatternP false (c :: d) then
      match globList sys false false true (c :: d) with
      | none => none
      | some dirs => (globDirs sys alt only f dirs).map (globMark sys mark)
    else (globInDir sys alt only f (c :: d)).map fun l => globMark sys mark (prefixArray (c :: d) l)
termination_by pattern.length
decreasing_by
  all_goals
    have := (lastSlash_eq h).1
    rw [this]
    simp only [List.length_append, List.length_cons]
    omega

/-- `glob` as make calls it (read.c 3384); `coll` is `strcoll`, and the names are in some order that `qsort` may give (glob.c
1052-1063). -/
def Globs (sys : GlobSys) (coll : Str → Str → Int) (pattern : Str) (names : List Str) : Prop :=
  ∃ l, globList sys true false false pattern = some l ∧ names.Perm l ∧ names.Pairwise fun a b => coll a b ≤ 0

end Remake
