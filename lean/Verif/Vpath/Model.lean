import Verif.Text.Model
import Verif.Quote.Model
/-!
# Search paths: the `vpath` directive, `VPATH`, `GPATH`, and `-lNAME`

Models `construct_vpath_list`, `build_vpath_lists`, `gpath_search`, `selective_vpath_search`,
`vpath_search` (vpath.c 54-590), the `vpath` line of a makefile (read.c 868-894), `library_search`
(remake.c 1649-1804) and what `f_mtime` does with the name found (remake.c 1379-1417).

Not modelled: the storage (`strcache`, `free`), messages, the data base printed by
`print_vpath_data_base`.
-/
namespace Remake

/-- `struct vpath` (vpath.c 27-35).  `pat` is the pattern with the place of its `%`; `maxlen` is kept as in
the code. -/
structure VpathEntry where
  pat : Unq
  dirs : List Str
  maxlen : Nat
deriving Repr, DecidableEq

/-- `STOP_SET (c, MAP_BLANK|MAP_PATHSEP)` (misc.c 764-807): what stands between directories. -/
def isPathSep (c : Char) : Bool := isBlank c || c == ':'

/-- The loop over the text of the search path (vpath.c 227-271): the directories, the longest length
so far, from the position `p` on.  A run of separators has been skipped. -/
def splitDirs (maxlen : Nat) (p : Str) : List Str × Nat :=
  match h : p with
  | [] => ([], maxlen)
  | c :: cs =>
    let v := p.takeWhile (fun c => !isPathSep c)
    let v := if 1 < v.length ∧ v.getLast? = some '/' then v.dropLast else v
    let rest := ((c :: cs).dropWhile (fun c => !isPathSep c)).dropWhile isPathSep
    if h2 : rest.length < p.length then
      if 1 < v.length ∨ v.head? ≠ some '.' then
        let r := splitDirs (max maxlen v.length) rest
        (v :: r.1, r.2)
      else splitDirs maxlen rest
    else ([], maxlen)
termination_by p.length
decreasing_by
  · simp only [List.length_cons] at h2 ⊢; rw [h] at h2; simpa using h2
  · simp only [List.length_cons] at h2 ⊢; rw [h] at h2; simpa using h2

/-- The text after the separators at its start (vpath.c 210-212). -/
def skipSeps (s : Str) : Str := s.dropWhile isPathSep

/-- `maxelem` (vpath.c 218-222): the room for the directories and the terminating nil. -/
def maxElem (dirpath : Str) : Nat := 2 + ((skipSeps dirpath).filter isPathSep).length

/-- `construct_vpath_list` (vpath.c 157-301) on the list `vpaths`, newest first.  `pattern = none` and
`dirpath = none` are the null pointers.  The test `percent - pattern == path->percent - path->pattern` with
one null pointer is taken to be false. -/
def constructVpath (pattern : Option Str) (dirpath : Option Str) (vpaths : List VpathEntry) :
    List VpathEntry :=
  match dirpath with
  | none =>
    match pattern with
    | none => []
    | some p => vpaths.filter (fun e => !decide (e.pat = findPercent p))
  | some d =>
    let r := splitDirs 0 (skipSeps d)
    if r.1 = [] then vpaths
    else { pat := findPercent (pattern.getD []), dirs := r.1, maxlen := r.2 } :: vpaths

/-- A line `vpath TEXT` (read.c 868-894), with the text expanded. -/
def vpathLine (text : Str) (vpaths : List VpathEntry) : List VpathEntry :=
  match findNextToken text with
  | none => constructVpath none none vpaths
  | some (pat, r) =>
    match nextToken r with
    | [] => constructVpath (some pat) none vpaths
    | dirs => constructVpath (some pat) (some dirs) vpaths

/-- The search paths after reading the makefiles. -/
structure VpathLists where
  vpaths : List VpathEntry
  general : Option VpathEntry
  gpath : Option VpathEntry
deriving Repr, DecidableEq

/-- One path of `build_vpath_lists` (vpath.c 85-102, 118-135): nothing if the text is empty. -/
def buildPath (text : Str) : Option VpathEntry :=
  if text = [] then none else (constructVpath (some ['%']) (some text) []).head?

/-- `build_vpath_lists` (vpath.c 54-136): `vpath` and `gpath` are the expanded and stripped values of
`VPATH` and `GPATH`. -/
def buildVpathLists (vpaths : List VpathEntry) (vpath gpath : Str) : VpathLists :=
  { vpaths := vpaths.reverse, general := buildPath vpath, gpath := buildPath gpath }

/-- The search paths for the expanded texts of the `vpath` lines of all makefiles, in order, and the values of
`VPATH` and `GPATH` (read.c 868-894; main.c 2023 builds the lists after all makefiles were read). -/
def readVpaths (lines : List Str) (vpath gpath : Str) : VpathLists :=
  buildVpathLists (lines.foldl (fun v t => vpathLine t v) []) vpath gpath

/-- `gpath_search` (vpath.c 306-318): `dir` is the text of length `len` at `file`. -/
def gpathSearch (l : VpathLists) (dir : Str) : Bool :=
  match l.gpath with
  | none => false
  | some g => decide (dir.length ≤ g.maxlen) && g.dirs.any (fun d => d == dir)

/-! ## Searching -/

/-- What the search knows about a file of the makefile: `is_target`, and the times set by `-o` (old) and
`-W` (new). -/
structure VpathFile where
  isTarget : Bool
  special : Option Bool := none
deriving Repr, DecidableEq

/-- The world the search looks at: the table of files, `dir_file_exists_p`, and `stat`. -/
structure VpathEnv where
  lookup : Str → Option VpathFile
  dirHas : Str → Str → Bool
  stat : Str → Option Nat

/-- The time stored in `*mtime_ptr`: that of `-o`/`-W`, that of `stat`, or `UNKNOWN_MTIME`. -/
inductive VpathTime where
  | special (new : Bool)
  | stat (t : Nat)
  | unknown
deriving Repr, DecidableEq

/-- The outcome for one directory: a file, nothing, or a read beyond the text of the name. -/
inductive VpathHit where
  | no
  | yes (name : Str) (time : VpathTime)
  | overrun
deriving Repr, DecidableEq

/-- `name_dplen` (vpath.c 355-364): the text before the last slash. -/
def dirPrefix (file : Str) : Str :=
  if '/' ∈ file then (file.reverse.dropWhile (· ≠ '/')).tail.reverse else []

/-- `filename` (vpath.c 365): the text after the last slash. -/
def lastPart (file : Str) : Str :=
  if dirPrefix file = [] then file else (file.reverse.takeWhile (· ≠ '/')).reverse

/-- What is in `name` before `p` (vpath.c 381-397). -/
def beforeP (dir file : Str) : Str :=
  if dirPrefix file = [] then dir else dir ++ '/' :: dirPrefix file

/-- `name` before it is looked up (vpath.c 404-422). -/
def pathName (dir file : Str) : Str :=
  if beforeP dir file ≠ [] ∧ (beforeP dir file).getLast? ≠ some '/' then
    beforeP dir file ++ '/' :: lastPart file
  else beforeP dir file ++ lastPart file

/-- `name` after a slash has been stored at `p` (vpath.c 493); `none` if that overwrites the
terminating NUL.  The copy returned (vpath.c 530) then has a second NUL, which as a string makes no
difference. -/
def clobbered (dir file : Str) : Option Str :=
  if beforeP dir file ≠ [] ∧ (beforeP dir file).getLast? ≠ some '/' then
    some (beforeP dir file ++ '/' :: lastPart file)
  else match lastPart file with
    | [] => none
    | _ :: r => some (beforeP dir file ++ '/' :: r)

/-- The room for `name` (vpath.c 372) and the bytes used of it (vpath.c 381-422, 493). -/
def nameRoom (maxlen : Nat) (file : Str) : Nat :=
  maxlen + 1 + (dirPrefix file).length + 1 + (lastPart file).length + 1

/-- The bytes stored in `name`, with the NUL. -/
def nameUsed (dir file : Str) : Nat :=
  max ((pathName dir file).length + 1) ((beforeP dir file).length + 1)

/-- One turn of the loop over the directories (vpath.c 375-532). -/
def tryDir (env : VpathEnv) (file dir : Str) : VpathHit :=
  let notTarget := match env.lookup file with
    | none => true
    | some f => !f.isTarget
  match (env.lookup (pathName dir file)).filter (fun f => notTarget || f.isTarget) with
  | some f =>
    match clobbered dir file with
    | none => .overrun
    | some name => .yes name (match f.special with
      | some b => .special b
      | none => .unknown)
  | none =>
    if env.dirHas (beforeP dir file) (lastPart file) then
      match clobbered dir file with
      | none => .overrun
      | some name =>
        match env.stat name with
        | none => .no
        | some t => .yes name (.stat t)
    else .no

/-- `selective_vpath_search` (vpath.c 327-535): the outcome and `path_index`. -/
def selectiveSearch (env : VpathEnv) (file : Str) : Nat → List Str → VpathHit × Nat
  | i, [] => (.no, i)
  | i, d :: ds =>
    match tryDir env file d with
    | .no => selectiveSearch env file (i + 1) ds
    | h => (h, i)

/-- The loop over `vpaths` and `general_vpath` (vpath.c 566-587): the outcome, `vpath_index` and
`path_index`. -/
def vpathLoop (env : VpathEnv) (general : Option VpathEntry) (file : Str) :
    Nat → List VpathEntry → VpathHit × Nat × Nat
  | i, [] =>
    match general with
    | none => (.no, i, 0)
    | some g => let r := selectiveSearch env file 0 g.dirs; (r.1, i, r.2)
  | i, v :: vs =>
    if patternMatches v.pat file then
      match selectiveSearch env file 0 v.dirs with
      | (.no, _) => vpathLoop env general file (i + 1) vs
      | (h, j) => (h, i, j)
    else vpathLoop env general file (i + 1) vs

/-- `vpath_search` (vpath.c 544-590). -/
def vpathSearch (env : VpathEnv) (l : VpathLists) (file : Str) : VpathHit × Nat × Nat :=
  if file.head? = some '/' ∨ (l.vpaths = [] ∧ l.general = none) then (.no, 0, 0)
  else vpathLoop env l.general file 0 l.vpaths

/-! ## Libraries -/

/-- The names of the library according to `.LIBPATTERNS` (remake.c 1692-1719); words without `%` are
skipped with a warning. -/
def libNames (patterns : Str) (lib : Str) : List Str :=
  (tokens patterns).filterMap (fun p =>
    match findPercent p with
    | .none _ => none
    | .found pre _ post => some (pre ++ lib ++ post))

/-- The best file so far in `library_search`: the name, `best_vpath` and `best_path`. -/
structure LibBest where
  name : Str
  vpath : Nat
  path : Nat
deriving Repr, DecidableEq

/-- The loop over the standard directories (remake.c 1780-1797); `vi` is `vpath_index`. -/
def libStd (stat : Str → Option Nat) (lib : Str) : Nat → List Str → Option LibBest → Option LibBest
  | _, [], best => best
  | vi, d :: ds, best =>
    let name := d ++ '/' :: lib
    let better := match best with
      | none => true
      | some b => decide (vi < b.vpath)
    libStd stat lib (vi + 1) ds
      (if (stat name).isSome && better then some { name := name, vpath := vi, path := (best.map (·.path)).getD 0 } else best)

/-- The loop over the patterns (remake.c 1692-1800), with names already made.  `base` is
`~0 - std_dirs`.  The result is `none` after a read beyond the end of a name. -/
def libLoop (env : VpathEnv) (l : VpathLists) (std : List Str) (base : Nat) :
    List Str → Option LibBest → Option (Option Str)
  | [], best => some (best.map (·.name))
  | n :: ns, best =>
    if (env.stat n).isSome then some (some n)
    else
      match vpathSearch env l n with
      | (.overrun, _) => none
      | (.no, _) => libLoop env l std base ns (libStd env.stat n base std best)
      | (.yes f _, vi, pi) =>
        let better := match best with
          | none => true
          | some b => decide (vi < b.vpath) || (decide (vi = b.vpath) && decide (pi < b.path))
        let best := if better then some { name := f, vpath := vi, path := pi } else best
        libLoop env l std base ns (libStd env.stat n base std best)

/-- `library_search` (remake.c 1649-1804) for the file `-lLIB`: `std` are the standard directories.
`vpath_index` is an unsigned int of 32 bits; the model does not wrap it.  `name_mtime` is `stat`. -/
def librarySearch (env : VpathEnv) (l : VpathLists) (std : List Str) (patterns lib : Str) :
    Option (Option Str) :=
  libLoop env l std (2 ^ 32 - 1 - std.length) (libNames patterns lib) none

/-! ## What is done with the name -/

/-- The outcome for a file that does not exist under its own name. -/
inductive NameOutcome where
  /-- not found -/
  | missing
  /-- found, and known by the new name from now on (GPATH) -/
  | renamed (name : Str)
  /-- found; the new name is used if the file is not remade -/
  | rehashed (name : Str)
  /-- a read outside of the name -/
  | outside
deriving Repr, DecidableEq

/-- The comparison with GPATH (remake.c 1400-1410): `name_len` is an unsigned difference, and the
character before it is read. -/
def applyGpath (l : VpathLists) (file name : Str) : NameOutcome :=
  if name.length ≤ file.length then .outside
  else
    let n := name.length - file.length
    let n := if name[n - 1]? = some '/' then n - 1 else n
    if gpathSearch l (name.take n) then .renamed name else .rehashed name

/-- The search made by `f_mtime` for a file that does not exist (remake.c 1381-1410); the file is not
an archive member and its `ignore_vpath` is not set. -/
def searchFile (env : VpathEnv) (l : VpathLists) (std : List Str) (patterns file : Str) : NameOutcome :=
  match (vpathSearch env l file).1 with
  | .overrun => .outside
  | .yes name _ => applyGpath l file name
  | .no =>
    if file.take 2 = ['-', 'l'] then
      match librarySearch env l std patterns (file.drop 2) with
      | none => .outside
      | some none => .missing
      | some (some name) => applyGpath l file name
    else .missing

end Remake
