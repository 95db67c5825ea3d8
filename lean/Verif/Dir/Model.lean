import Verif.Base.Chars

/-!
# The cache of directories

Models `src/dir.c` lines 230-255, 313-379, 412-737 and 839-912 (the
common build: no VMS, no WINDOWS32, names that differ in case are different).

Simplifications.  The hash tables are association lists (that they are maps is shown in `Verif/Hash`).  A `struct directory_contents` in
the table `directory_contents` is named by its key, the device and inode; one that is left out of the table belongs to exactly one
directory.  A directory stream is the list of what `readdir` will still return.  `dirfile.type` is left out.  System calls that are
interrupted are repeated in the code (`EINTRLOOP`, `ENULLLOOP`) and are one call here.  Allocation does not fail.
-/
set_option linter.unusedVariables false
namespace Remake

/-- The value for a key. -/
def assocGet {α β : Type} [DecidableEq α] (k : α) : List (α × β) → Option β
  | [] => none
  | (a, b) :: l => if a = k then some b else assocGet k l

/-- Replace the value for a key, or add it. -/
def assocSet {α β : Type} [DecidableEq α] (k : α) (v : β) : List (α × β) → List (α × β)
  | [] => [(k, v)]
  | (a, b) :: l => if a = k then (k, v) :: l else (a, b) :: assocSet k v l

/-- What a call of `readdir` returns before the end of the directory: an entry with its inode number, or an error (dir.c 545-554). -/
inductive Dirent where
  | entry (name : Str) (ino : Nat)
  | error
deriving DecidableEq, Repr

/-- Device and inode number (dir.c 232-252, 314-327). -/
abbrev DevIno := Nat × Nat

/-- The file system, as the code sees it at one time: the results of `stat` for names of directories, of `opendir` for the directory with a
given device and inode number, and what an open stream with these entries left will return from now on (the entries themselves if the
directory does not change). -/
structure DirWorld where
  stat : Str → Option DevIno
  opendir : DevIno → Option (List Dirent)
  resume : List Dirent → List Dirent

/-- `struct directory_contents` (dir.c 230-255) without its key.  `files` is `dirfiles`, `none` for a null `ht_vec`; the value for a name
is `impossible` of its `struct dirfile` (dir.c 373-379).  `stream` is `dirstream`. -/
structure DirContents where
  files : Option (List (Str × Bool))
  stream : Option (List Dirent)
deriving DecidableEq, Repr

/-- The member `contents` of `struct directory` (dir.c 332-340): an entry of the table of contents, or, if `stat` failed, a null
pointer or a structure left out of the table. -/
inductive DirRef where
  | known (id : DevIno)
  | unknown (c : Option DirContents)
deriving DecidableEq, Repr

/-- `directories`, `directory_contents` and `open_directories` (dir.c 330, 362, 368). -/
structure DirState where
  dirs : List (Str × DirRef)
  contents : List (DevIno × DirContents)
  opened : Nat
deriving DecidableEq, Repr

/-- The state at the start (dir.c 986-994). -/
def DirState.init : DirState := ⟨[], [], 0⟩

/-- `MAX_OPEN_DIRECTORIES` (dir.c 366). -/
def maxOpenDirectories : Nat := 10

/-- The loop over the rest of a directory (dir.c 538-578), looking for `file` if there is one: the answer, the table and the stream
afterwards, `none` for the stream when the end was reached (dir.c 580-588); nothing for the fatal error.  Entries with inode number 0 are
passed over (`REAL_DIR_ENTRY`, dir.c 51). -/
def readDir (file : Option Str) : List (Str × Bool) → List Dirent → Option (Bool × List (Str × Bool) × Option (List Dirent))
  | files, [] => some (false, files, none)
  | _, .error :: _ => none
  | files, .entry n ino :: rest =>
    if ino = 0 then readDir file files rest
    else
      let files := assocSet n false files
      if file = some n then some (true, files, some rest) else readDir file files rest

/-- `dir_contents_file_exists_p` (dir.c 498-589) for contents that are not null; also tells whether the stream was closed. -/
def contentsExists (w : DirWorld) (c : DirContents) (file : Option Str) : Option (Bool × DirContents × Bool) :=
  match c.files with
  | none => some (false, c, false)
  | some files =>
    if file = some [] then some (true, c, false)
    else
      match file.bind (fun f => assocGet f files) with
      | some impossible => some (!impossible, c, false)
      | none =>
        match c.stream with
        | none => some (false, c, false)
        | some s =>
          match readDir file files (w.resume s) with
          | none => none
          | some (r, files', s') => some (r, ⟨some files', s'⟩, s'.isNone)

/-- The contents a directory points to. -/
def DirState.get (st : DirState) : DirRef → Option DirContents
  | .known id => assocGet id st.contents
  | .unknown c => c

/-- The contents of the directory `name` with new values. -/
def DirState.put (st : DirState) (name : Str) (c : DirContents) : DirRef → DirState
  | .known id => { st with contents := assocSet id c st.contents }
  | .unknown _ => { st with dirs := assocSet name (.unknown (some c)) st.dirs }

/-- New contents, for a directory not seen before (dir.c 459-485). -/
def newContents (w : DirWorld) (id : DevIno) (st : DirState) : Option DirState :=
  match w.opendir id with
  | none => some { st with contents := assocSet id ⟨none, none⟩ st.contents }
  | some s =>
    let c : DirContents := ⟨some [], some s⟩
    if st.opened + 1 = maxOpenDirectories then
      match contentsExists { w with resume := fun s => s } c none with
      | none => none
      | some (_, c, closed) =>
        some { st with contents := assocSet id c st.contents, opened := if closed then st.opened else st.opened + 1 }
    else some { st with contents := assocSet id c st.contents, opened := st.opened + 1 }

/-- `find_directory` (dir.c 414-493). -/
def findDirectory (w : DirWorld) (name : Str) (st : DirState) : Option (DirRef × DirState) :=
  match assocGet name st.dirs with
  | some r => some (r, st)
  | none =>
    match w.stat name with
    | none => some (.unknown none, { st with dirs := assocSet name (.unknown none) st.dirs })
    | some id =>
      let st := { st with dirs := assocSet name (.known id) st.dirs }
      match assocGet id st.contents with
      | some _ => some (.known id, st)
      | none => (newContents w id st).map fun st => (.known id, st)

/-- `dir_contents_file_exists_p (find_directory (name)->contents, file)`: `dir_file_exists_p` (dir.c 595-600) and, with no file, the
reading of the rest (dir.c 863). -/
def dirFileExists (w : DirWorld) (name : Str) (file : Option Str) (st : DirState) : Option (Bool × DirState) :=
  match findDirectory w name st with
  | none => none
  | some (r, st) =>
    match st.get r with
    | none => some (false, st)
    | some c =>
      match contentsExists w c file with
      | none => none
      | some (b, c, closed) =>
        let st := st.put name c r
        some (b, if closed then { st with opened := st.opened - 1 } else st)

/-- The directory and the rest of a file name, as taken apart at the last slash (dir.c 619-634, 650-669, 701-720). -/
def dirBase (name : Str) : Str × Str :=
  let b := (name.reverse.takeWhile (fun c => decide (c ≠ '/'))).reverse
  match name.reverse.dropWhile (fun c => decide (c ≠ '/')) with
  | [] => (['.'], name)
  | _ :: p => if p = [] then (['/'], b) else (p.reverse, b)

/-- `file_exists_p` (dir.c 604-636).  `ar` is `ar_member_date` for names of archive members (dir.c 611-617), nothing for others. -/
def fileExists (w : DirWorld) (ar : Str → Option Bool) (name : Str) (st : DirState) : Option (Bool × DirState) :=
  match ar name with
  | some b => some (b, st)
  | none => dirFileExists w (dirBase name).1 (some (dirBase name).2) st

/-- `file_impossible` (dir.c 642-689). -/
def fileImpossible (w : DirWorld) (name : Str) (st : DirState) : Option DirState :=
  match findDirectory w (dirBase name).1 st with
  | none => none
  | some (r, st) =>
    let c := (st.get r).getD ⟨none, none⟩
    some (st.put (dirBase name).1 { c with files := some (assocSet (dirBase name).2 true (c.files.getD [])) } r)

/-- `file_impossible_p` (dir.c 693-737). -/
def fileImpossibleP (w : DirWorld) (name : Str) (st : DirState) : Option (Bool × DirState) :=
  match findDirectory w (dirBase name).1 st with
  | none => none
  | some (r, st) =>
    match st.get r with
    | none => some (false, st)
    | some c =>
      match c.files with
      | none => some (false, st)
      | some files => some ((assocGet (dirBase name).2 files).getD false, st)

/-- `open_dirstream` and `read_dirstream` up to the end (dir.c 849-870, 872-914): the names globbing gets to see; nothing if the directory
cannot be read.  Their order is that of the list; in the code it is that of the slots of the hash table. -/
def globDir (w : DirWorld) (name : Str) (st : DirState) : Option (Option (List Str) × DirState) :=
  match findDirectory w name st with
  | none => none
  | some (r, st) =>
    match st.get r with
    | none => some (none, st)
    | some c =>
      match c.files with
      | none => some (none, st)
      | some _ =>
        match contentsExists w c none with
        | none => none
        | some (_, c, closed) =>
          let st := st.put name c r
          some (some (((c.files.getD []).filter (fun e => !e.2)).map (·.1)),
            if closed then { st with opened := st.opened - 1 } else st)

/-- The calls other parts of the code make. -/
inductive DirOp where
  | exists_ (name : Str)
  | existsIn (dir name : Str)
  | mark (name : Str)
  | marked (name : Str)
  | glob (dir : Str)
deriving DecidableEq, Repr

/-- One call; its answer matters not. -/
def DirOp.run (w : DirWorld) (ar : Str → Option Bool) (st : DirState) : DirOp → Option DirState
  | .exists_ n => (fileExists w ar n st).map (·.2)
  | .existsIn d n => (dirFileExists w d (some n) st).map (·.2)
  | .mark n => fileImpossible w n st
  | .marked n => (fileImpossibleP w n st).map (·.2)
  | .glob d => (globDir w d st).map (·.2)

/-- A history of calls, each with the file system of its time. -/
def runDirOps (ar : Str → Option Bool) : List (DirWorld × DirOp) → DirState → Option DirState
  | [], st => some st
  | (w, o) :: l, st => (o.run w ar st).bind (runDirOps ar l)

end Remake
