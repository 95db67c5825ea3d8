import Verif.Base.Chars
/-! Model of the records of files as the code has them, with pointers: `enter_file` (file_basic.c 129-185), `rehash_file`
(file.c 53-179), `rename_file` (file.c 185-194), `check_renamed` (filedef.h 241-242), `merge_variable_sets` and
`merge_variable_set_lists` (variable.c 785-860), and the walk of `update_file` over the double-colon records of a file
(remake.c 333-359).

A record is a number; the heap gives each number its record.  The table of files is a map from names to numbers (that the
table of `hash.c` is one is C01).  Names are compared as they are (no case-insensitive build). -/
set_option linter.unusedVariables false
namespace Remake

/-- The bits that `MERGE` ors (file.c 165-175). -/
structure RFlags where
  precious : Bool := false
  triedImplicit : Bool := false
  updating : Bool := false
  updated : Bool := false
  isTarget : Bool := false
  cmdTarget : Bool := false
  phony : Bool := false
  loaded : Bool := false
  ignoreVpath : Bool := false
deriving Repr, DecidableEq

/-- `MERGE` for all bits (file.c 165-175). -/
def RFlags.merge (t f : RFlags) : RFlags :=
  { precious := t.precious || f.precious
    triedImplicit := t.triedImplicit || f.triedImplicit
    updating := t.updating || f.updating
    updated := t.updated || f.updated
    isTarget := t.isTarget || f.isTarget
    cmdTarget := t.cmdTarget || f.cmdTarget
    phony := t.phony || f.phony
    loaded := t.loaded || f.loaded
    ignoreVpath := t.ignoreVpath || f.ignoreVpath }

/-- A set of variables of a file (`struct variable_set`), as names and values.  Only these two parts of a variable matter
for merging. -/
abbrev FScope := List (Str × Str)

/-- `struct file` (filedef.h 34-123), the parts that renaming uses.  A prerequisite is the number of its record, a recipe the
number of the rule it came from.  `vars` is the list of variable sets up to the global one, empty for a null pointer. -/
structure FNode where
  name : Str
  hname : Str
  deps : List Nat := []
  cmds : Option Nat := none
  vars : List FScope := []
  prev : Option Nat := none
  last : Option Nat := none
  renamed : Option Nat := none
  doubleColon : Option Nat := none
  lastMtime : Int := 0
  mtimeBefore : Int := 0
  flags : RFlags := {}
  builtin : Bool := false
deriving Repr, DecidableEq

/-- All records ever made and the table of files (file_basic.c 30). -/
structure RState where
  node : Nat → FNode
  count : Nat
  tbl : Str → Option Nat

/-- Nothing is known yet (`init_hash_files`, file_basic.c 187-191). -/
def RState.empty : RState := ⟨fun _ => ⟨[], [], [], none, [], none, none, none, none, 0, 0, {}, false⟩, 0, fun _ => none⟩

/-- Store a record. -/
def RState.upd (s : RState) (i : Nat) (n : FNode) : RState := { s with node := fun j => if j = i then n else s.node j }

/-- Store in the table. -/
def RState.put (s : RState) (n : Str) (o : Option Nat) : RState := { s with tbl := fun m => if m = n then o else s.tbl m }

/-- The messages about two recipes (file.c 112-130): the name the recipe is said to be specified for and the recipe whose place
is given (`none`: "was found by implicit rule search"), the two names said to be the same file, and the names in "Recipe for
… will be ignored in favor of the one for …". -/
structure RMsg where
  specifiedFor : Str
  place : Nat
  sameAs : Str × Str
  ignored : Str
  inFavorOf : Str
deriving Repr, DecidableEq

/-- How `rehash_file` ends: with a new state and perhaps messages; with `abort` (file.c 74, 80); with the fatal error about
double-colon rules (file.c 147, 152); or in a loop of `renamed` pointers that never ends. -/
inductive RRes where
  | ok (s : RState) (msgs : List RMsg)
  | abort
  | fatal
  | hang

/-- `check_renamed` (filedef.h 241-242), also file.c 70-71, cut off after `fuel` steps. -/
def followRenamed (s : RState) : Nat → Nat → Option Nat
  | 0, _ => none
  | fuel + 1, i => match (s.node i).renamed with
    | none => some i
    | some j => followRenamed s fuel j

/-- `merge_variable_sets` (variable.c 785-812): what `from_set` has is put into `to_set` unless it is there already. -/
def mergeScope (t f : FScope) : FScope := t ++ f.filter fun p => (t.lookup p.1).isNone

/-- `merge_variable_set_lists` (variable.c 816-860).  Simplified: the test that one list is the tail of the other is left out,
the lists of two files are taken to have no set in common. -/
def mergeScopes : List FScope → List FScope → List FScope
  | [], fs => fs
  | ts, [] => ts
  | t :: ts, f :: fs => mergeScope t f :: mergeScopes ts fs

/-- The loop `for (f = from_file->double_colon; f != 0; f = f->prev) f->hname = to_hname` (file.c 89-90), cut off after
`fuel` steps (in NDEBUG builds a chain is never cyclic). -/
def setHnames (s : RState) (to : Str) : Nat → Option Nat → RState
  | 0, _ => s
  | _, none => s
  | fuel + 1, some i => setHnames (s.upd i { s.node i with hname := to }) to fuel (s.node i).prev

/-- The messages of file.c 102-132, given when both records have recipes and these differ. -/
def recipeMsgs (f t : FNode) (to : Str) : List RMsg :=
  match f.cmds, t.cmds with
  | some cf, some ct => if cf ≠ ct then [⟨f.name, ct, (f.name, to), to, f.name⟩] else []
  | _, _ => []

/-- What `to_file` becomes (file.c 102-177), without the tests for fatal errors. -/
def mergedNode (f t : FNode) : FNode :=
  { t with
    cmds := match t.cmds with
      | none => f.cmds
      | some c => some c
    deps := t.deps ++ f.deps
    vars := mergeScopes t.vars f.vars
    doubleColon := if t.doubleColon = none then f.doubleColon else t.doubleColon
    lastMtime := if f.lastMtime > t.lastMtime then f.lastMtime else t.lastMtime
    mtimeBefore := f.mtimeBefore
    flags := t.flags.merge f.flags
    builtin := false }

/-- The part of `rehash_file` from the change of the hash name (file.c 87-179): `r` is the record that is renamed. -/
def rehashAt (s : RState) (r : Nat) (to : Str) : RRes :=
  let target := s.tbl to
  let s1 := s.upd r { s.node r with hname := to }
  let s2 := setHnames s1 to s1.count (s1.node r).doubleColon
  match target with
  | none => .ok (s2.put to (some r)) []
  | some t =>
    let fn := s2.node r
    let tn := s2.node t
    if tn.doubleColon ≠ none ∧ fn.flags.isTarget = true ∧ fn.doubleColon = none then .fatal
    else if tn.doubleColon = none ∧ fn.doubleColon ≠ none ∧ tn.flags.isTarget = true then .fatal
    else
      let s3 := s2.upd t (mergedNode fn tn)
      .ok (s3.upd r { s3.node r with renamed := some t }) (recipeMsgs fn tn to)

/-- `rehash_file` (file.c 53-179). -/
def rehashFile (s : RState) (i : Nat) (to : Str) : RRes :=
  let s := s.upd i { s.node i with builtin := false }
  if (s.node i).hname = to then .ok s []
  else match followRenamed s (s.count + 1) i with
    | none => .hang
    | some r =>
      if (s.node r).hname ≠ (s.node i).hname then .abort
      else if s.tbl (s.node r).hname = some r then rehashAt (s.put (s.node r).hname none) r to
      else .abort

/-- The loop of `rename_file` (file.c 189-193): all records of the chain get the hash name as name. -/
def setNames (s : RState) : Nat → Option Nat → RState
  | 0, _ => s
  | _, none => s
  | fuel + 1, some i => setNames (s.upd i { s.node i with name := (s.node i).hname }) fuel (s.node i).prev

/-- `rename_file` (file.c 185-194). -/
def renameFile (s : RState) (i : Nat) (to : Str) : RRes :=
  match rehashFile s i to with
  | .ok s' ms => .ok (setNames s' s'.count (some i)) ms
  | r => r

/-- `enter_file` (file_basic.c 129-185): the new state and the record. -/
def enterNode (s : RState) (name : Str) : RState × Nat :=
  match s.tbl name with
  | none =>
    let new : FNode := { name := name, hname := name, last := some s.count }
    (({ s with count := s.count + 1 }.upd s.count new).put name (some s.count), s.count)
  | some f =>
    if (s.node f).doubleColon = none then (s.upd f { s.node f with builtin := false }, f)
    else
      let new : FNode := { name := name, hname := name, doubleColon := some f }
      let s1 := { s with count := s.count + 1 }.upd s.count new
      let l := ((s1.node f).last).getD f
      let s2 := s1.upd l { s1.node l with prev := some s.count }
      (s2.upd f { s2.node f with last := some s.count }, s.count)

/-- The loop of `update_file` over the records of a file (remake.c 314, 335-359), when each record is finished at once and
without errors: the records that `update_file_1` is called for.  `look` is what `update_file_1` does first to the record: it
looks for the file, which may rename it (f_mtime, remake.c 1405-1411). -/
def updateWalk (look : RState → Nat → RState) (s : RState) : Nat → Option Nat → List Nat
  | 0, _ => []
  | _, none => []
  | fuel + 1, some i =>
    let s := look s i
    match followRenamed s (s.count + 1) i with
    | none => []
    | some j => i :: updateWalk look s fuel (s.node j).prev

/-- `update_file` (remake.c 307-362): where the walk starts. -/
def updateRecords (look : RState → Nat → RState) (s : RState) (i : Nat) : List Nat :=
  updateWalk look s (s.count + 1) (some ((s.node i).doubleColon.getD i))

end Remake
