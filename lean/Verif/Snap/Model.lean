import Verif.Files.Model
import Verif.Text.Model
/-! Model of `snap_deps` (file.c): second expansion of prerequisites, special targets, extra
prerequisites.  Expansion of variables is a parameter: a function of the records of `.SUFFIXES`
(for `$*`), the name of the target, its record, and the text.  Simplified: expansion has no
effects on the table (no `$(eval)` of rules: read.c 1994 refuses them; no variable is changed). -/
set_option linter.unusedVariables false
namespace Remake

/-- A `struct dep` (dep.h 44-62) of a target.  With `pending` (`need_2nd_expansion`) the name is
the text of a whole line; otherwise it is the name of the file `d->file`. -/
structure SDep where
  name : Str
  /-- `ignore_mtime` -/
  orderOnly : Bool := false
  pending : Bool := false
  /-- `staticpattern` -/
  static : Bool := false
  stem : Option Str := none
  /-- `ignore_automatic_vars` -/
  hidden : Bool := false
deriving Repr, DecidableEq

/-- A `struct file` (filedef.h 27-118), as far as `snap_deps` looks at it.  `vars` is `none` if
the file has no variables of its own, otherwise the expanded value of its own `.EXTRA_PREREQS` if
it has one. -/
structure SFile where
  deps : List SDep := []
  isTarget : Bool := false
  stem : Option Str := none
  vars : Option (Option Str) := none
  precious : Bool := false
  lowRes : Bool := false
  phony : Bool := false
  intermediate : Bool := false
  secondary : Bool := false
  /-- `COMMANDS_NOERROR` in `command_flags` -/
  noerror : Bool := false
  /-- `COMMANDS_SILENT` in `command_flags` -/
  silent : Bool := false
deriving Repr, DecidableEq

/-- The table of files (`files`, file_basic.c 30): the names in the order in which the table is gone
through, and for each name its records (the chain of `prev`; no record: not in the table). -/
structure SDb where
  names : List Str
  files : Str → List SFile

/-- `lookup_file` and, if nothing is found, `enter_file` (file.c 380-382; file_basic.c 60-127,
129-185): the new table and the name of the file.  Simplified: a name that is in the table but
not under its normalised spelling gets no further double-colon record. -/
def SDb.enter (db : SDb) (name : Str) : SDb × Str :=
  if db.files (lookupName name) ≠ [] then (db, lookupName name)
  else if db.files name ≠ [] then (db, name)
  else (⟨db.names ++ [name], fun m => if m = name then [{}] else db.files m⟩, name)

/-- The loop at the end of `enter_prereqs` (file.c 375-385). -/
def SDb.enterAll (db : SDb) : List PreReq → SDb × List PreReq
  | [] => (db, [])
  | d :: ds =>
    let r := db.enter d.name
    let rest := r.1.enterAll ds
    (rest.1, { d with name := r.2 } :: rest.2)

/-- `.SUFFIXES` -/
def dotSuffixesName : Str := ".SUFFIXES".toList

/-! ## Second expansion -/

/-- The text that is expanded (file.c 419-427): in a static pattern rule the percent signs become
`$*`. -/
def secondText (d : SDep) : Str :=
  if d.static then funcSubst ['%'] ['$', '*'] d.name else d.name

/-- The first part of `enter_prereqs` (file.c 316-372): the stem is put in if there is one. -/
def lineNames (stem : Option Str) (ps : List PreReq) : List PreReq :=
  match stem with
  | none => ps
  | some s => stemPrereqs s ps

/-- The loop of `expand_deps` (file.c 402-470): `done` are the prerequisites before the one looked
at.  Expansion sees the record with the list as it is at that moment and with the stem of the
line.  `none`: the list of names could not be read (a fatal error of `glob`). -/
def expandRest (env : FsEnv) (ex : SFile → Str → Str) (f : SFile) :
    List SDep → List SDep → SDb → Option (SDb × List SDep)
  | done, [], db => some (db, done)
  | done, d :: ds, db =>
    if d.pending = false then expandRest env ex f (done ++ [d]) ds db
    else
      let view := { f with
        deps := done ++ { d with name := secondText d, static := false } :: ds,
        stem := if d.stem.isSome then d.stem else f.stem }
      match splitPrereqs env (ex view (secondText d)) with
      | none => none
      | some ps =>
        let r := db.enterAll (lineNames d.stem ps)
        expandRest env ex f
          (done ++ r.2.map fun q => { name := q.name, orderOnly := q.orderOnly, stem := d.stem })
          ds r.1

/-- Replace a record of a name. -/
def SDb.setAt (db : SDb) (n : Str) (i : Nat) (g : SFile → SFile) : SDb :=
  { db with files := fun m => if m = n then (db.files n).modify i g else db.files m }

/-- A record that has variables of its own (variable.c 606-615). -/
def SFile.withVars (f : SFile) : SFile :=
  { f with vars := if f.vars.isSome then f.vars else some none }

/-- `expand_deps` (file.c 391-471) for one record of a name.  If there is anything to expand the
record gets variables of its own, and so does the first record of a double-colon target
(variable.c 602-628). -/
def secondFile (env : FsEnv) (ex : List SFile → Str → SFile → Str → Str) (db : SDb) (n : Str)
    (i : Nat) : Option SDb :=
  match (db.files n)[i]? with
  | none => some db
  | some f =>
    match expandRest env (ex (db.files dotSuffixesName) n) f [] f.deps db with
    | none => none
    | some (db', deps) =>
      if f.deps.any (·.pending) then
        some (((db'.setAt n i fun f => { f with deps := deps }).setAt n i SFile.withVars).setAt n 0
          SFile.withVars)
      else some (db'.setAt n i fun f => { f with deps := deps })

/-- All records of a name (file.c 577-578, 583-585). -/
def expandRecords (env : FsEnv) (ex : List SFile → Str → SFile → Str → Str) (n : Str) :
    List Nat → SDb → Option SDb
  | [], db => some db
  | i :: is, db => (secondFile env ex db n i).bind (expandRecords env ex n is)

/-- The records of a name, from the first. -/
def expandName (env : FsEnv) (ex : List SFile → Str → SFile → Str → Str) (n : Str) (db : SDb) :
    Option SDb :=
  expandRecords env ex n (List.range (db.files n).length) db

/-- The loop over the dump of the table (file.c 582-585). -/
def expandNames (env : FsEnv) (ex : List SFile → Str → SFile → Str → Str) :
    List Str → SDb → Option SDb
  | [], db => some db
  | n :: ns, db =>
    if n = dotSuffixesName then expandNames env ex ns db
    else (expandName env ex n db).bind (expandNames env ex ns)

/-- The first part of `snap_deps` (file.c 567-587): `.SUFFIXES` first, then all others. -/
def secondExpand (env : FsEnv) (ex : List SFile → Str → SFile → Str → Str) (db : SDb) :
    Option SDb :=
  (expandName env ex dotSuffixesName db).bind (expandNames env ex db.names)

/-! ## Special targets -/

/-- The settings that special targets make. -/
structure SnapFlags where
  allSecondary : Bool := false
  exportAll : Bool := false
  ignoreErrors : Bool := false
  runSilent : Bool := false
  notParallel : Bool := false
deriving Repr, DecidableEq

/-- The loop over the records of one file, `f2` (e.g. file.c 593-594). -/
def SDb.mark (db : SDb) (g : SFile → SFile) (n : Str) : SDb :=
  { db with files := fun m => if m = n then (db.files n).map g else db.files m }

/-- The loop over the prerequisites of a special target (e.g. file.c 592-594).  A line that still
waits for its expansion has no file. -/
def SDb.markDeps (db : SDb) (g : SFile → SFile) : List SDep → SDb
  | [] => db
  | d :: ds => if d.pending then db.markDeps g ds else (db.mark g d.name).markDeps g ds

/-- The loop over the records of a special target (e.g. file.c 591-594). -/
def SDb.markAll (db : SDb) (g : SFile → SFile) (special : Str) : SDb :=
  (db.files special).foldl (fun db f => db.markDeps g f.deps) db

/-- A phony target (file.c 604-608); the times are not modelled here. -/
def SFile.makePhony (f : SFile) : SFile := { f with phony := true, isTarget := true }

/-- A target special by its first record (`.IGNORE`, `.SILENT`, file.c 636-645, 647-656): with
prerequisites they are marked, without the flag is set. -/
def markFirst (db : SDb) (g : SFile → SFile) (special : Str) : SDb × Bool :=
  match (db.files special)[0]? with
  | none => (db, false)
  | some f =>
    if f.isTarget = false then (db, false)
    else if f.deps = [] then (db, true)
    else (db.markDeps g f.deps, false)

/-- Is the first record a target (file.c 632-634, 658-660)? -/
def firstIsTarget (db : SDb) (special : Str) : Bool :=
  match (db.files special)[0]? with
  | none => false
  | some f => f.isTarget

/-- The second part of `snap_deps` (file.c 591-660). -/
def specialTargets (db : SDb) (fl : SnapFlags) : SDb × SnapFlags :=
  let db := db.markAll (fun f => { f with precious := true }) ".PRECIOUS".toList
  let db := db.markAll (fun f => { f with lowRes := true }) ".LOW_RESOLUTION_TIME".toList
  let db := db.markAll SFile.makePhony ".PHONY".toList
  let db := db.markAll (fun f => { f with intermediate := true }) ".INTERMEDIATE".toList
  let secs := db.files ".SECONDARY".toList
  let db := db.markAll (fun f => { f with intermediate := true, secondary := true })
    ".SECONDARY".toList
  let fl := { fl with allSecondary := fl.allSecondary || secs.any (·.deps.isEmpty) }
  let fl := { fl with exportAll := fl.exportAll || firstIsTarget db ".EXPORT_ALL_VARIABLES".toList }
  let r := markFirst db (fun f => { f with noerror := true }) ".IGNORE".toList
  let fl := { fl with ignoreErrors := fl.ignoreErrors || r.2 }
  let s := markFirst r.1 (fun f => { f with silent := true }) ".SILENT".toList
  let fl := { fl with runSilent := fl.runSilent || s.2 }
  (s.1, { fl with notParallel := fl.notParallel || firstIsTarget s.1 ".NOTPARALLEL".toList })

/-! ## Extra prerequisites -/

/-- `expand_extra_prereqs` (file.c 475-491), given the expanded value. -/
def extraPrereqs (env : FsEnv) (v : Option Str) (db : SDb) : Option (SDb × List SDep) :=
  match v with
  | none => some (db, [])
  | some t =>
    match splitPrereqs env t with
    | none => none
    | some ps =>
      let r := db.enterAll ps
      some (r.1, r.2.map fun q => { name := q.name, orderOnly := q.orderOnly, hidden := true })

/-- `snap_file` (file.c 495-540) for a file of the table, of which it gets the first record.
`copy_dep_chain` (misc.c 304-326) copies the global ones. -/
def snapFile (env : FsEnv) (allSecondary : Bool) (extra : List SDep) (db : SDb) (n : Str) :
    Option SDb :=
  match (db.files n)[0]? with
  | none => some db
  | some f =>
    let own : Option (SDb × List SDep) := match f.vars with
      | some v => extraPrereqs env v db
      | none => some (db, if f.isTarget then extra else [])
    match own with
    | none => none
    | some (db', ds) =>
      some (db'.setAt n 0 fun f =>
        { f with
          intermediate := allSecondary || f.intermediate,
          deps := if ds.any (·.name == n) then f.deps else f.deps ++ ds })

/-- `hash_map_arg` (hash.c 235-247) over the names of the table.  Simplified: names that are
entered on the way are not gone through (in the code that depends on where they go in the table,
and the table may move). -/
def snapFiles (env : FsEnv) (allSecondary : Bool) (extra : List SDep) : List Str → SDb → Option SDb
  | [], db => some db
  | n :: ns, db => (snapFile env allSecondary extra db n).bind (snapFiles env allSecondary extra ns)

/-- `snap_deps` (file.c 547-679).  `second` is `second_expansion`, `extra` the expanded value of
the global variable `.EXTRA_PREREQS`. -/
def snapDeps (env : FsEnv) (ex : List SFile → Str → SFile → Str → Str) (second : Bool)
    (extra : Option Str) (db : SDb) (fl : SnapFlags) : Option (SDb × SnapFlags) :=
  match (if second then secondExpand env ex db else some db) with
  | none => none
  | some db =>
    let s := specialTargets db fl
    match extraPrereqs env extra s.1 with
    | none => none
    | some (db, ds) => (snapFiles env s.2.allSecondary ds db.names db).map fun db => (db, s.2)

end Remake
