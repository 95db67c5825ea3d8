import Verif.Quote.Model
import Verif.Text.Model
import Verif.Misc.Model
/-!
# File names in makefiles, and the database of targets

Models `parse_file_seq` (read.c 3149-3461), `lookup_file` and `enter_file` (file_basic.c
60-185), `expand_command_line_file` (main.c 630-668), `split_prereqs` and `enter_prereqs`
(file.c 279-388), the part of `record_files` for explicit and static pattern rules (read.c
1975-2311), and the choice of the default goal (read.c 1358-1415, main.c 2360-2405).

Not modelled: second expansion (`.SECONDEXPANSION`), the effects of `.POSIX` and `.ONESHELL`,
pattern rules (`implicit_percent`), descriptions and line numbers, freeing of memory.
-/
namespace Remake

/-! ## Leading `./` -/

/-- Skip slashes (`while (*s == '/') ++s`). -/
def dropSlashes (s : Str) : Str := s.dropWhile (· == '/')

theorem dropSlashes_length (s : Str) : (dropSlashes s).length ≤ s.length := by
  unfold dropSlashes
  exact (List.dropWhile_sublist _).length_le

/-- The loop of `parse_file_seq` that skips leading `./` (read.c 3238-3244), on the text of the
name (`p - s > 2` is "more than two characters are left"). -/
def stripSeq (s : Str) : Str :=
  match s with
  | '.' :: '/' :: t => if 2 < s.length then stripSeq (dropSlashes t) else s
  | _ => s
termination_by s.length
decreasing_by
  have := dropSlashes_length t
  simp_wf; omega

/-- The name made of a word of a makefile (read.c 3236-3262). -/
def seqName (s : Str) : Str := if stripSeq s = [] then ['.', '/'] else stripSeq s

/-- The loop of `lookup_file` (file_basic.c 91-107): it looks at `name[2]`. -/
def stripLookup (s : Str) : Str :=
  match s with
  | '.' :: '/' :: c :: t => stripLookup (dropSlashes (c :: t))
  | _ => s
termination_by s.length
decreasing_by
  have := dropSlashes_length (c :: t)
  simp_wf; simp at this; omega

/-- The name that `lookup_file` looks for (file_basic.c 91-119). -/
def lookupName (s : Str) : Str := if stripLookup s = [] then ['.', '/'] else stripLookup s

/-- The loop of `expand_command_line_file` (main.c 649-655). -/
def stripCommand (s : Str) : Str :=
  match s with
  | '.' :: '/' :: t => stripCommand (dropSlashes t)
  | _ => s
termination_by s.length
decreasing_by
  have := dropSlashes_length t
  simp_wf; omega

/-- `expand_command_line_file` (main.c 630-668): `none` is the fatal error for an empty name;
`tilde` stands for `remake_tilde_expand`. -/
def commandName (tilde : Str → Option Str) (name : Str) : Option Str :=
  if name = [] then none
  else
    let name := if name.head? = some '~' then
        match tilde name with
        | some e => if e = [] then name else e
        | none => name
      else name
    some (if stripCommand name = [] then ['.', '/'] else stripCommand name)

/-! ## Lists of file names -/

/-- Results of `glob` (read.c 3384-3409), apart from `GLOB_NOSPACE`. -/
inductive GlobResult where
  | found (names : List Str)
  | nomatch
  | error

/-- What `parse_file_seq` asks of the system: `remake_tilde_expand` (read.c 3360), `glob`
(3384) and `ar_glob` (3417; no match is the empty list). -/
structure FsEnv where
  tilde : Str → Option Str
  glob : Str → GlobResult
  arGlob : Str → Str → List Str

/-- The flags of `parse_file_seq` (dep.h; read.c 3140-3146). -/
structure SeqFlags where
  nostrip : Bool := false
  noar : Bool := false
  noglob : Bool := false
  exists_ : Bool := false
  nocache : Bool := false
  oneword : Bool := false

/-- `findmap` (read.c 3171-3174), apart from the NUL. -/
def findMap (flags : SeqFlags) (stop : Char → Bool) (c : Char) : Bool :=
  stop c || (!flags.oneword && isBlank c)

/-- The search for a later word that ends with `)` (read.c 3289-3314), from `e`. -/
def groupCloses (find : Char → Bool) (e : Str) : Bool :=
  if _h : ((nextToken e).dropWhile (fun c => !find c)).length = e.length then false
  else if ((nextToken e).takeWhile (fun c => !find c)).getLast? = some ')' then true
  else if (nextToken e).dropWhile (fun c => !find c) = [] then false
  else groupCloses find ((nextToken e).dropWhile (fun c => !find c))
termination_by e.length
decreasing_by
  have h1 : (nextToken e).length ≤ e.length := (List.dropWhile_sublist _).length_le
  have h2 : ((nextToken e).dropWhile (fun c => !find c)).length ≤ (nextToken e).length :=
    (List.dropWhile_sublist _).length_le
  omega

/-- Start of an archive group (read.c 3281-3321): `tp` is the name just read and `rest` the text
after it, `grp` the text in `tmpbuf` before `tp` if a group is open.  The result is the new `grp` and
the new `tp`. -/
def groupOpen (find : Char → Bool) (flags : SeqFlags) (grp : Option Str) (tp rest : Str) :
    Option Str × Str :=
  if flags.noar = false ∧ grp = none ∧ tp.head? ≠ some '(' ∧ tp.getLast? ≠ some ')' ∧
      '(' ∈ tp ∧ groupCloses find rest then
    (some (tp.takeWhile (· ≠ '(') ++ ['(']), (tp.dropWhile (· ≠ '(')).drop 1)
  else (grp, tp)

/-- The element to be added (read.c 3318-3342): `none` if there is none (`continue`). -/
def groupElement (grp : Option Str) (tp : Str) : Option Str × Option Str :=
  if tp = [] then (grp, none)
  else
    match grp with
    | none => (none, some tp)
    | some pre =>
      if tp.getLast? = some ')' then
        (none, if tp.length = 1 then none else some (pre ++ tp))
      else (some pre, some (pre ++ tp ++ [')']))

/-- The names added for one element (read.c 3346-3456): `none` is the fatal error of `ar_name`.
When a prefix is given, or the names are not cached, each member found in an archive is
renamed to the prefix and the name of the archive (read.c 3432-3435). -/
def elementNames (env : FsEnv) (flags : SeqFlags) (pfx : Option Str) (tmpbuf : Str) :
    Option (List Str) :=
  if flags.noglob then some [pfx.getD [] ++ tmpbuf]
  else
    let name := if tmpbuf.head? = some '~' then (env.tilde tmpbuf).getD tmpbuf else tmpbuf
    let expand (n : Str) : List Str :=
      if !flags.exists_ && !n.any (fun c => c == '?' || c == '*' || c == '[') then [n]
      else
        match env.glob n with
        | .found l => l
        | .nomatch => if flags.exists_ then [] else [n]
        | .error => [n]
    match if flags.noar then ArName.no else arName name with
    | .unsupported => none
    | .no => some ((expand name).map (pfx.getD [] ++ ·))
    | .yes =>
      let (ar, mem) := arParseName name
      some ((expand ar).flatMap fun n =>
        match env.arGlob n mem with
        | [] => [pfx.getD [] ++ n ++ '(' :: mem ++ [')']]
        | found =>
          if flags.nocache || pfx.isSome then found.map fun _ => pfx.getD [] ++ ar else found)

/-- The word at the start of `s` and the text after it (read.c 3220-3233). -/
def seqWord (find : Char → Bool) (s : Str) : Str × Str :=
  match findMapUnquote find false s with
  | .none text => (text, [])
  | .found pre c post => (pre, c :: post)

theorem mapUnquote_found_length {find : Char → Bool} {rev s pre post : Str} {c : Char}
    (h : findMapUnquoteGo find false rev s = .found pre c post) : post.length < s.length := by
  induction s generalizing rev with
  | nil => simp [findMapUnquoteGo.eq_def] at h
  | cons d ds ih =>
    rw [findMapUnquoteGo.eq_def] at h
    simp only [Bool.false_and, Bool.false_eq_true, if_false] at h
    split at h
    · split at h
      · cases h; simp
      · split at h
        · cases h; simp
        · have := ih h; simp; omega
    · have := ih h; simp; omega

theorem seqWord_length {find : Char → Bool} {c : Char} {cs : Str} (h : find c = false) :
    (seqWord find (c :: cs)).2.length < (c :: cs).length := by
  unfold seqWord findMapUnquote
  rw [findMapUnquoteGo.eq_def]
  simp only [Bool.false_and, Bool.false_eq_true, if_false, h]
  cases hr : findMapUnquoteGo find false [c] cs with
  | none t => simp
  | found pre d post =>
    have := mapUnquote_found_length hr
    simp; omega

theorem nextToken_head_not_space {s : Str} {c : Char} {cs : Str} (h : nextToken s = c :: cs) :
    isSpace c = false := by
  unfold nextToken at h
  have := List.head?_dropWhile_not isSpace s
  rw [h] at this
  simpa using this

/-- The loop of `parse_file_seq` (read.c 3199-3457): the names and the place where the parse stopped;
`none` is a fatal error. -/
def parseSeqGo (env : FsEnv) (flags : SeqFlags) (pfx : Option Str) (stop : Char → Bool)
    (grp : Option Str) (p : Str) : Option (List Str × Str) :=
  match _hp : nextToken p with
  | [] => some ([], [])
  | c :: cs =>
    if _hc : stop c then some ([], c :: cs)
    else
      let w := seqWord (findMap flags stop) (c :: cs)
      let tp := if flags.nostrip then w.1 else seqName w.1
      let g := groupOpen (findMap flags stop) flags grp tp w.2
      let e := groupElement g.1 g.2
      match e.2 with
      | none => parseSeqGo env flags pfx stop e.1 w.2
      | some x =>
        match elementNames env flags pfx x, parseSeqGo env flags pfx stop e.1 w.2 with
        | some names, some r => some (names ++ r.1, r.2)
        | _, _ => none
termination_by p.length
decreasing_by
  all_goals
    have h1 : (nextToken p).length ≤ p.length := (List.dropWhile_sublist _).length_le
    have h2 : isBlank c = false := by
      have := nextToken_head_not_space _hp
      simp [isSpace] at this
      exact this.1
    have h3 := @seqWord_length (findMap flags stop) c cs (by simp [findMap, _hc, h2])
    rw [_hp] at h1
    simp_wf
    omega

/-- `parse_file_seq` (read.c 3149-3461).  The size of the temporary buffer is not represented. -/
def parseFileSeq (env : FsEnv) (flags : SeqFlags) (pfx : Option Str) (stop : Char → Bool)
    (s : Str) : Option (List Str × Str) :=
  parseSeqGo env flags pfx stop none s

/-! ## Prerequisites -/

/-- A prerequisite: its name and `ignore_mtime`. -/
structure PreReq where
  name : Str
  orderOnly : Bool
deriving Repr, DecidableEq

/-- `split_prereqs` (file.c 279-309). -/
def splitPrereqs (env : FsEnv) (s : Str) : Option (List PreReq) :=
  match parseFileSeq env {} none (· == '|') s with
  | none => none
  | some (ns, []) => some (ns.map fun n => ⟨n, false⟩)
  | some (ns, _ :: p) =>
    match parseFileSeq env {} none (fun _ => false) p with
    | none => none
    | some (os, _) => some (ns.map (fun n => ⟨n, false⟩) ++ os.map fun n => ⟨n, true⟩)

/-- The name of a static pattern rule's prerequisite for a stem (file.c 329-371): `none` if it
expanded to nothing. -/
def stemName (stem : Str) (nm : Str) : Option Str :=
  match findPercent nm with
  | .none _ => some nm
  | .found pre _ post =>
    let b := if stem = [] then pre ++ post
      else patsubstExpandPat stem (.found [] '%' []) (.found pre '%' post)
    if b = [] then none else some b

/-- The expansion of the prerequisites of a static pattern rule (file.c 323-372). -/
def stemPrereqs (stem : Str) (deps : List PreReq) : List PreReq :=
  deps.filterMap fun d => (stemName stem d.name).map fun n => { d with name := n }

/-! ## The database of targets -/

/-- A `struct file`: prerequisites, the recipe (the number of the rule it came from),
`is_target`, the stem, and the group it is made with (`also_make`, by name). -/
structure FEntry where
  deps : List PreReq := []
  cmds : Option Nat := none
  isTarget : Bool := false
  stem : Option Str := none
  also : List Str := []
deriving Repr, DecidableEq

/-- The records for one name: one, or with `double` (the `double_colon` pointer is set) the chain
of double-colon records, in order. -/
structure FSlot where
  entries : List FEntry
  double : Bool
deriving Repr, DecidableEq

/-- The table of files. -/
abbrev FileDb := Str → Option FSlot

/-- Replace the records of one name. -/
def FileDb.set (db : FileDb) (n : Str) (s : FSlot) : FileDb := fun m => if m = n then some s else db m

/-- `lookup_file` (file_basic.c 60-127): the name under which the record is found. -/
def lookupFile (db : FileDb) (name : Str) : Option Str :=
  if (db (lookupName name)).isSome then some (lookupName name) else none

/-- `enter_file` (file_basic.c 129-185): the new table; the record is the last one of the
name. -/
def enterFile (db : FileDb) (name : Str) : FileDb :=
  match db name with
  | none => db.set name ⟨[{}], false⟩
  | some s => if s.double then db.set name ⟨s.entries ++ [{}], true⟩ else db

/-- The end of `enter_prereqs` (file.c 375-385): the prerequisites are entered as files; each one
then denotes the file that was found or made. -/
def enterPrereqs (db : FileDb) : List PreReq → FileDb × List PreReq
  | [] => (db, [])
  | d :: ds =>
    let r := match lookupFile db d.name with
      | some n => (db, n)
      | none => (enterFile db d.name, d.name)
    let rest := enterPrereqs r.1 ds
    (rest.1, { d with name := r.2 } :: rest.2)

/-- A rule as `record_files` gets it (read.c 1975-1982), with the prerequisites already
split; `cmds` numbers the recipe, `pattern` is the target pattern of a static pattern rule. -/
structure FRule where
  targets : List Str
  deps : List PreReq
  cmds : Option Nat
  double : Bool := false
  grouped : Bool := false
  pattern : Option Unq := none

/-- Warnings and errors reported without stopping (read.c 2131, 2156, 2166-2171, 2302). -/
inductive FWarn where
  | noMatch (name : Str)
  | twice (name : Str)
  | override (name : Str) (new old : Nat)
  | group (name : Str)
deriving Repr, DecidableEq

/-- Outcome of reading rules. -/
inductive FRes (α : Type) where
  | fatal
  | ok (a : α)
deriving Repr, DecidableEq

/-- `default_file` and `suffix_file` are the records of `.DEFAULT` and `.SUFFIXES`. -/
def dotDefault : Str := ".DEFAULT".toList

@[inherit_doc dotDefault]
def dotSuffixes : Str := ".SUFFIXES".toList

/-- The new prerequisites of an entry (read.c 2246-2272). -/
def mergeDeps (old this : List PreReq) (cmds : Bool) : List PreReq :=
  if this = [] then old
  else if old = [] then this
  else if cmds then this ++ old
  else old ++ this

/-- The record of a single-colon target after the rule (read.c 2153-2187, 2224-2272) -/
def mergeSingle (name : Str) (this : List PreReq) (cmds : Option Nat) (stem : Option Str)
    (f : FEntry) : FEntry :=
  let c1 := if name = dotDefault ∧ this = [] ∧ cmds = none then none else f.cmds
  let c2 := if cmds.isSome then cmds else c1
  let d1 := if name = dotSuffixes ∧ this = [] then [] else f.deps
  { f with
    cmds := c2, isTarget := true, stem := if stem.isSome then stem else f.stem,
    deps := mergeDeps d1 this cmds.isSome }

/-- The warnings about a single-colon target (read.c 2153-2172). -/
def singleWarn (name : Str) (cmds : Option Nat) (f : FEntry) : List FWarn :=
  match cmds, f.cmds with
  | some c, some o =>
    if c = o then [.twice name]
    else if f.isTarget then [.override name c o] else []
  | _, _ => []

/-- The record of a double-colon target (read.c 2207-2212, 2224-2272): `f` is the record that
`enter_file` returned. -/
def mergeDouble (this : List PreReq) (cmds : Option Nat) (stem : Option Str) (f : FEntry) :
    FEntry :=
  { f with
    cmds := cmds, isTarget := true, stem := if stem.isSome then stem else f.stem,
    deps := mergeDeps f.deps this cmds.isSome }

/-- The stem of a target in a static pattern rule (read.c 2229-2235). -/
def targetStem (pattern : Option Unq) (name : Str) : Option Str :=
  pattern.map fun p => patsubstExpandPat name p (.found [] '%' [])

/-- Does the target match the pattern of the static pattern rule (read.c 2130)? -/
def targetMatches (pattern : Option Unq) (name : Str) : Bool :=
  match pattern with
  | none => true
  | some p => patternMatches p name

/-- One target of a rule (read.c 2098-2274).  `deps` are the prerequisites of the rule (already
entered unless there is a pattern).  The result is the table, the messages, and the place of the record
among those of its name.  (A prerequisite that `enter_prereqs` enters under a name with a
leading `./` is taken not to be the target itself.) -/
def recordTarget (r : FRule) (deps : List PreReq) (db : FileDb) (name : Str) :
    FRes (FileDb × List FWarn × Nat) :=
  let this := if targetMatches r.pattern name then deps else []
  let w := if targetMatches r.pattern name then [] else [FWarn.noMatch name]
  let stem := targetStem r.pattern name
  -- enter_file comes before the prerequisites of a static pattern rule are entered
  let db1 := enterFile db name
  let es := ((db1 name).map (·.entries)).getD []
  let f := es.getLast?.getD {}
  let e := match stem with
    | some st => enterPrereqs db1 (stemPrereqs st this)
    | none => (db1, this)
  if !r.double then
    if ((db name).map (·.double)).getD false then .fatal
    else
      .ok (e.1.set name ⟨[mergeSingle name e.2 r.cmds stem f], false⟩,
        w ++ singleWarn name r.cmds f, 0)
  else if (((lookupFile db name).bind db).map
      fun s => !s.double && s.entries.any (·.isTarget)).getD false then .fatal
  else
    .ok (e.1.set name ⟨es.dropLast ++ [mergeDouble e.2 r.cmds stem f], true⟩, w, es.length - 1)

/-- All targets of a rule (read.c 2098-2287). -/
def recordTargets (r : FRule) (deps : List PreReq) (db : FileDb) :
    List Str → FRes (FileDb × List FWarn × List (Str × Nat))
  | [] => .ok (db, [], [])
  | n :: ns =>
    match recordTarget r deps db n with
    | .fatal => .fatal
    | .ok (db1, w1, i) =>
      match recordTargets r deps db1 ns with
      | .fatal => .fatal
      | .ok (db2, w2, is) => .ok (db2, w1 ++ w2, (n, i) :: is)

/-- Change one record of a name. -/
def FileDb.modify (db : FileDb) (n : Str) (i : Nat) (g : FEntry → FEntry) : FileDb :=
  match db n with
  | none => db
  | some s => db.set n { s with entries := s.entries.modify i g }

/-- The record of a name at a place. -/
def FileDb.entry (db : FileDb) (n : Str) (i : Nat) : Option FEntry := (db n).bind (·.entries[i]?)

/-- The members of a group of targets made together get the list of all of them (read.c
2292-2310). -/
def recordGroup (group : List Str) : FileDb → List (Str × Nat) → FileDb × List FWarn
  | db, [] => (db, [])
  | db, (n, i) :: hs =>
    let w := if ((db.entry n i).map (·.also)).getD [] ≠ [] then [FWarn.group n] else []
    let r := recordGroup group (db.modify n i fun f => { f with also := group }) hs
    (r.1, w ++ r.2)

/-- Is this name a pattern (`find_percent_cached`, read.c 1999, 2076, 2284)? -/
def isPatternName (n : Str) : Bool :=
  match (findPercentCached n).1 with
  | .found .. => true
  | .none _ => false

/-- The name with the quoted percent signs reduced (read.c 1999, 2284). -/
def plainName (n : Str) : Str := (findPercentCached n).1.text

/-- `record_files` (read.c 1975-2311) for a rule with at least one target.  A pattern rule does not
change the table of files. -/
def recordFiles (r : FRule) (db : FileDb) : FRes (FileDb × List FWarn) :=
  if r.cmds = none ∧ r.grouped then .fatal
  else if (r.targets.head?.map isPatternName).getD false then
    if r.pattern.isSome || r.targets.any (fun n => !isPatternName n) then .fatal
    else .ok (db, [])
  else
    let e := if r.pattern.isSome then (db, r.deps) else enterPrereqs db r.deps
    match recordTargets r e.2 e.1 (r.targets.map plainName) with
    | .fatal => .fatal
    | .ok (db1, w, hs) =>
      if r.grouped then
        let g := recordGroup ((r.targets.map plainName).reverse) db1 hs.reverse
        .ok (g.1, w ++ g.2)
      else .ok (db1, w)

/-- Rules are recorded in the order in which they are read. -/
def recordAll (db : FileDb) : List FRule → FRes (FileDb × List FWarn)
  | [] => .ok (db, [])
  | r :: rs =>
    match recordFiles r db with
    | .fatal => .fatal
    | .ok (db1, w1) =>
      match recordAll db1 rs with
      | .fatal => .fatal
      | .ok (db2, w2) => .ok (db2, w1 ++ w2)

/-! ## The default goal -/

/-- Is the name a suffix or made of two suffixes (read.c 1384-1406)? -/
def suffixReject (suffixes : List Str) (name : Str) : Bool :=
  suffixes.any fun d =>
    (d.head? ≠ some '.' && name == d) ||
      suffixes.any fun d2 => d2.isPrefixOf name && name.drop d2.length == d

/-- The loop over the targets of a rule (read.c 1361-1414). -/
def defaultFrom (suffixes : List Str) : List Str → Option Str
  | [] => none
  | name :: ts =>
    if '%' ∈ name then none
    else if name.head? = some '.' ∧ '/' ∉ name then defaultFrom suffixes ts
    else if suffixReject suffixes name then defaultFrom suffixes ts
    else some name

/-- What happens to `.DEFAULT_GOAL` while makefiles are read. -/
inductive GoalEvent where
  /-- a rule is read, when the suffixes are the given ones (read.c 1358-1415); the flag is
  `set_default` -/
  | rule (setDefault : Bool) (suffixes : List Str) (targets : List Str)
  /-- the makefile assigns the variable -/
  | assign (value : Str)

/-- The value of `.DEFAULT_GOAL` after an event (read.c 1358-1415).  `define_variable_global` is
taken to succeed: the variable has no definition of stronger origin. -/
def goalStep (goal : Str) : GoalEvent → Str
  | .rule setDefault suffixes targets =>
    if setDefault && goal.isEmpty then (defaultFrom suffixes targets).getD goal else goal
  | .assign v => v

/-- The value of `.DEFAULT_GOAL` when all is read; it is empty at the start (main.c 1806). -/
def goalAfter (events : List GoalEvent) : Str := events.foldl goalStep []

/-- The goal when the command line names none (main.c 2360-2416): `value` is the expanded value of
`.DEFAULT_GOAL`.  The result is the file to be made and the new table. -/
def defaultGoal (env : FsEnv) (db : FileDb) (value : Str) : FRes (Str × FileDb) :=
  if value = [] then .fatal
  else
    match lookupFile db value with
    | some n => .ok (n, db)
    | none =>
      match parseFileSeq env {} none (fun _ => false) value with
      | some ([n], _) => .ok (n, enterFile db n)
      | _ => .fatal

end Remake
