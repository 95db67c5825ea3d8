import Verif.Base.Chars
import Verif.Base.Lemmas
/-!
# Variables: definitions, scopes, lookup, the environment of recipes

Models `src/variable.c`: `create_pattern_var` 89-135, `lookup_pattern_var` 139-174,
`define_variable_in_set` 234-339, `undefine_variable_in_set` 363-401, `lookup_variable`
493-573, `lookup_variable_in_set` 580-591, `initialize_file_variables` 601-699, the scope
functions 704-781, `target_environment` 1031-1183, `do_variable_definition` 1225-1497 and
`parse_variable_definition` 1513-1639; `src/expand.c` `variable_append` 503-543.

Simplifications.  A variable set is a function from names to definitions (that the hash
table behind it is one is the subject of `C01`); names are compared as strings, their
length is below 2^32.  Source positions, the memory behind the names and values,
`variable_changenum` with the special variable `.VARIABLES` (407-486), the fields used during
expansion and the code for VMS, MSDOS and Windows are left out.
-/
namespace Remake

/-- `enum variable_origin` (variable.h 25-36). -/
inductive Origin where
  | default | env | file | envOverride | command | override | automatic | debugger | invalid
deriving DecidableEq, Repr

/-- The numeric value of an origin (variable.h 25-36). -/
def Origin.rank : Origin → Nat
  | .default => 0 | .env => 1 | .file => 2 | .envOverride => 3 | .command => 4
  | .override => 5 | .automatic => 6 | .debugger => 7 | .invalid => 8

/-- `enum variable_flavor` (variable.h 38-47). -/
inductive Flavor where
  | bogus | simple | recursive | append | conditional | shell | appendValue
deriving DecidableEq, Repr

/-- `enum variable_export` (variable.h 80-86). -/
inductive Export where
  | export_ | noexport | ifset | default
deriving DecidableEq, Repr

/-- `struct variable` (variable.h 56-87), without name, position and expansion state. -/
structure Var where
  value : Str
  recursive : Bool
  origin : Origin
  append : Bool := false
  conditional : Bool := false
  perTarget : Bool := false
  special : Bool := false
  exportable : Bool := true
  priv : Bool := false
  exp : Export := .default
deriving DecidableEq, Repr

/-- `struct variable_set` (variable.h 91-94) as a map. -/
abbrev VarSet := Str → Option Var

/-- The empty set, as made by `hash_init`. -/
def VarSet.empty : VarSet := fun _ => none

/-- Storing a definition under a name. -/
def VarSet.put (s : VarSet) (n : Str) (v : Option Var) : VarSet :=
  fun m => if m = n then v else s m

/-- `if (env_overrides && origin == o_env) origin = o_env_override` (variable.c 280-281,
285-288, 379-380, 385-388). -/
def promote (envOv : Bool) (o : Origin) : Origin :=
  if envOv ∧ o = .env then .envOverride else o

/-- A letter or underscore, as tested in variable.c 324-325. -/
def isNameStart (c : Char) : Bool :=
  c == '_' || ('A' ≤ c && c ≤ 'Z') || ('a' ≤ c && c ≤ 'z')

/-- The computation of `exportable` (variable.c 322-336).  It reads the C string at `name`,
which need not end after `length` bytes. -/
def exportableName : Str → Bool
  | [] => false
  | c :: cs => isNameStart c && cs.all (fun c => isNameStart c || isDigitC c)

/-- `define_variable_in_set` (variable.c 234-339): the definition afterwards.  `name` is the
name and `tail` what follows it in memory up to the next NUL. -/
def defineVar (envOv : Bool) (old : Option Var) (name tail value : Str) (origin : Origin)
    (recursive : Bool) : Var :=
  let origin := promote envOv origin
  match old with
  | some v =>
    let v := { v with origin := promote envOv v.origin }
    if v.origin.rank ≤ origin.rank then
      { v with value := value, origin := origin, recursive := recursive }
    else v
  | none =>
    { value := value, origin := origin, recursive := recursive,
      exportable := exportableName (name ++ tail) }

/-- `define_variable_in_set` (variable.c 234-339) with a NUL-terminated name: the set
afterwards. -/
def VarSet.define (envOv : Bool) (s : VarSet) (name value : Str) (origin : Origin)
    (recursive : Bool) : VarSet :=
  s.put name (some (defineVar envOv (s name) name [] value origin recursive))

/-- `undefine_variable_in_set` (variable.c 363-401): the definition afterwards. -/
def undefineVar (envOv : Bool) (old : Option Var) (origin : Origin) : Option Var :=
  match old with
  | none => none
  | some v =>
    let v := { v with origin := promote envOv v.origin }
    if v.origin.rank ≤ (promote envOv origin).rank then none else some v

/-- `undefine_variable_in_set` (variable.c 363-401): the set afterwards. -/
def VarSet.undefine (envOv : Bool) (s : VarSet) (name : Str) (origin : Origin) : VarSet :=
  s.put name (undefineVar envOv (s name) origin)

/-- A call of `define_variable_in_set` or `undefine_variable_in_set`, with the value of
`env_overrides` at the time. -/
inductive VarOp where
  | define (envOv : Bool) (name value : Str) (origin : Origin) (recursive : Bool)
  | undefine (envOv : Bool) (name : Str) (origin : Origin)

/-- The effect of a call (variable.c 234-339, 363-401). -/
def VarOp.run (s : VarSet) : VarOp → VarSet
  | .define e n v o r => s.define e n v o r
  | .undefine e n o => s.undefine e n o

/-- The loop of `lookup_variable` (variable.c 503-515) over the sets of a list; each comes
with its `next_is_parent`. -/
def lookupGo (isParent : Bool) : List (VarSet × Bool) → Str → Option Var
  | [], _ => none
  | (s, nip) :: rest, n =>
    match s n with
    | some v =>
      if !isParent || !v.priv then some v else lookupGo (isParent || nip) rest n
    | none => lookupGo (isParent || nip) rest n

/-- `lookup_variable` (variable.c 493-573) in a list of sets. -/
def lookupVariable (chain : List (VarSet × Bool)) (n : Str) : Option Var :=
  lookupGo false chain n

/-! ## Scopes -/

/-- `struct variable_set_list` (variable.h 98-103); sets and lists are numbered. -/
structure SetList where
  next : Option Nat
  set : Nat
  nextIsParent : Bool
deriving DecidableEq, Repr

/-- The state: `global_variable_set` is set 0, `global_setlist` list 0 (variable.c 213-216).
Numbers below `fresh` are in use; memory is not reused. -/
structure Scopes where
  sets : Nat → VarSet
  lists : Nat → SetList
  current : Nat
  fresh : Nat

/-- Writing a list element. -/
def Scopes.setList (st : Scopes) (i : Nat) (l : SetList) : Scopes :=
  { st with lists := fun j => if j = i then l else st.lists j }

/-- Writing a set. -/
def Scopes.setSet (st : Scopes) (i : Nat) (s : VarSet) : Scopes :=
  { st with sets := fun j => if j = i then s else st.sets j }

/-- `create_new_variable_set` (variable.c 704-721): the set and list made have the same
number. -/
def createSet (st : Scopes) : Scopes × Nat :=
  let id := st.fresh
  ({ (st.setSet id .empty).setList id ⟨some st.current, id, false⟩ with fresh := id + 1 }, id)

/-- `push_new_variable_scope` (variable.c 729-746). -/
def pushScope (st : Scopes) : Scopes :=
  let (st, id) := createSet st
  let l := st.lists id
  if l.next = some 0 then
    let g := st.lists 0
    let st := st.setList id { l with set := g.set, next := g.next }
    let st := st.setList 0 { g with set := l.set, next := some id }
    { st with current := 0 }
  else { st with current := id }

/-- `pop_variable_scope` (variable.c 748-781).  `none`: there is no scope to pop (the
assertion in 755 fails). -/
def popScope (st : Scopes) : Option Scopes :=
  match (st.lists st.current).next with
  | none => none
  | some n =>
    if st.current ≠ 0 then some { st with current := n }
    else
      let l := st.lists n
      some (st.setList 0 ⟨l.next, l.set, l.nextIsParent⟩)

/-- `define_variable` (variable.h 242-244): defines in the set of the current list. -/
def defineCurrent (envOv : Bool) (st : Scopes) (name value : Str) (origin : Origin)
    (recursive : Bool) : Scopes :=
  let i := (st.lists st.current).set
  st.setSet i ((st.sets i).define envOv name value origin recursive)

/-- `define_variable_in_set` with a given set; NULL stands for set 0 (variable.c 243-244). -/
def defineIn (envOv : Bool) (st : Scopes) (i : Nat) (name value : Str) (origin : Origin)
    (recursive : Bool) : Scopes :=
  st.setSet i ((st.sets i).define envOv name value origin recursive)

/-! ## The scopes of a target -/

/-- What `initialize_file_variables` (variable.c 601-699) looks at: the file's own set, the
set of pattern variables if any matched, and either the root of its double-colon rule or
its parent.  Simplification: parents form no cycle. -/
inductive FileScope where
  /-- `double_colon` with another root (variable.c 620-626). -/
  | dcolon (own : VarSet) (root : FileScope)
  /-- No parent (variable.c 628-629). -/
  | top (own : VarSet) (pat : Option VarSet)
  /-- With a parent (variable.c 630-634). -/
  | child (own : VarSet) (pat : Option VarSet) (parent : FileScope)

/-- The pattern variables go between the file and what follows (variable.c 692-698). -/
def withPat (own : VarSet) (pat : Option VarSet) (next : List (VarSet × Bool)) :
    List (VarSet × Bool) :=
  match pat with
  | none => (own, true) :: next
  | some p => (own, false) :: (p, true) :: next

/-- The list of sets made by `initialize_file_variables` (variable.c 601-699); `global` is
the list starting at `global_setlist`. -/
def fileChain (global : List (VarSet × Bool)) : FileScope → List (VarSet × Bool)
  | .dcolon own root => (own, false) :: fileChain global root
  | .top own pat => withPat own pat global
  | .child own pat parent => withPat own pat (fileChain global parent)

/-- `variable_append` (expand.c 503-543): the values found, outermost first, each with
whether it is expanded.  `none`: the list ended without a definition that does not append. -/
def variableAppend : (chain : List (VarSet × Bool)) → (name : Str) → (isLocal : Bool) → List Var
  | [], _, _ => []
  | (s, nip) :: rest, n, isLocal =>
    match s n with
    | none => variableAppend rest n (isLocal && !nip)
    | some v =>
      if !isLocal && v.priv then variableAppend rest n (isLocal && !nip)
      else if v.append then variableAppend rest n (isLocal && !nip) ++ [v]
      else [v]

/-! ## Pattern-specific variables -/

/-- `struct pattern_var` (variable.h 107-114).  The pattern is `pre%post`; `id` numbers the
structures in the order of their creation. -/
structure PatVar where
  id : Nat
  pre : Str
  post : Str
deriving DecidableEq, Repr

/-- `p->len` (variable.c 128): the length of the pattern. -/
def PatVar.len (p : PatVar) : Nat := p.pre.length + 1 + p.post.length

/-- `pattern_vars` and `last_pattern_vars` (variable.c 38-42). -/
structure PatVars where
  list : List PatVar
  last : Nat → Option Nat

/-- `p->next = q->next; q->next = p` for the element with the given number. -/
def insertAfter (id : Nat) (p : PatVar) : List PatVar → List PatVar
  | [] => []
  | q :: qs => if q.id = id then q :: p :: qs else q :: insertAfter id p qs

/-- The search for the insertion point (variable.c 109-120). -/
def insertByLen (p : PatVar) : List PatVar → List PatVar
  | [] => [p]
  | q :: qs => if p.len < q.len then p :: q :: qs else q :: insertByLen p qs

/-- `create_pattern_var` (variable.c 89-135). -/
def createPatternVar (st : PatVars) (p : PatVar) : PatVars :=
  let list :=
    if st.list ≠ [] then
      match (if p.len < 256 then st.last p.len else none) with
      | some id => insertAfter id p st.list
      | none => insertByLen p st.list
    else [p]
  { list := list, last := if p.len < 256 then fun n => if n = p.len then some p.id else st.last n
                          else st.last }

/-- The test in `lookup_pattern_var` (variable.c 150-171). -/
def patVarMatches (p : PatVar) (target : Str) : Bool :=
  if target.length < p.len then false
  else
    let stemlen := target.length - p.len + 1
    (target.take p.pre.length == p.pre) &&
    ((target.drop p.pre.length).drop stemlen == p.post)

/-- `lookup_pattern_var (start, target)` (variable.c 139-174) on the part of the list that
follows `start`: the match and what follows it. -/
def lookupPatternVar (target : Str) : List PatVar → Option (PatVar × List PatVar)
  | [] => none
  | p :: ps => if patVarMatches p target then some (p, ps) else lookupPatternVar target ps

theorem lookupPatternVar_lt {target : Str} {l : List PatVar} {p r} (h : lookupPatternVar target l = some (p, r)) :
    r.length < l.length := by
  induction l with
  | nil => simp [lookupPatternVar] at h
  | cons q qs ih =>
    simp only [lookupPatternVar] at h
    split at h
    · simp only [Option.some.injEq, Prod.mk.injEq] at h
      rw [← h.2]; simp
    · have := ih h; simp; omega

/-- The loop in `initialize_file_variables` (variable.c 644-686): the pattern variables
applied, in order. -/
def patternVarsFor (target : Str) (l : List PatVar) : List PatVar :=
  match h : lookupPatternVar target l with
  | none => []
  | some (p, r) => p :: patternVarsFor target r
termination_by l.length
decreasing_by exact lookupPatternVar_lt h

/-! ## Assignments -/

/-- The state seen by `do_variable_definition`: the sets by number (0 is the global set) and
the numbers of the sets of the current list with `next_is_parent`. -/
structure DefState where
  sets : Nat → VarSet
  chain : List (Nat × Bool)

/-- The sets of the current list. -/
def DefState.scopes (st : DefState) : List (VarSet × Bool) :=
  st.chain.map fun (i, nip) => (st.sets i, nip)

/-- The set `lookup_variable` finds a name in (variable.c 503-515). -/
def locateGo (st : DefState) (isParent : Bool) : List (Nat × Bool) → Str → Option Nat
  | [], _ => none
  | (i, nip) :: rest, n =>
    match st.sets i n with
    | some v =>
      if !isParent || !v.priv then some i else locateGo st (isParent || nip) rest n
    | none => locateGo st (isParent || nip) rest n

/-- What assignments need from outside: `env_overrides`, the expansion of a text, and the
output of a shell command.  Both may change variables (`$(eval)`). -/
structure DefEnv where
  envOv : Bool
  expand : DefState → Str → DefState × Str
  shell : DefState → Str → DefState × Str

/-- The definition at the end of `do_variable_definition` (variable.c 1486-1492). -/
def finishDefinition (E : DefEnv) (st : DefState) (name p : Str) (origin : Origin) (recursive : Bool)
    (targetVar append conditional : Bool) : DefState :=
  let i := if targetVar then (st.chain.head?.map (·.1)).getD 0 else 0
  let v := defineVar E.envOv (st.sets i name) name [] p origin recursive
  { st with sets := fun j =>
      if j = i then (st.sets i).put name (some { v with append := append, conditional := conditional })
      else st.sets j }

/-- `do_variable_definition` (variable.c 1225-1497).  `none`: `abort` (1241), or the old value is
read although expanding the new one has undefined the variable. -/
def doVariableDefinition (E : DefEnv) (st : DefState) (name value : Str) (origin : Origin)
    (flavor : Flavor) (targetVar : Bool) : Option DefState :=
  match flavor with
  | .bogus => none
  | .simple =>
    let (st, p) := E.expand st value
    some (finishDefinition E st name p origin false targetVar false false)
  | .shell =>
    let (st, q) := E.expand st value
    let (st, p) := E.shell st q
    some (finishDefinition E st name p origin true targetVar false false)
  | .conditional =>
    match locateGo st false st.chain name with
    | some _ => some st
    | none => some (finishDefinition E st name value origin true targetVar false true)
  | .recursive => some (finishDefinition E st name value origin true targetVar false false)
  | .append | .appendValue =>
    let cur := (st.chain.head?.map (·.1)).getD 0
    let loc :=
      if targetVar then (if (st.sets cur name).isSome then some cur else none)
      else locateGo st false st.chain name
    match loc with
    | none => some (finishDefinition E st name value origin true targetVar targetVar false)
    | some i =>
      match st.sets i name with
      | none => none
      | some v =>
        let append := targetVar && v.append
        let (st, val) :=
          if v.recursive then (st, value)
          else if flavor ≠ .appendValue then E.expand st value
          else (st, value)
        match st.sets i name with
        | none => none
        | some v' =>
          if val = [] then some st
          else
            let p := if v'.value = [] then val else v'.value ++ ' ' :: val
            -- the flavour is that found before the expansion (1316-1319)
            some (finishDefinition E st name p origin v.recursive targetVar append false)

/-! ## Recognising assignments -/

/-- The loop over the text of a reference (variable.c 1551-1560): what follows the closing
character; the empty string if there is none. -/
def skipVarRef (opn cls : Char) : (count : Nat) → Str → Str
  | _, [] => []
  | n, c :: cs =>
    if c = cls then (if n - 1 = 0 then cs else skipVarRef opn cls (n - 1) cs)
    else if c = opn then skipVarRef opn cls (n + 1) cs
    else skipVarRef opn cls n cs

theorem skipVarRef_length (o c : Char) (n : Nat) (s : Str) : (skipVarRef o c n s).length ≤ s.length := by
  induction s generalizing n with
  | nil => simp [skipVarRef]
  | cons a s ih =>
    simp only [skipVarRef]
    split
    · split
      · simp
      · have := ih (n - 1); simp; omega
    · split
      · have := ih (n + 1); simp; omega
      · have := ih n; simp; omega

/-- The test for an assignment operator at `c`, `p` (variable.c 1577-1634): `none` if there is
none and the scan goes on (the caller decides what that means), `some none` if the line is no
definition, else the flavour and the text after the operator. -/
def assignOp (c : Char) (p : Str) : Option (Option (Flavor × Str)) :=
  if c = '=' then some (some (.recursive, p))
  else if p.head? = some '=' then
    if c = ':' then some (some (.simple, p.tail))
    else if c = '+' then some (some (.append, p.tail))
    else if c = '?' then some (some (.conditional, p.tail))
    else if c = '!' then some (some (.shell, p.tail))
    else none
  else if c = ':' then
    if p.head? = some ':' ∧ p.tail.head? = some '=' then some (some (.simple, p.tail.tail))
    else some none
  else none

/-- Result of `parse_variable_definition`. -/
structure Assignment where
  name : Str
  flavor : Flavor
  value : Str
deriving DecidableEq, Repr

/-- The loop of `parse_variable_definition` (variable.c 1523-1634).  `line` is the text from
`var->name` and `p` the rest of it.  `wspace` is set only in the turn that ends the loop. -/
def parseVarGo (line p : Str) : Option Assignment :=
  match p with
  | [] => none
  | c :: p =>
    if c = '#' then none
    else if c = '$' then
      match p with
      | [] => none
      | d :: p =>
        if d = '(' then parseVarGo line (skipVarRef '(' ')' 1 p)
        else if d = '{' then parseVarGo line (skipVarRef '{' '}' 1 p)
        else parseVarGo line p
    else if isBlank c then
      let name := line.take (line.length - (p.length + 1))
      match nextToken p with
      | [] => none
      | c :: p =>
        match assignOp c p with
        | some (some (f, rest)) => some ⟨name, f, nextToken rest⟩
        | _ => none
    else
      let name := line.take (line.length - (p.length + 1))
      match assignOp c p with
      | some (some (f, rest)) => some ⟨name, f, nextToken rest⟩
      | some none => none
      | none => parseVarGo line p
termination_by p.length
decreasing_by
  all_goals simp
  · have := skipVarRef_length '(' ')' 1 p; omega
  · have := skipVarRef_length '{' '}' 1 p; omega
  · omega

/-- `parse_variable_definition` (variable.c 1513-1639). -/
def parseVariableDefinition (s : Str) : Option Assignment :=
  parseVarGo (nextToken s) (nextToken s)

/-! ## The environment -/

/-- The export decision of `target_environment` (variable.c 1065-1115): `none` for `continue`,
else the definition to be entered.  `gexp` is the export state of the global variable of
that name if there is one, `shellVar` the value of `SHELL` in make's own environment. -/
def envEntry (exportAll : Bool) (shellVar : Option Var) (gexp : Option Export) (n : Str) (v : Var) :
    Option Var :=
  let v := if v.perTarget ∧ v.exp = .default then { v with exp := gexp.getD v.exp } else v
  match v.exp with
  | .default =>
    if v.origin = .default ∨ v.origin = .automatic then none
    else if !v.exportable then none
    else if !exportAll ∧ v.origin ≠ .command ∧ v.origin ≠ .env ∧ v.origin ≠ .envOverride then none
    else some v
  | .export_ => some v
  | .noexport => if n = "SHELL".toList then shellVar else none
  | .ifset => if v.origin = .default then none else some v

/-- The accumulation in `target_environment` (variable.c 1052-1121): the sets in order, each
enumerated in some order; the first definition of a name entered stays. -/
def envTable (exportAll : Bool) (shellVar : Option Var) (gset : VarSet) (table : List (Str × Var)) :
    List (Str × Var) → List (Str × Var)
  | [] => table
  | (n, v) :: rest =>
    match envEntry exportAll shellVar ((gset n).map (·.exp)) n v with
    | none => envTable exportAll shellVar gset table rest
    | some v =>
      if table.any (fun e => e.1 == n) then envTable exportAll shellVar gset table rest
      else envTable exportAll shellVar gset (table ++ [(n, v)]) rest

/-- The three names make sets itself (variable.c 1123-1133). -/
def envReserved : List Str :=
  ["MAKELEVEL".toList, "MAKEPARENT_PID".toList, "MAKEPARENT_TARGET".toList]

/-- The value that goes into the environment (variable.c 1145-1167). -/
def envValue (expand : Str → Var → Str) (n : Str) (v : Var) : Str :=
  if v.recursive ∧ v.origin ≠ .env ∧ v.origin ≠ .envOverride then expand n v else v.value

/-- `target_environment` (variable.c 1031-1183) for a file: names and values.  `enums` are
the enumerations of the sets of the file's list, `own` the three entries added at the end.
Simplification: the export state copied into a per-target variable (1076) is not kept, and
expanding a value does not change the table. -/
def targetEnvironment (exportAll : Bool) (shellVar : Option Var) (gset : VarSet)
    (expand : Str → Var → Str) (enums : List (List (Str × Var))) (own : List (Str × Str)) :
    List (Str × Str) :=
  let table := envTable exportAll shellVar gset [] enums.flatten
  let table := table.filter fun e => !envReserved.contains e.1
  table.map (fun e => (e.1, envValue expand e.1 e.2)) ++ own

end Remake
