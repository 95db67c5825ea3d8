import Verif.Misc.Model
/-!
# Pattern rules

Models the list of pattern rules (`new_pattern_rule`, `create_pattern_rule`, rule.c 314-381 and
479-512), the conversion of suffix rules (`convert_suffix_rule`, `convert_to_pattern`, rule.c
171-304), and the search for an implicit rule (`try_implicit_rule`, `pattern_search`, implicit.c
34-60 and 201-999).

Left out: file locations and debugger breakpoints of rules, the flags `precious`, `secondary`,
`tried_implicit` and `changed`, target-specific variables of intermediate files, debug output,
freeing of memory.
-/
namespace Remake

/-- One target pattern: the text before and after its `%` (`targets[i]`, `suffixes[i]`, `lens[i]` of
`struct rule`, rule.h 25-38).  `find_percent_cached` has removed the quoting backslashes, so `pre`
may itself contain `%`. -/
structure PatTarget where
  pre : Str
  suf : Str
deriving DecidableEq, Repr

/-- `targets[i]`. -/
def PatTarget.text (t : PatTarget) : Str := t.pre ++ '%' :: t.suf

/-- `target[1] == '\0'` (implicit.c 305, 367, 404): the pattern is just `%`. -/
def PatTarget.anything (t : PatTarget) : Bool := t.text.length == 1

/-- A prerequisite of a pattern rule (`struct dep`, dep.h). -/
structure RuleDep where
  name : Str
  second : Bool := false
  ignoreMtime : Bool := false
  ignoreAuto : Bool := false
deriving DecidableEq, Repr

/-- `struct rule` (rule.h 25-38).  `cmds` identifies the recipe. -/
structure PatRule where
  targets : List PatTarget
  deps : List RuleDep
  cmds : Option Nat
  terminal : Bool := false
deriving DecidableEq, Repr

/-! ## The list of pattern rules -/

/-- The test for an identical rule (rule.c 325-343): some target of the new rule equals every target
of the old one, and the names of the prerequisites are the same. -/
def sameRule (new old : PatRule) : Bool :=
  new.targets.any (fun t => old.targets.all (fun u => t.text == u.text)) &&
    new.deps.map (·.name) == old.deps.map (·.name)

/-- `new_pattern_rule` (rule.c 314-381) followed by the setting of `terminal` in
`create_pattern_rule` (rule.c 510-511): the chain afterwards.  The search stops at the first
identical rule. -/
def newPatternRule (override : Bool) (rules : List PatRule) (new : PatRule) : List PatRule :=
  match rules.findIdx? (sameRule new) with
  | some i => if override then rules.eraseIdx i ++ [new] else rules
  | none => rules ++ [new]

/-! ## Suffix rules -/

/-- What `convert_to_pattern` sees of a target: whether it has prerequisites, and its recipe. -/
structure SuffixTarget where
  hasDeps : Bool
  cmds : Option Nat
deriving DecidableEq, Repr

/-- The rule built by `convert_suffix_rule` (rule.c 171-217).  `target = none` is the NULL that stands
for `(%.o)`. -/
def suffixRule (target source : Option Str) (cmds : Option Nat) : PatRule :=
  { targets := [match target with
      | none => { pre := ['('], suf := ['.', 'o', ')'] }
      | some t => { pre := [], suf := t }]
    deps := match source with
      | none => []
      | some s => [{ name := '%' :: s }]
    cmds := cmds }

/-- The rules made of the pair of suffixes `s`, `s2` (rule.c 264-302). -/
def pairRules (posix : Bool) (file : Str → Option SuffixTarget) (s s2 : Str) : List PatRule :=
  if s = s2 then []
  else
    match file (s ++ s2) with
    | none => []
    | some f =>
      match f.cmds with
      | none => []
      | some c =>
        if f.hasDeps && posix then []
        else
          (if s2 = ['.', 'a'] then [suffixRule none (some s) (some c)] else []) ++
            [suffixRule (some s2) (some s) (some c)]

/-- The rules made for one suffix (rule.c 244-303), in the order in which they are created. -/
def suffixRules (posix : Bool) (file : Str → Option SuffixTarget) (all : List Str) (s : Str) :
    List PatRule :=
  suffixRule (some s) none none ::
    ((match (file s).bind (·.cmds) with
      | some c => [suffixRule (some []) (some s) (some c)]
      | none => []) ++
     all.flatMap (pairRules posix file s))

/-- `convert_to_pattern` (rule.c 223-304): `suffixes` are the prerequisites of `.SUFFIXES`, `file`
the table of targets. -/
def convertToPattern (posix : Bool) (file : Str → Option SuffixTarget) (suffixes : List Str)
    (rules : List PatRule) : List PatRule :=
  (suffixes.flatMap (suffixRules posix file suffixes)).foldl (newPatternRule false) rules

/-! ## Matching -/

/-- `pathlen` (implicit.c 261-273): the length of the name up to its last slash, not counting a slash
at its end; 0 for the name of an archive member.  The name is not empty (`memrchr` gets
`namelen - 1`). -/
def pathLen (archive : Bool) (name : Str) : Nat :=
  if archive || arName name = .yes then 0
  else (name.dropLast.reverse.dropWhile (· ≠ '/')).length

/-- The test of one target pattern (implicit.c 308-364), giving the length of the stem with its
directory (`tryrules[].stemlen`) and `checked_lastslash`. -/
def matchTarget (name : Str) (pathlen : Nat) (t : PatTarget) : Option (Nat × Bool) :=
  if name.length < t.text.length then none
  else
    let check : Bool := decide (pathlen ≠ 0) && !t.text.contains '/'
    let dir := if check then pathlen else 0
    let stemlen := name.length - t.text.length + 1
    if stemlen < dir then none
    else if (name.drop dir).take t.pre.length ≠ t.pre then none
    else if name.drop (dir + t.pre.length + (stemlen - dir)) ≠ t.suf then none
    else some (stemlen, check)

/-- `struct tryrule` (implicit.c 161-176).  `dead` is a NULL `rule`; `rule` is the place of the rule in
the chain. -/
structure TryRule where
  rule : Nat
  target : Nat
  stemlen : Nat
  checked : Bool
  order : Nat
  dead : Bool := false
deriving DecidableEq, Repr

/-- The inner loop over the targets of one rule (implicit.c 296-384), from target `ti` on: the entries
added (without `order`) and whether a specific pattern matched. -/
def ruleTries (name : Str) (pathlen : Nat) (recursing : Bool) (r : PatRule) (ri : Nat) :
    Nat → List PatTarget → List TryRule × Bool
  | _, [] => ([], false)
  | ti, t :: ts =>
    let (more, spec) := ruleTries name pathlen recursing r ri (ti + 1) ts
    if recursing && t.anything && !r.terminal then (more, spec)
    else
      match matchTarget name pathlen t with
      | none => (more, spec)
      | some (stemlen, check) =>
        let spec := spec || !t.anything
        if r.deps.isEmpty && r.cmds.isNone then (more, spec)
        else
          ({ rule := ri, target := ti, stemlen := stemlen, checked := check, order := 0 } :: more,
            spec)

/-- The outer loop (implicit.c 279-385), from rule `ri` on. -/
def allTries (name : Str) (pathlen : Nat) (recursing : Bool) (inUse : List Nat) :
    Nat → List PatRule → List TryRule × Bool
  | _, [] => ([], false)
  | ri, r :: rs =>
    let (more, spec) := allTries name pathlen recursing inUse (ri + 1) rs
    if !r.deps.isEmpty && r.cmds.isNone then (more, spec)
    else if inUse.contains ri then (more, spec)
    else
      let (here, spec') := ruleTries name pathlen recursing r ri 0 r.targets
      (here ++ more, spec' || spec)

/-- The definition order of the entries (`order = nrules`, implicit.c 381). -/
def numberTries : Nat → List TryRule → List TryRule
  | _, [] => []
  | n, t :: ts => { t with order := n } :: numberTries (n + 1) ts

/-- `stemlen_compare` (implicit.c 178-185): `a` does not come after `b`.  (The differences are
computed in `int`; here names are taken to be shorter than 2^31.) -/
def TryRule.le (a b : TryRule) : Bool :=
  decide (a.stemlen < b.stemlen) || (decide (a.stemlen = b.stemlen) && decide (a.order ≤ b.order))

/-- Insertion into a sorted list. -/
def insertTry (t : TryRule) : List TryRule → List TryRule
  | [] => [t]
  | u :: us => if t.le u then t :: u :: us else u :: insertTry t us

/-- `qsort (tryrules, …, stemlen_compare)` (implicit.c 391-394): no two entries have the same
`order`, so the result does not depend on the algorithm. -/
def sortTries : List TryRule → List TryRule
  | [] => []
  | t :: ts => insertTry t (sortTries ts)

/-- The rejection of match-anything rules (implicit.c 396-409). -/
def rejectAnything (rules : List PatRule) (specific : Bool) (t : TryRule) : TryRule :=
  match rules[t.rule]? with
  | none => t
  | some r => if specific && !r.terminal && r.targets.any (·.anything) then { t with dead := true } else t

/-- `tryrules` when the first pass starts (implicit.c 275-409). -/
def tryList (rules : List PatRule) (inUse : List Nat) (recursing : Bool) (name : Str) (pathlen : Nat) :
    List TryRule :=
  let (ts, spec) := allTries name pathlen recursing inUse 0 rules
  (sortTries (numberTries 0 ts)).map (rejectAnything rules spec)

/-! ## The prerequisites of a rule that is tried -/

/-- What the search asks of the rest of the program. -/
structure SearchEnv where
  /-- `file_exists_p`, for names that are not marked impossible -/
  fileExists : Str → Bool
  /-- whether `vpath_search` finds the name -/
  vpath : Str → Bool
  /-- `PARSE_FILE_SEQ (…, PARSEFS_ONEWORD)` on the text of one prerequisite (implicit.c 544): more
  than one name if there are wildcards -/
  parse : Str → List Str
  /-- second expansion of the text of the prerequisites (implicit.c 565-669), given the stem and
  the directory to add: the names and whether each is order-only.  Simplification: it has no effects -/
  second : Str → Str → Str → List (Str × Bool)
  /-- `GET_PATH_MAX` -/
  pathMax : Nat

/-- One name to be tried (`struct dep` in the list `dl`, implicit.c 544-550 and 645-659). -/
structure WantedDep where
  name : Str
  ignoreMtime : Bool
  ignoreAuto : Bool
deriving DecidableEq, Repr

/-- Replace the first `%` (implicit.c 524-539); `dir` is put in front if there is one. -/
def substStem (dir core text : Str) : Str :=
  match text.dropWhile (· ≠ '%') with
  | [] => text
  | _ :: rest => dir ++ text.takeWhile (· ≠ '%') ++ core ++ rest

/-- The names that one prerequisite stands for (implicit.c 521-669). -/
def depNames (env : SearchEnv) (dir core : Str) (d : RuleDep) : List WantedDep :=
  if d.second then
    (env.second (dir ++ core) dir d.name).map (fun p =>
      { name := p.1, ignoreMtime := p.2, ignoreAuto := false })
  else
    (env.parse (substStem dir core d.name)).map (fun n =>
      { name := n, ignoreMtime := d.ignoreMtime, ignoreAuto := d.ignoreAuto })

/-- All the names that a rule wants (implicit.c 500-809, the loop over `dep`).  Simplification: all
prerequisites are expanded before the first is tried. -/
def wanted (env : SearchEnv) (dir core : Str) (r : PatRule) : List WantedDep :=
  r.deps.flatMap (depNames env dir core)

/-- A prerequisite in the result (`struct dep` made at implicit.c 898-909). -/
structure FoundDep where
  name : Str
  ignoreMtime : Bool
  ignoreAuto : Bool
deriving DecidableEq, Repr

/-- What a successful search stores in `file` (implicit.c 837-994): the rule and target pattern, the
stem, the prerequisites put in front of those of the file, and the other targets (`also_make`). -/
structure FoundRule where
  rule : Nat
  target : Nat
  stem : Str
  deps : List FoundDep
  cmds : Option Nat
  also : List Str
deriving DecidableEq, Repr

/-- `struct patdeps` (implicit.c 149-156); `file` is the result of the search for an intermediate
file. -/
structure PatDep where
  name : Str
  ignoreMtime : Bool
  ignoreAuto : Bool
  file : Option FoundRule
deriving DecidableEq, Repr

/-- The state that searches share: the names in the table of files, the intermediate files entered
there with what was found for them, and the names marked impossible. -/
structure SearchState where
  known : List Str
  made : List (Str × FoundRule) := []
  impossible : List Str := []
deriving DecidableEq, Repr

/-- The result of trying the prerequisites of one rule. -/
inductive TryResult where
  | ok
  | failed
  /-- failed, and the rule is not tried again (`tryrules[ri].rule = 0`, implicit.c 701) -/
  | rejected
deriving DecidableEq, Repr

/-- The loop over the names (implicit.c 685-802).  `pat` is `deplist` so far, in order; `rec` is the
recursive search.  The outer `none` is the lack of fuel (see `search`). -/
def tryNames (env : SearchEnv) (rec : Str → SearchState → Option (Option FoundRule × SearchState))
    (intermed : Bool) (explicit : List Str) :
    List WantedDep → List PatDep → SearchState → Option (TryResult × List PatDep × SearchState)
  | [], pat, s => some (.ok, pat, s)
  | d :: ds, pat, s =>
    if s.impossible.contains d.name then some (.rejected, pat, s)
    else if explicit.contains d.name || s.known.contains d.name || env.fileExists d.name ||
        env.vpath d.name then
      tryNames env rec intermed explicit ds
        (pat ++ [{ name := d.name, ignoreMtime := d.ignoreMtime, ignoreAuto := d.ignoreAuto, file := none }]) s
    else if intermed then
      match rec d.name s with
      | none => none
      | some (some f, s') =>
        tryNames env rec intermed explicit ds
          (pat ++ [{ name := d.name, ignoreMtime := d.ignoreMtime, ignoreAuto := d.ignoreAuto, file := some f }]) s'
      | some (none, s') => some (.failed, pat, { s' with impossible := d.name :: s'.impossible })
    else some (.failed, pat, s)

/-- The directory and the rest of the stem for an entry (implicit.c 448-461, 474-486). -/
def stemParts (rules : List PatRule) (name : Str) (pathlen : Nat) (t : TryRule) : Str × Str :=
  let dir := if t.checked then pathlen else 0
  let pre := ((rules[t.rule]?.bind (fun r => r.targets[t.target]?)).map (fun p => p.pre.length)).getD 0
  (name.take dir, (name.drop (dir + pre)).take (t.stemlen - dir))

/-- One pass over the rules (implicit.c 418-823).  The result is the entry chosen if any, the final
`deplist`, the entries afterwards and the state.  `rec` gets the place of the rule in use. -/
def runPass (env : SearchEnv) (rules : List PatRule)
    (rec : Nat → Str → SearchState → Option (Option FoundRule × SearchState)) (intermed : Bool)
    (explicit : List Str) (name : Str) (pathlen : Nat) :
    List TryRule → List PatDep → SearchState →
      Option (Option TryRule × List PatDep × List TryRule × SearchState)
  | [], pat, s => some (none, pat, [], s)
  | t :: ts, pat, s =>
    let skip (t : TryRule) (pat : List PatDep) (s : SearchState) :=
      match runPass env rules rec intermed explicit name pathlen ts pat s with
      | none => none
      | some (c, pat, ts', s) => some (c, pat, t :: ts', s)
    match rules[t.rule]? with
    | none => skip t pat s
    | some r =>
      if t.dead then skip t pat s
      else if intermed && r.terminal then skip t pat s
      else if env.pathMax < t.stemlen then skip t pat s
      else if r.deps.isEmpty then some (some t, pat, t :: ts, s)
      else
        let (dir, core) := stemParts rules name pathlen t
        match tryNames env (rec t.rule) intermed explicit (wanted env dir core r) [] s with
        | none => none
        | some (.ok, pat, s) => some (some t, pat, t :: ts, s)
        | some (.failed, pat, s) => skip t pat s
        | some (.rejected, pat, s) => skip { t with dead := true } pat s

/-- The names of the other targets of the rule (implicit.c 957-992): the whole stem, with its
directory, is put in place of the `%`; each is put in front of those before it. -/
def alsoMake (r : PatRule) (target : Nat) (stem : Str) : List Str :=
  if 1 < r.targets.length then
    ((r.targets.eraseIdx target).map (fun t => t.pre ++ stem ++ t.suf)).reverse
  else []

/-- The result for the entry chosen (implicit.c 837-994, without the effects on the table of files). -/
def foundOf (rules : List PatRule) (name : Str) (pathlen : Nat) (t : TryRule) (pat : List PatDep) :
    FoundRule :=
  let (dir, core) := stemParts rules name pathlen t
  { rule := t.rule
    target := t.target
    stem := dir ++ core
    deps := pat.map (fun p => { name := p.name, ignoreMtime := p.ignoreMtime, ignoreAuto := p.ignoreAuto })
    cmds := rules[t.rule]?.bind (·.cmds)
    also := match rules[t.rule]? with
      | none => []
      | some r => alsoMake r t.target (dir ++ core) }

/-- The entries made in the table of files for one prerequisite (implicit.c 855-909). -/
def enterDep (recursing : Bool) (s : SearchState) (p : PatDep) : SearchState :=
  let s := match p.file with
    | none => s
    | some f => { s with known := f.deps.map (·.name) ++ p.name :: s.known
                         made := (p.name, f) :: s.made }
  if recursing then s else { s with known := p.name :: s.known }

/-- The effects of a successful search on the table of files (implicit.c 850-994). -/
def enterFound (recursing : Bool) (pat : List PatDep) (f : FoundRule) (s : SearchState) : SearchState :=
  let s := pat.reverse.foldl (enterDep recursing) s
  { s with known := f.also ++ s.known }

/-- The name that is compared with the patterns (implicit.c 206): "(MEMBER)" when looking for an archive
member. -/
def searchName (archive : Bool) (full : Str) : Str := if archive then full.dropWhile (· ≠ '(') else full

/-- `pattern_search` (implicit.c 201-999).  `inUse` are the rules in use by the callers, `explicit` the
prerequisites the file already has.  The first argument bounds the depth of the recursion: the
outer `none` means that it was too small.  (`C73_terminates` shows that the number of rules
suffices.) -/
def search (env : SearchEnv) (rules : List PatRule) :
    Nat → List Nat → Bool → Bool → List Str → Str → SearchState → Option (Option FoundRule × SearchState)
  | 0, _, _, _, _, _, _ => none
  | n + 1, inUse, recursing, archive, explicit, fullName, s =>
    let name := searchName archive fullName
    let pathlen := pathLen archive name
    let rec' := fun i nm s => search env rules n (i :: inUse) true false [] nm s
    match runPass env rules rec' false explicit name pathlen
        (tryList rules inUse recursing name pathlen) [] s with
    | none => none
    | some (some t, pat, _, s) =>
      let f := foundOf rules name pathlen t pat
      some (some f, enterFound recursing pat f s)
    | some (none, _, ts, s) =>
      match runPass env rules rec' true explicit name pathlen ts [] s with
      | none => none
      | some (some t, pat, _, s) =>
        let f := foundOf rules name pathlen t pat
        some (some f, enterFound recursing pat f s)
      | some (none, _, _, s) => some (none, s)

/-- `try_implicit_rule` (implicit.c 35-61): the archive is tried second.  The depth is the number of
rules plus one. -/
def tryImplicit (env : SearchEnv) (rules : List PatRule) (explicit : List Str) (name : Str)
    (s : SearchState) : Option (Option FoundRule × SearchState) :=
  match search env rules (rules.length + 1) [] false false explicit name s with
  | none => none
  | some (some f, s) => some (some f, s)
  | some (none, s) =>
    if arName name = .yes then search env rules (rules.length + 1) [] false true explicit name s
    else some (none, s)

end Remake
