import Verif.Rules.Fuel
import Verif.Rules.Lists
/-!
# Properties of pattern rules

C36 (suffix rules), C37 (choice of an implicit rule), C73 (the search ends), C74 (other targets of the
rule), C75 (redefinition of rules).
-/
set_option linter.unusedVariables false
set_option linter.unusedSimpArgs false
namespace Remake
open Remake.Spec

/-! ## C36: suffix rules -/

/-- **C36.**  The rules that were there stay, in front of the others.  Everything that is added is called
for by the suffixes: `%.y: %.x` for a target `.x.y`, `%: %.x` for a target `.x`, `(%.o): %.x` for a target
`.x.a`, and the empty rules `%.x:`.  Missing for the full statement: outside POSIX mode a target with
prerequisites is converted too (`C36_with_prerequisites`). -/
theorem C36_only_partial (posix : Bool) (file : Str → Option SuffixTarget) (suffixes : List Str)
    (rules : List PatRule) :
    ∃ added, convertToPattern posix file suffixes rules = rules ++ added ∧
      ∀ r ∈ added, FromSuffix posix file suffixes r := by
  obtain ⟨ad, h1, h2⟩ := foldl_keep_prefix (suffixes.flatMap (suffixRules posix file suffixes)) rules
  exact ⟨ad, h1, fun r hr => (fromSuffix_iff posix file suffixes r).1 (h2 r hr)⟩

/-- **C36.**  Every rule that the suffixes call for is in the list afterwards, unless the makefile had a
rule with the same target pattern and prerequisites (which stays, by `C36_only_partial`). -/
theorem C36_all (posix : Bool) (file : Str → Option SuffixTarget) (suffixes : List Str)
    (rules : List PatRule) (r : PatRule) (h : FromSuffix posix file suffixes r) :
    r ∈ convertToPattern posix file suffixes rules ∨
      ∃ q ∈ rules, (∀ u ∈ q.targets, ∀ t ∈ r.targets, u.text = t.text) ∧
        q.deps.map (·.name) = r.deps.map (·.name) := by
  rcases foldl_keep_mem _ rules r ((fromSuffix_iff posix file suffixes r).2 h) with h1 | ⟨q, hq, hs⟩ | ⟨q, hq, hne, hs⟩
  · exact Or.inl h1
  · refine Or.inr ⟨q, hq, ?_⟩
    have hl : r.targets.length = 1 := by cases h <;> rfl
    match ht : r.targets, hl with
    | [t], _ =>
      unfold sameRule at hs
      rw [ht] at hs
      simp only [List.any_cons, List.any_nil, Bool.or_false, Bool.and_eq_true, List.all_eq_true, beq_iff_eq] at hs
      refine ⟨?_, hs.2.symm⟩
      intro u hu t' ht'
      simp only [List.mem_singleton] at ht'
      subst ht'
      exact (hs.1 u hu).symm
  · exact absurd (fromSuffix_unique h ((fromSuffix_iff posix file suffixes q).1 hq) hs) hne

/-- **C36.**  In POSIX mode a target with prerequisites is not a suffix rule (for two suffixes). -/
theorem C36_posix (file : Str → Option SuffixTarget) (suffixes : List Str) (s s2 : Str) (f : SuffixTarget)
    (c : Nat) (hf : file (s ++ s2) = some f) (hd : f.hasDeps = true) (h2 : s2 ≠ []) :
    ¬ FromSuffix true file suffixes { targets := [⟨[], s2⟩], deps := [{ name := '%' :: s }], cmds := some c } := by
  intro h
  cases h with
  | one s f c hs hf' hc => exact h2 rfl
  | two s s2 f' c hs hs2 hne hf' hc hp =>
    rw [hf] at hf'
    simp only [Option.some.injEq] at hf'
    subst hf'
    exact hp ⟨hd, rfl⟩

/-- The targets `.c.o` (recipe 1), `.c` (recipe 2), `.c.a` (recipe 3, with prerequisites), `.o.c` (no
recipe). -/
def demoTargets : Str → Option SuffixTarget := fun n =>
  if n = ".c.o".toList then some ⟨false, some 1⟩
  else if n = ".c".toList then some ⟨false, some 2⟩
  else if n = ".c.a".toList then some ⟨true, some 3⟩
  else if n = ".o.c".toList then some ⟨false, none⟩
  else none

example : FromSuffix true demoTargets [".c".toList, ".o".toList]
    { targets := [⟨[], ".o".toList⟩], deps := [{ name := "%.c".toList }], cmds := some 1 } :=
  .two ".c".toList ".o".toList ⟨false, some 1⟩ 1 (by decide) (by decide) (by decide) (by decide) rfl (by decide)

/-- The whole list for a small makefile. -/
theorem C36_demo : convertToPattern true demoTargets [".c".toList, ".o".toList, ".a".toList] [] =
    [{ targets := [⟨[], ".c".toList⟩], deps := [], cmds := none },
     { targets := [⟨[], []⟩], deps := [{ name := "%.c".toList }], cmds := some 2 },
     { targets := [⟨[], ".o".toList⟩], deps := [{ name := "%.c".toList }], cmds := some 1 },
     { targets := [⟨[], ".o".toList⟩], deps := [], cmds := none },
     { targets := [⟨[], ".a".toList⟩], deps := [], cmds := none }] := by
  decide +kernel

/-- **C36 does not hold in full**: outside POSIX mode the target `.c.a` becomes a pattern rule although it
has prerequisites (which are lost). -/
theorem C36_with_prerequisites :
    ({ targets := [⟨[], ".a".toList⟩], deps := [{ name := "%.c".toList }], cmds := some 3 } : PatRule) ∈
      convertToPattern false demoTargets [".c".toList, ".a".toList] [] ∧
    ({ targets := [⟨['('], ".o)".toList⟩], deps := [{ name := "%.c".toList }], cmds := some 3 } : PatRule) ∈
      convertToPattern false demoTargets [".c".toList, ".a".toList] [] := by
  decide +kernel

/-! ## C75: redefinition -/

/-- **C75.**  After any sequence of rules with one target each, first from makefiles and then
built in: no two rules have the same target and prerequisites; the rule kept is the last one from the
makefiles, else the first built-in one; the makefiles' rules come first, and the order is that of
definition.  Missing for the full statement: rules with several targets (`C75_several_targets`,
`C75_swallowed`). -/
theorem C75_redefine_partial (user builtin : List PatRule) (hu : ∀ r ∈ user, r.targets.length = 1)
    (hb : ∀ r ∈ builtin, r.targets.length = 1) :
    let all := builtin.foldl (newPatternRule false) (user.foldl (newPatternRule true) [])
    (all.map headOf).Nodup ∧
    (∃ us bs, all = us ++ bs ∧ us.Sublist user ∧ bs.Sublist builtin) ∧
    ∀ h, all.find? (fun r => decide (headOf r = h)) =
      (user.reverse.find? (fun r => decide (headOf r = h))).or (builtin.find? (fun r => decide (headOf r = h))) := by
  intro all
  obtain ⟨h1, h2, h3⟩ := user_rules user hu
  obtain ⟨k1, ⟨ad, k2, k2'⟩, k3⟩ := other_rules (user.foldl (newPatternRule true) []) builtin
    (fun r hr => hu r (h2.subset hr)) hb h1
  refine ⟨k1, ⟨_, ad, k2, h2, k2'⟩, ?_⟩
  intro h
  rw [← h3 h]
  exact k3 h

/-- `%.o: %.c` with a recipe. -/
def ruleOC (cmds : Option Nat) : PatRule :=
  { targets := [⟨[], ".o".toList⟩], deps := [{ name := "%.c".toList }], cmds := cmds }

/-- A rule that is cancelled in the makefile (`%.o: %.c` without recipe) stays cancelled. -/
example : [ruleOC (some 7)].foldl (newPatternRule false) ([ruleOC (some 1), ruleOC none].foldl (newPatternRule true) []) =
    [ruleOC none] := by decide +kernel

/-- `%.a %.b: %.c` with a recipe. -/
def ruleABC (cmds : Option Nat) : PatRule :=
  { targets := [⟨[], ".a".toList⟩, ⟨[], ".b".toList⟩], deps := [{ name := "%.c".toList }], cmds := cmds }

/-- Everything exists that ends in `.c`; no search directories. -/
def demoEnv : SearchEnv where
  fileExists n := decide (".c".toList <:+ n)
  vpath _ := false
  parse n := [n]
  second _ _ _ := []
  pathMax := 4096

/-- **C75 does not hold for rules with several targets**: the second definition of `%.a %.b: %.c` does
not replace the first, and the first is the one that is used. -/
theorem C75_several_targets :
    [ruleABC (some 1), ruleABC (some 2)].foldl (newPatternRule true) [] = [ruleABC (some 1), ruleABC (some 2)] ∧
    (tryImplicit demoEnv [ruleABC (some 1), ruleABC (some 2)] [] "x.a".toList { known := [] }).map
      (fun p => p.1.map (·.cmds)) = some (some (some 1)) := by
  decide +kernel

/-- **C75 does not hold for rules with several targets**: `%.a %.b: %.c` removes the different rule
`%.a: %.c`. -/
theorem C75_swallowed :
    [{ targets := [⟨[], ".a".toList⟩], deps := [{ name := "%.c".toList }], cmds := some 1 }, ruleABC (some 2)].foldl
      (newPatternRule true) [] = [ruleABC (some 2)] := by
  decide +kernel

/-! ## C73: the search ends -/

/-- **C73.**  The search for an implicit rule ends, for every list of rules: a chain of rules is never
longer than the list (the depth of the recursion given to `tryImplicit` is enough). -/
theorem C73_terminates (env : SearchEnv) (rules : List PatRule) (explicit : List Str) (name : Str)
    (s : SearchState) : tryImplicit env rules explicit name s ≠ none := by
  have hf : freeRules rules [] < rules.length + 1 := by
    unfold freeRules
    have := List.length_filter_le (fun i => !([] : List Nat).contains i) (List.range rules.length)
    rw [List.length_range] at this
    omega
  unfold tryImplicit
  cases h : search env rules (rules.length + 1) [] false false explicit name s with
  | none => exact absurd h (search_total _ _ _ _ _ _ _ hf)
  | some q =>
    obtain ⟨f, s1⟩ := q
    cases f with
    | some f => simp
    | none =>
      simp only
      split
      · exact search_total _ _ _ _ _ _ _ hf
      · simp

/-- **C73.**  Allowing more depth does not change the answer. -/
theorem C73_depth (env : SearchEnv) (rules : List PatRule) (archive : Bool) (explicit : List Str) (name : Str)
    (s : SearchState) (k : Nat) :
    search env rules (rules.length + 1 + k) [] false archive explicit name s =
      search env rules (rules.length + 1) [] false archive explicit name s := by
  have hf : freeRules rules [] < rules.length + 1 := by
    unfold freeRules
    have := List.length_filter_le (fun i => !([] : List Nat).contains i) (List.range rules.length)
    rw [List.length_range] at this
    omega
  induction k with
  | zero => rfl
  | succ k ih =>
    cases h : search env rules (rules.length + 1) [] false archive explicit name s with
    | none => exact absurd h (search_total _ _ _ _ _ _ _ hf)
    | some x =>
      rw [h] at ih
      exact search_mono _ _ _ _ _ _ _ _ ih

/-- Rules that feed each other: `%.a: %.b` and `%.b: %.a`. -/
def loopRules : List PatRule :=
  [{ targets := [⟨[], ".a".toList⟩], deps := [{ name := "%.b".toList }], cmds := some 1 },
   { targets := [⟨[], ".b".toList⟩], deps := [{ name := "%.a".toList }], cmds := some 2 }]

/-- The search for `x.a` stops at the second use of the first rule; two levels of recursion are
needed. -/
theorem C73_demo :
    tryImplicit demoEnv loopRules [] "x.a".toList { known := [] } =
      some (none, { known := [], impossible := ["x.b".toList, "x.a".toList] }) ∧
    search demoEnv loopRules 2 [] false false [] "x.a".toList { known := [] } = none := by
  decide +kernel

/-! ## C37: the choice of an implicit rule -/

theorem stateOk_init (env : SearchEnv) (rules : List PatRule) (ex : List Str) (s : SearchState) :
    StateOk env rules (ex ++ s.known) s.made s :=
  ⟨fun n hn => .mentioned (List.mem_append_right _ hn), fun p hp => Or.inl hp⟩

/-- The two searches of `tryImplicit`, put together. -/
theorem tryImplicit_ok {env : SearchEnv} {rules : List PatRule} {ex : List Str} {name : Str}
    {s s' : SearchState} {res : Option FoundRule} (h : tryImplicit env rules ex name s = some (res, s')) :
    StateOk env rules (ex ++ s.known) s.made s' ∧ StateLe s s' ∧
    (∀ f, res = some f → ∃ archive s1, (archive = false → s1 = s) ∧ StateLe s s1 ∧
      (archive = true → arName name = .yes ∧ NoneFits env rules [] false (isMember false name) ex name s s1) ∧
      HowToMake env rules (ex ++ s.known) false (isMember archive (searchName archive name)) (searchName archive name) f ∧
      Chosen env rules [] false (isMember archive (searchName archive name)) ex (searchName archive name) s1 s' f) ∧
    (res = none → ∃ s1, StateLe s s1 ∧ StateLe s1 s' ∧ NoneFits env rules [] false (isMember false name) ex name s s1 ∧
      (arName name = .yes → NoneFits env rules [] false (isMember true (searchName true name)) ex (searchName true name) s1 s')) := by
  have hex : ∀ m ∈ ex, Ready env rules (ex ++ s.known) m := fun m hm => .mentioned (List.mem_append_left _ hm)
  unfold tryImplicit at h
  cases h1 : search env rules (rules.length + 1) [] false false ex name s with
  | none => rw [h1] at h; exact absurd h (by simp)
  | some q =>
    obtain ⟨f1, s1⟩ := q
    rw [h1] at h
    obtain ⟨a, b, c, d⟩ := search_ok _ _ _ _ _ _ _ _ _ hex h1 (stateOk_init env rules ex s)
    cases f1 with
    | some f1 =>
      simp only [Option.some.injEq, Prod.mk.injEq] at h
      obtain ⟨rfl, rfl⟩ := h
      refine ⟨a, b, ?_, by simp⟩
      intro f hf
      obtain ⟨c1, c2⟩ := c f hf
      exact ⟨false, s, fun _ => rfl, StateLe.refl _, by simp, c1, c2⟩
    | none =>
      simp only at h
      have d' := d rfl
      have hsn : searchName false name = name := by simp [searchName]
      rw [hsn] at d'
      split at h
      · rename_i har
        obtain ⟨a2, b2, c2, d2⟩ := search_ok _ _ _ _ _ _ _ _ _ hex h a
        refine ⟨a2, b.trans b2, ?_, ?_⟩
        · intro f hf
          obtain ⟨c3, c4⟩ := c2 f hf
          exact ⟨true, s1, by simp, b, fun _ => ⟨har, d'⟩, c3, c4⟩
        · intro hn
          exact ⟨s1, b, b2, d', fun _ => d2 hn⟩
      · rename_i har
        simp only [Option.some.injEq, Prod.mk.injEq] at h
        obtain ⟨rfl, rfl⟩ := h
        exact ⟨a, b, by simp, fun _ => ⟨s1, b, StateLe.refl _, d', fun hh => absurd hh har⟩⟩

/-- **C37.**  The rule chosen for a target - the plain name or, failing that, the member of an archive -
fits it, has a recipe, and each prerequisite that it is given ought to exist, exists, is found in
a search directory, or can be made by implicit rules.  If the rule has prerequisites they are
those given.  Missing for the full statement: a rule without prerequisites (`C37_leftover`). -/
theorem C37_prerequisites_partial (env : SearchEnv) (rules : List PatRule) (ex : List Str) (name : Str)
    (s s' : SearchState) (f : FoundRule) (h : tryImplicit env rules ex name s = some (some f, s')) :
    ∃ archive : Bool, (archive = true → arName name = .yes) ∧
      HowToMake env rules (ex ++ s.known) false (isMember archive (searchName archive name))
        (searchName archive name) f := by
  obtain ⟨ar, s1, _, _, h1, h2, _⟩ := (tryImplicit_ok h).2.2.1 f rfl
  exact ⟨ar, fun ha => (h1 ha).1, h2⟩

/-- **C37.**  The choice: the rule is a candidate (its pattern fits, it has a recipe, and if it is a
non-terminal rule for anything then nothing specific fits).  Either all its prerequisites are good and
every candidate that comes before it (shorter stem, then earlier definition) lacks one; or it is not
terminal, no candidate at all has only good prerequisites, and each non-terminal candidate before it
has a prerequisite that is known to be impossible.  (Stems longer than the system's limit for names
are skipped.)  Missing for the full statement: what is impossible depends on earlier searches
(`C37_history`), and `%` may stand for nothing in a name with a directory (`C37_empty_stem`). -/
theorem C37_choice_partial (env : SearchEnv) (rules : List PatRule) (ex : List Str) (name : Str)
    (s s' : SearchState) (f : FoundRule) (h : tryImplicit env rules ex name s = some (some f, s')) :
    ∃ archive s1, (archive = false → s1 = s) ∧
      (archive = true → arName name = .yes ∧ NoneFits env rules [] false (isMember false name) ex name s s1) ∧
      Chosen env rules [] false (isMember archive (searchName archive name)) ex (searchName archive name) s1 s' f := by
  obtain ⟨ar, s1, h0, _, h1, _, h3⟩ := (tryImplicit_ok h).2.2.1 f rfl
  exact ⟨ar, s1, h0, h1, h3⟩

/-- **C37.**  If no rule is found, every candidate lacks a prerequisite, and every non-terminal one has a
prerequisite that is known to be impossible afterwards. -/
theorem C37_none (env : SearchEnv) (rules : List PatRule) (ex : List Str) (name : Str)
    (s s' : SearchState) (h : tryImplicit env rules ex name s = some (none, s')) :
    NoneFits env rules [] false (isMember false name) ex name s s' := by
  obtain ⟨s1, h1, h2, h3, _⟩ := (tryImplicit_ok h).2.2.2 rfl
  intro i j r dir core hc
  rcases h3 i j r dir core hc with hl | ⟨ha, hb, hd⟩
  · exact Or.inl hl
  · refine Or.inr ⟨ha, hb, ?_⟩
    rcases hd with hd | ⟨d, hd, hi⟩
    · exact Or.inl hd
    · exact Or.inr ⟨d, hd, h2.2.1 _ hi⟩

/-- **C37.**  The intermediate files entered on the way can be made as recorded, not by a non-terminal
rule for anything, and every name that enters the table of files can be had. -/
theorem C37_intermediate (env : SearchEnv) (rules : List PatRule) (ex : List Str) (name : Str)
    (s s' : SearchState) (res : Option FoundRule) (h : tryImplicit env rules ex name s = some (res, s')) :
    (∀ n f, (n, f) ∈ s'.made → (n, f) ∈ s.made ∨ HowToMake env rules (ex ++ s.known) true (isMember false n) n f) ∧
    ∀ n ∈ s'.known, Ready env rules (ex ++ s.known) n := by
  have := (tryImplicit_ok h).1
  exact ⟨fun n f hf => this.2 (n, f) hf, this.1⟩

/-- **C37.**  A non-terminal rule for anything is chosen only if no other pattern fits. -/
theorem C37_anything (env : SearchEnv) (rules : List PatRule) (ex : List Str) (name : Str)
    (s s' : SearchState) (f : FoundRule) (r : PatRule) (h : tryImplicit env rules ex name s = some (some f, s'))
    (hr : rules[f.rule]? = some r) (ht : r.terminal = false) (ha : ∃ t ∈ r.targets, Anything t)
    (hn : arName name ≠ .yes) (i : Nat) (q : PatRule) (t : PatTarget) (dir core : Str)
    (hq : rules[i]? = some q) (hc : q.deps = [] ∨ q.cmds ≠ none) (htq : t ∈ q.targets)
    (hfit : Fits false t name dir core) : Anything t := by
  obtain ⟨ar, s1, _, h1, ⟨r', dir', core', hcand, _⟩⟩ := C37_choice_partial env rules ex name s s' f h
  have har : ar = false := by
    cases ar with
    | false => rfl
    | true => exact absurd (h1 rfl).1 hn
  subst har
  rw [hcand.rule] at hr
  simp only [Option.some.injEq] at hr
  subst hr
  have hm : isMember false (searchName false name) = false := by simp [isMember, searchName, hn]
  rcases hcand.specific with hs | hs | hs
  · rw [ht] at hs; exact absurd hs (by simp)
  · obtain ⟨u, hu, hua⟩ := ha
    exact absurd hua (hs u hu)
  · apply Classical.byContradiction
    intro hna
    apply hs
    rw [hm]
    refine ⟨i, q, t, dir, core, hq, by simp, htq, hna, hc, ?_⟩
    simpa [searchName] using hfit

/-- **C37.**  A terminal rule is chosen only if all its prerequisites are good as they are. -/
theorem C37_terminal (env : SearchEnv) (rules : List PatRule) (ex : List Str) (name : Str)
    (s s' : SearchState) (f : FoundRule) (r : PatRule) (h : tryImplicit env rules ex name s = some (some f, s'))
    (hr : rules[f.rule]? = some r) (ht : r.terminal = true) (hn : arName name ≠ .yes) (hd : r.deps ≠ []) :
    ∀ d ∈ f.deps, Good env ex s d.name := by
  obtain ⟨ar, s1, h0, _, h1, hm, ⟨r', dir', core', hcand, hst, _, hsel⟩⟩ := (tryImplicit_ok h).2.2.1 f rfl
  have har : ar = false := by
    cases ar with
    | false => rfl
    | true => exact absurd (h1 rfl).1 hn
  subst har
  rw [h0 rfl] at hsel
  obtain ⟨r2, t2, dir2, core2, k1, k2, k3, k4, _, k5, k6, k7, k8, k9⟩ := hm
  obtain ⟨t3, k10, k11, _⟩ := hcand.fits
  rw [hcand.rule] at hr k1
  simp only [Option.some.injEq] at hr k1
  subst hr
  subst k1
  rw [k2] at k10
  simp only [Option.some.injEq] at k10
  subst k10
  obtain ⟨rfl, rfl⟩ := fits_unique k4 k11
  rcases hsel with ⟨hg, _⟩ | ⟨hterm, _⟩
  · intro d hdm
    rw [k9 hd] at hdm
    obtain ⟨w, hw, rfl⟩ := List.mem_map.1 hdm
    exact hg w hw
  · rw [ht] at hterm; exact absurd hterm (by simp)

/-- `%.o: %.c`, `%.c: %.y`, the terminal rule `%:: RCS/%,v`, and `%: %.sh`. -/
def chainRules : List PatRule :=
  [{ targets := [⟨[], ".o".toList⟩], deps := [{ name := "%.c".toList }], cmds := some 1 },
   { targets := [⟨[], ".c".toList⟩], deps := [{ name := "%.y".toList }], cmds := some 2 },
   { targets := [⟨[], []⟩], deps := [{ name := "RCS/%,v".toList }], cmds := some 3, terminal := true },
   { targets := [⟨[], []⟩], deps := [{ name := "%.sh".toList }], cmds := some 4 }]

/-- Only these files exist. -/
def filesEnv (files : List Str) : SearchEnv where
  fileExists n := decide (n ∈ files)
  vpath _ := false
  parse n := [n]
  second _ _ _ := []
  pathMax := 4096

/-- A chain: `d/x.o` from `d/x.c` from `d/x.y`. -/
theorem C37_demo_chain :
    tryImplicit (filesEnv ["d/x.y".toList]) chainRules [] "d/x.o".toList { known := [] } =
      some (some { rule := 0, target := 0, stem := "d/x".toList, deps := [⟨"d/x.c".toList, false, false⟩], cmds := some 1, also := [] },
        { known := ["d/x.c".toList, "d/x.y".toList, "d/x.c".toList]
          made := [("d/x.c".toList, { rule := 1, target := 0, stem := "d/x".toList, deps := [⟨"d/x.y".toList, false, false⟩], cmds := some 2, also := [] })] }) := by
  decide +kernel

/-- A terminal rule whose prerequisite exists. -/
theorem C37_demo_terminal :
    (tryImplicit (filesEnv ["d/RCS/x,v".toList]) chainRules [] "d/x".toList { known := [] }).map (fun p => p.1.map (fun f => (f.rule, f.deps))) =
      some (some (2, [⟨"d/RCS/x,v".toList, false, false⟩])) ∧
    (tryImplicit (filesEnv ["x.sh".toList, "x.c.sh".toList]) chainRules [] "x".toList { known := [] }).map (fun p => p.1.map (·.rule)) = some (some 3) ∧
    (tryImplicit (filesEnv ["x.sh".toList, "x.c.sh".toList]) chainRules [] "x.c".toList { known := [] }).map (fun p => p.1.map (·.rule)) = some none := by
  decide +kernel

/-- The shorter stem wins over the earlier definition. -/
theorem C37_demo_stem :
    (tryImplicit (filesEnv ["foo.c".toList, "src/foo.c".toList])
      [{ targets := [⟨[], ".o".toList⟩], deps := [{ name := "%.c".toList }], cmds := some 1 },
       { targets := [⟨"lib/".toList, ".o".toList⟩], deps := [{ name := "src/%.c".toList }], cmds := some 2 }] []
      "lib/foo.o".toList { known := ["lib/foo.c".toList] }).map (fun p => p.1.map (fun f => (f.rule, f.stem))) =
      some (some (1, "foo".toList)) := by
  decide +kernel

/-- **C37 does not hold in full**: a rule without prerequisites gives its target those of a rule that was
tried before it and failed.  Here `x.o` is made by the rule `%.o:`, and gets the prerequisite `x.c` of
`%.o: %.c %.h`, rejected because there is no `x.h`. -/
theorem C37_leftover :
    (tryImplicit (filesEnv ["x.c".toList])
      [{ targets := [⟨[], ".o".toList⟩], deps := [{ name := "%.c".toList }, { name := "%.h".toList }], cmds := some 1 },
       { targets := [⟨[], ".o".toList⟩], deps := [], cmds := some 2 }] []
      "x.o".toList { known := [] }).map (fun p => p.1.map (fun f => (f.rule, f.cmds, f.deps))) =
      some (some (1, some 2, [⟨"x.c".toList, false, false⟩])) := by
  decide +kernel

/-- The rules `%.a: %.b`, `%.b: y.a` and `%.z: y.a`. -/
def historyRules : List PatRule :=
  [{ targets := [⟨[], ".a".toList⟩], deps := [{ name := "%.b".toList }], cmds := some 1 },
   { targets := [⟨[], ".b".toList⟩], deps := [{ name := "y.a".toList }], cmds := some 2 },
   { targets := [⟨[], ".z".toList⟩], deps := [{ name := "y.a".toList }], cmds := some 3 }]

/-- **C37 does not hold in full**: `t.z` can be made from `y.a`, and that from the existing `y.b`; but
after a search for `x.a`, which looked for `y.a` while the rule for it was in use, `y.a` is taken to
be impossible and no rule is found for `t.z`. -/
theorem C37_history :
    (tryImplicit (filesEnv ["y.b".toList]) historyRules [] "t.z".toList { known := [] }).map (fun p => p.1.map (·.rule)) =
      some (some 2) ∧
    ((tryImplicit (filesEnv ["y.b".toList]) historyRules [] "x.a".toList { known := [] }).bind (fun p =>
      tryImplicit (filesEnv ["y.b".toList]) historyRules [] "t.z".toList p.2)).map (fun p => p.1.map (·.rule)) =
      some none := by
  decide +kernel

/-- **C37 does not hold in full**: `%` stands for nothing in `d/lib.o` against `lib%.o`, though `lib.o`
itself does not fit that pattern. -/
theorem C37_empty_stem :
    Fits false ⟨"lib".toList, ".o".toList⟩ "d/lib.o".toList "d/".toList [] ∧
    (∀ dir core, ¬ Fits false ⟨"lib".toList, ".o".toList⟩ "lib.o".toList dir core) ∧
    (tryImplicit (filesEnv ["d/.c".toList])
      [{ targets := [⟨"lib".toList, ".o".toList⟩], deps := [{ name := "%.c".toList }], cmds := some 1 }] []
      "d/lib.o".toList { known := [] }).map (fun p => p.1.map (fun f => (f.rule, f.stem))) =
      some (some (0, "d/".toList)) := by
  refine ⟨.inDir _ "lib.o".toList _ rfl (by decide) (by decide) ⟨by decide, by decide, by decide, by decide⟩ (by decide), ?_, by decide +kernel⟩
  intro dir core h
  cases h with
  | whole _ e hne _ =>
    have hl := congrArg List.length e
    simp at hl
    exact hne hl
  | inDir _ base _ _ _ _ hs _ =>
    have h1 := hs.1
    have hmem : '/' ∈ "lib.o".toList := by
      rw [h1]
      exact List.mem_append_left _ (List.mem_of_getLast? hs.2.1)
    exact absurd hmem (by decide)

/-! ## C74: the other targets of the rule -/

/-- **C74.**  When a rule with several targets is chosen, the other targets that are said to be made
with it are those with the same stem, in the same directory - if there is no directory, or no text
before the `%`, or the pattern has a directory of its own.  Missing for the full statement: the
other cases (`C74_directory`). -/
theorem C74_siblings_partial (env : SearchEnv) (rules : List PatRule) (ex : List Str) (name : Str)
    (s s' : SearchState) (f : FoundRule) (h : tryImplicit env rules ex name s = some (some f, s')) :
    ∃ r dir core, rules[f.rule]? = some r ∧ f.stem = dir ++ core ∧
      (∃ (member : Bool) (t : PatTarget) (n : Str), r.targets[f.target]? = some t ∧ Fits member t n dir core) ∧
      ((dir = [] ∨ ∀ u ∈ r.targets, u.pre = [] ∨ '/' ∈ u.pre ∨ '/' ∈ u.suf) →
        f.also.Perm ((r.targets.eraseIdx f.target).map (siblingName dir core))) := by
  obtain ⟨ar, _, hm⟩ := C37_prerequisites_partial env rules ex name s s' f h
  obtain ⟨r, t, dir, core, k1, k2, k3, k4, _, k5, k6, k7, k8, k9⟩ := hm
  refine ⟨r, dir, core, k1, k5, ⟨_, t, _, k2, k4⟩, ?_⟩
  intro hc
  rw [k7]
  unfold alsoMake
  have hlt : f.target < r.targets.length := (List.getElem?_eq_some_iff.1 k2).1
  split
  · refine (List.reverse_perm _).trans (List.Perm.of_eq ?_)
    apply List.map_congr_left
    intro u hu
    have hu' : u ∈ r.targets := (List.eraseIdx_sublist _ _).subset hu
    unfold siblingName
    split
    · rfl
    · rename_i hns
      rcases hc with hc | hc
      · subst hc; simp
      · rcases hc u hu' with h1 | h1
        · rw [h1]; simp
        · exact absurd h1 hns
  · rename_i hl
    have : r.targets.length = 1 := by omega
    match hr : r.targets, this with
    | [x], _ =>
      have : f.target = 0 := by rw [hr] at hlt; simpa using hlt
      rw [this]; simp

/-- Two targets, `d/x.tab.c` and `d/x.tab.h`. -/
theorem C74_demo :
    (tryImplicit (filesEnv ["d/x.y".toList])
      [{ targets := [⟨[], ".tab.c".toList⟩, ⟨[], ".tab.h".toList⟩], deps := [{ name := "%.y".toList }], cmds := some 1 }] []
      "d/x.tab.h".toList { known := [] }).map (fun p => p.1.map (fun f => (f.target, f.also))) =
      some (some (1, ["d/x.tab.c".toList])) := by
  decide +kernel

/-- **C74 does not hold in full**: for `lib%.a lib%.so: %.c` the target `d/libx.a` comes with
`libd/x.so`, not `d/libx.so`. -/
theorem C74_directory :
    (tryImplicit (filesEnv ["d/x.c".toList])
      [{ targets := [⟨"lib".toList, ".a".toList⟩, ⟨"lib".toList, ".so".toList⟩], deps := [{ name := "%.c".toList }], cmds := some 1 }] []
      "d/libx.a".toList { known := [] }).map (fun p => p.1.map (·.also)) =
      some (some ["libd/x.so".toList]) ∧
    siblingName "d/".toList "x".toList ⟨"lib".toList, ".so".toList⟩ = "d/libx.so".toList := by
  decide +kernel

end Remake
