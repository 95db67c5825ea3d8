import Verif.Files.Lists
import Verif.Files.Groups
import Verif.Files.Static
/-!
# Properties of file names and of the table of targets

C33 (splitting of prerequisites), C34 (merging of rules), C35 (default goal), C57
(normalisation of names), C68 (static pattern rules), C69 (grouped targets).
-/
set_option linter.unusedSimpArgs false
namespace Remake
open Spec

/-! ## C57: names are normalised consistently -/

/-- C57 (partial): the loops that strip leading `./` in a makefile, on the command line and in
a lookup give the same name, which is the name without its leading `./` sequences.  Missing: names
that are the result of tilde expansion or of putting in a stem are entered as they
are; see `C57_tilde` and `C57_stem`. -/
theorem C57_same_partial (tilde : Str → Option Str) {s : Str} (hs : s ≠ [])
    (ht : s.head? ≠ some '~') :
    seqName s = lookupName s ∧ commandName tilde s = some (lookupName s) ∧
      ∀ n, Stripped s n ↔ n = lookupName s := by
  refine ⟨seqName_eq_lookup s, ?_, fun n => ⟨stripped_unique, ?_⟩⟩
  · unfold commandName
    simp only [hs, if_false, ht, commandStrip_eq]
  · rintro rfl; exact lookupName_stripped s

example : seqName ".//.///foo/./bar".toList = "foo/./bar".toList ∧
    seqName "././/".toList = "./".toList ∧ seqName "./".toList = "./".toList ∧
    seqName "..//a".toList = "..//a".toList := by
  refine ⟨?_, ?_, ?_, ?_⟩ <;> simp [seqName, stripSeq, dropSlashes]

/-- C57: normalising twice is normalising once, whichever function is used. -/
theorem C57_idempotent (s : Str) :
    lookupName (lookupName s) = lookupName s ∧ seqName (seqName s) = seqName s ∧
      commandName (fun _ => none) (lookupName s) = some (lookupName s) := by
  have h : lookupName s ≠ [] := by rw [← seqName_eq_lookup]; exact seqName_ne_nil s
  refine ⟨lookupName_idem s, ?_, ?_⟩
  · simp only [seqName_eq_lookup, lookupName_idem]
  · unfold commandName
    simp only [h, if_false, ite_self, commandStrip_eq, lookupName_idem]

/-- C57: a file entered under a name of a makefile is found by every spelling of that name. -/
theorem C57_found (db : FileDb) (s t : Str) (h : ∀ n, Stripped s n ↔ Stripped t n) :
    lookupFile (enterFile db (seqName s)) t = some (seqName s) := by
  have e : lookupName t = seqName s := by
    rw [seqName_eq_lookup]
    exact (stripped_unique ((h _).1 (lookupName_stripped s))).symm
  unfold lookupFile
  rw [e, if_pos]
  unfold enterFile
  cases hd : db (seqName s) with
  | none => simp [FileDb.set]
  | some sl =>
    cases hb : sl.double
    · simp [hb, hd]
    · simp [hb, FileDb.set]

example : ∀ n, Stripped "a".toList n ↔ Stripped ".//./a".toList n := by
  intro n
  have h1 : lookupName "a".toList = "a".toList := by simp [lookupName, stripLookup]
  have h2 : lookupName ".//./a".toList = "a".toList := by simp [lookupName, stripLookup, dropSlashes]
  constructor
  · intro h
    rw [stripped_unique h, h1, ← h2]; exact lookupName_stripped _
  · intro h
    rw [stripped_unique h, h2]
    have := lookupName_stripped "a".toList
    rwa [h1] at this

/-- C57 fails for tilde expansion: when the home directory is a name with a leading `./`, a
makefile's `~/x` denotes `./h/x`, which the command line and lookups take for `h/x`. -/
theorem C57_tilde :
    let env : FsEnv := ⟨fun _ => some "./h/x".toList, fun _ => .nomatch, fun _ _ => []⟩
    elementNames env {} none (seqName "~/x".toList) = some ["./h/x".toList] ∧
    commandName env.tilde "~/x".toList = some "h/x".toList ∧
    lookupFile (enterFile (fun _ => none) "./h/x".toList) "./h/x".toList = none := by
  refine ⟨?_, ?_, ?_⟩
  · simp [seqName, stripSeq, elementNames, arName]
  · simp [commandName, stripCommand, dropSlashes]
  · simp [lookupFile, lookupName, stripLookup, dropSlashes, enterFile, FileDb.set]

/-- C57 fails for stems: the static pattern rule `a./x: a%: %` enters a file `./x` that no lookup
finds. -/
theorem C57_stem :
    let r : FRule := { targets := ["a./x".toList], deps := [⟨"%".toList, false⟩], cmds := some 0,
                       pattern := some (.found "a".toList '%' []) }
    ∃ db w, recordFiles r (fun _ => none) = .ok (db, w) ∧ (db "./x".toList).isSome ∧
      lookupFile db "./x".toList = none := by
  have h1 : plainName "a./x".toList = "a./x".toList := by decide
  have h2 : isPatternName "a./x".toList = false := by decide
  have h3 : targetStem (some (.found "a".toList '%' [])) "a./x".toList = some "./x".toList :=
    targetStem_eq (stem := "./x".toList) (by decide) (by decide) (by decide)
  have h4 : stemName "./x".toList "%".toList = some "./x".toList := by
    rw [stemName_eq (by decide) (by decide)]
    decide
  have h6 : stemPrereqs "./x".toList [⟨"%".toList, false⟩] = [⟨"./x".toList, false⟩] := by
    unfold stemPrereqs
    rw [List.filterMap_cons, h4]; rfl
  have h5 : patternMatches (.found "a".toList '%' []) "a./x".toList = true := by decide
  simp only [recordFiles, recordTargets, List.map_cons, List.map_nil, h1, h2, recordTarget_eq,
    enteredDeps, h3, targetMatches, h5, if_true, h6, List.head?_cons, Option.map_some,
    Option.getD_some, Option.isSome_some]
  simp [enterPrereqs, lookupFile, lookupName, stripLookup, dropSlashes, enterFile, FileDb.set]

/-! ## C33: prerequisites and order-only prerequisites -/

/-- The characters that end a name before the bar. -/
def endsName (c : Char) : Bool := c == '|' || isBlank c

/-- C33 (partial): names before the first unquoted `|` are normal prerequisites, those after it are
order-only, both in the order written.  Missing: wildcards, home directories and archive
members (`PlainWord`); for those see `C33_sorted`. -/
theorem C33_split_partial (env : FsEnv) {ns os : List Str} {t1 t2 : Str}
    (h1 : Listing endsName false ns t1) (h2 : Listing isBlank true os t2)
    (hn : ∀ w ∈ ns, PlainWord w) (ho : ∀ w ∈ os, PlainWord w) :
    ∃ f : Str → Str, (∀ w, Stripped w (f w)) ∧
      splitPrereqs env (t1 ++ '|' :: t2) =
        some (ns.map (fun w => ⟨f w, false⟩) ++ os.map fun w => ⟨f w, true⟩) := by
  refine ⟨lookupName, lookupName_stripped, ?_⟩
  have e1 : parseFileSeq env {} none (· == '|') (t1 ++ '|' :: t2) =
      some (ns.map lookupName, '|' :: t2) := by
    have := parse_listing (env := env) (pfx := none) (stop := (· == '|')) (by decide) h1
      (rest := '|' :: t2) (.inl ⟨rfl, '|', t2, rfl, by decide, by decide⟩)
      (fun w hw => (hn w hw).1) [] (by intro c hc; cases hc)
    rw [List.nil_append] at this
    rw [parseFileSeq, this, collect_plain hn]; rfl
  have h2' : Listing (findMap {} fun _ => false) true os t2 := h2
  have e2 : parseFileSeq env {} none (fun _ => false) t2 = some (os.map lookupName, []) := by
    have := parse_listing (env := env) (pfx := none) (stop := fun _ => false) rfl h2'
      (rest := []) (.inr ⟨rfl, rfl⟩)
      (fun w hw => (ho w hw).1) [] (by intro c hc; cases hc)
    rw [List.nil_append, List.append_nil] at this
    rw [parseFileSeq, this, collect_plain ho]; rfl
  unfold splitPrereqs
  rw [e1]
  simp only [e2, List.map_map]
  rfl

/-- C33 (partial): without an unquoted `|` all prerequisites are normal. -/
theorem C33_normal_partial (env : FsEnv) {ns : List Str} {t : Str}
    (h : Listing endsName true ns t) (hn : ∀ w ∈ ns, PlainWord w) :
    ∃ f : Str → Str, (∀ w, Stripped w (f w)) ∧
      splitPrereqs env t = some (ns.map fun w => ⟨f w, false⟩) := by
  refine ⟨lookupName, lookupName_stripped, ?_⟩
  have e1 : parseFileSeq env {} none (· == '|') t = some (ns.map lookupName, []) := by
    have := parse_listing (env := env) (pfx := none) (stop := (· == '|')) (by decide) h
      (rest := []) (.inr ⟨rfl, rfl⟩) (fun w hw => (hn w hw).1) [] (by intro c hc; cases hc)
    rw [List.nil_append, List.append_nil] at this
    rw [parseFileSeq, this, collect_plain hn]; rfl
  unfold splitPrereqs
  rw [e1]
  simp only [List.map_map]
  rfl

/-- C33: every text is a list of names, or two lists separated by the first unquoted bar: the
previous two theorems miss no text. -/
theorem C33_every (s : Str) :
    (∃ ns, Listing endsName true ns s) ∨
    ∃ t1 t2 ns os, s = t1 ++ '|' :: t2 ∧ Listing endsName false ns t1 ∧
      Listing isBlank true os t2 := by
  obtain ⟨e, ws, t, rest, rfl, hl, hs⟩ := listing_exists (stop := (· == '|'))
    (fun c hc => by simp at hc; subst hc; decide) s
  rcases hs with ⟨rfl, c, r, rfl, hc, -⟩ | ⟨rfl, rfl⟩
  · right
    simp at hc; subst hc
    obtain ⟨e2, ws2, t2, rest2, rfl, hl2, hs2⟩ := listing_exists (stop := fun _ => false)
      (fun c hc => by cases hc) r
    rcases hs2 with ⟨-, c, r, -, hc, -⟩ | ⟨rfl, rfl⟩
    · cases hc
    · exact ⟨t, t2, ws, ws2, by simp, hl, hl2⟩
  · left
    rw [List.append_nil]
    exact ⟨ws, hl⟩

/-- C33: whatever the text (and whatever wildcards stand for), all normal prerequisites come
before all order-only ones. -/
theorem C33_sorted (env : FsEnv) (s : Str) (ds : List PreReq) (h : splitPrereqs env s = some ds) :
    ∃ a b, ds = a ++ b ∧ (∀ d ∈ a, d.orderOnly = false) ∧ (∀ d ∈ b, d.orderOnly = true) := by
  unfold splitPrereqs at h
  split at h
  · cases h
  · cases h
    exact ⟨_, [], (List.append_nil _).symm, by simp, by simp⟩
  · split at h
    · cases h
    · cases h
      exact ⟨_, _, rfl, by simp, by simp⟩

/-- Non-vacuity: `a ./b\|c | d|e` has the normal prerequisites `a` and `b|c`, and the order-only
prerequisite `d|e`. -/
example : Listing endsName false ["a".toList, "./b|c".toList] "a ./b\\|c ".toList ∧
    Listing isBlank true ["d|e".toList] " d|e".toList := by
  constructor
  · refine .cons (sp := []) (t := ['a']) (rest := "./b\\|c ".toList) (b := ' ')
      (by intro c hc; cases hc) ⟨'a', [], rfl, by decide⟩
      (.char (k := 0) (by decide) (by decide) .nil) (by decide) ?_
    refine .cons (sp := []) (t := "./b\\|c".toList) (rest := []) (b := ' ')
      (by intro c hc; cases hc) ⟨'.', "/b\\|c".toList, rfl, by decide⟩ ?_ (by decide)
      (.nil (by intro c hc; cases hc))
    exact .char (k := 0) (by decide) (by decide) (.char (k := 0) (by decide) (by decide)
      (.char (k := 0) (by decide) (by decide) (.quoted (k := 0) (by decide)
        (.char (k := 0) (by decide) (by decide) .nil))))
  · refine .last (sp := [' ']) (t := "d|e".toList) (by intro c hc; simp at hc; subst hc; decide)
      ⟨'d', "|e".toList, rfl, by decide⟩ ?_
    exact .char (k := 0) (by decide) (by decide) (.char (k := 0) (by decide) (by decide)
      (.char (k := 0) (by decide) (by decide) .nil))

/-! ## C34: several rules for one target -/

/-- The mentions of a target, as the specification sees them: what each rule says about it.
Prerequisites are compared by normalised name. -/
def mentionsOf (n : Str) (rs : List FRule) : List (Mention PreReq) := (ments n rs).map Ment.mention

/-- The only record of a single-colon target. -/
def recordOf (db : FileDb) (n : Str) (f : FEntry) : Prop := slotAt db n = ⟨[f], false⟩

theorem view_recordOf {db : FileDb} {n : Str} {f : FEntry} (h : recordOf db n f) :
    view db n = (false, [f.core]) := by
  unfold view
  rw [h]
  rfl

theorem recordOf_view {db : FileDb} {n : Str} {c : FCore} (h : view db n = (false, [c])) :
    ∃ f, recordOf db n f ∧ f.core = c := by
  unfold view at h
  cases hs : slotAt db n with
  | mk es d =>
    rw [hs] at h
    simp only [Prod.mk.injEq] at h
    obtain ⟨rfl, h⟩ := h
    match es, h with
    | [f], h => exact ⟨f, hs, by simpa using h⟩

/-- The mentions of a target are all single-colon if one of them is and nothing is fatal. -/
theorem C34_uniform {n : Str} (hn : lookupName n = n) {rs : List FRule} {db db' : FileDb}
    {w : List FWarn} (h : recordAll db rs = .ok (db', w)) :
    ∀ r ∈ rs, ∀ r' ∈ rs, r.explicit → r'.explicit → n ∈ r.targets.map plainName →
      n ∈ r'.targets.map plainName → r.double = r'.double := by
  have hu := run_uniform (recordAll_ok hn rs h).1
  have key : ∀ r ∈ rs, r.explicit → n ∈ r.targets.map plainName → mentOf r n ∈ ments n rs := by
    intro r hr he ht
    unfold ments
    rw [List.mem_flatMap]
    refine ⟨r, hr, ?_⟩
    rw [if_pos he, List.mem_replicate]
    exact ⟨by have := List.count_pos_iff.2 ht; omega, rfl⟩
  intro r hr r' hr' he he' ht ht'
  exact hu _ (key r hr he ht) _ (key r' hr' he' ht')

/-- C34: mixing single-colon and double-colon rules for one target is fatal. -/
theorem C34_mixed {n : Str} (hn : lookupName n = n) {rs : List FRule} {r r' : FRule} (db : FileDb)
    (hr : r ∈ rs) (hr' : r' ∈ rs) (he : r.explicit) (he' : r'.explicit)
    (ht : n ∈ r.targets.map plainName) (ht' : n ∈ r'.targets.map plainName)
    (hd : r.double = true) (hd' : r'.double = false) : recordAll db rs = .fatal := by
  cases h : recordAll db rs with
  | fatal => rfl
  | ok x =>
    obtain ⟨db', w⟩ := x
    have := C34_uniform hn h r hr r' hr' he he' ht ht'
    rw [hd, hd'] at this
    cases this

/-- C34: the outcome of any number of single-colon rules for a target.  The prerequisites are those
of the rules with a recipe, the last one first, then what there was, then those of the rules
without a recipe in reading order; the recipe is the last one given. -/
theorem C34_merge {n : Str} (hn : lookupName n = n) (h1 : n ≠ dotSuffixes) (h2 : n ≠ dotDefault)
    {rs : List FRule} {db db' : FileDb} {w : List FWarn} {f : FEntry} (hf : recordOf db n f)
    (hs : ∀ r ∈ rs, r.explicit → n ∈ r.targets.map plainName → r.double = false)
    (h : recordAll db rs = .ok (db', w)) :
    ∃ f', recordOf db' n f' ∧
      f'.deps.map normReq =
        withRecipe (mentionsOf n rs) ++ f.deps.map normReq ++ withoutRecipe (mentionsOf n rs) ∧
      f'.cmds = (recipes (mentionsOf n rs)).getLast?.or f.cmds ∧
      f'.isTarget = (f.isTarget || !(mentionsOf n rs).isEmpty) := by
  have hrun := (recordAll_ok hn rs h).1
  rw [view_recordOf hf, single_run h1 h2] at hrun
  · obtain ⟨f', e1, e2⟩ := recordOf_view (Option.some.inj hrun).symm
    refine ⟨f', e1, ?_, ?_, ?_⟩
    · exact congrArg FCore.deps e2
    · exact congrArg FCore.cmds e2
    · exact congrArg FCore.isTarget e2
  · intro m hm
    unfold ments at hm
    rw [List.mem_flatMap] at hm
    obtain ⟨r, hr, hm⟩ := hm
    split at hm
    · rename_i he
      rw [List.mem_replicate] at hm
      rw [hm.2]
      exact hs r hr he (List.count_pos_iff.1 (by omega))
    · cases hm

/-- C34 (partial): when one rule for the target has a recipe, its prerequisites come first and
those of the other rules follow in reading order; the recipe is that rule's.  Missing: with several
recipes the others are not in reading order, see `C34_order`. -/
theorem C34_one_recipe_partial {n : Str} (hn : lookupName n = n) (h1 : n ≠ dotSuffixes)
    (h2 : n ≠ dotDefault) {rs : List FRule} {db db' : FileDb} {w : List FWarn} (hf : db n = none)
    (hs : ∀ r ∈ rs, r.explicit → n ∈ r.targets.map plainName → r.double = false)
    (h : recordAll db rs = .ok (db', w)) {a b : List (Mention PreReq)} {m : Mention PreReq}
    {c : Nat} (hm : mentionsOf n rs = a ++ m :: b) (hc : m.recipe = some c)
    (ha : ∀ x ∈ a ++ b, x.recipe = none) :
    ∃ f', recordOf db' n f' ∧
      f'.deps.map normReq = m.deps ++ (a ++ b).flatMap (·.deps) ∧ f'.cmds = some c := by
  have hf' : recordOf db n {} := by simp [recordOf, slotAt, hf]
  obtain ⟨f', e1, e2, e3, -⟩ := C34_merge hn h1 h2 hf' hs h
  have ga : ∀ l : List (Mention PreReq), (∀ x ∈ l, x.recipe = none) →
      l.filter (·.recipe.isSome) = [] ∧ l.filter (·.recipe.isNone) = l ∧
      l.filterMap (·.recipe) = [] := by
    intro l hl
    refine ⟨?_, ?_, ?_⟩
    · rw [List.filter_eq_nil_iff]; intro x hx; simp [hl x hx]
    · rw [List.filter_eq_self]; intro x hx; simp [hl x hx]
    · rw [List.filterMap_eq_nil_iff]; exact hl
  obtain ⟨a1, a2, a3⟩ := ga a fun x hx => ha x (by simp [hx])
  obtain ⟨b1, b2, b3⟩ := ga b fun x hx => ha x (by simp [hx])
  refine ⟨f', e1, ?_, ?_⟩
  · rw [e2, hm]
    simp [withRecipe, withoutRecipe, List.filter_append, List.filter_cons, a1, a2, b1, b2, hc]
  · rw [e3, hm]
    simp [recipes, List.filterMap_append, a3, b3, hc]

/-- The full statement of C34 fails with several recipes: after `t: a`, `t: b` with a recipe and
`t: c` with another one the prerequisites are `c b a`, so that the rules that lost their recipe are
not in reading order. -/
theorem C34_order :
    let rule (d : String) (c : Option Nat) : FRule :=
      { targets := ["t".toList], deps := [⟨d.toList, false⟩], cmds := c }
    (match recordAll (fun _ => none) [rule "a" none, rule "b" (some 1), rule "c" (some 2)] with
      | .ok (db, w) =>
        ((slotAt db "t".toList).entries.map fun f => (f.deps.map (·.name), f.cmds), w)
      | .fatal => ([], [])) =
    ([(["c".toList, "b".toList, "a".toList], some 2)], [.override "t".toList 2 1]) := by
  dsimp only; decide +kernel

/-- C34: there is one warning for each recipe that replaces a different one, naming both. -/
theorem C34_warns {n : Str} (hn : lookupName n = n) (h2 : n ≠ dotDefault)
    {rs : List FRule} {db db' : FileDb} {w : List FWarn} (hf : db n = none)
    (hs : ∀ r ∈ rs, r.explicit → n ∈ r.targets.map plainName → r.double = false)
    (h : recordAll db rs = .ok (db', w)) :
    overridesOf n w = changes (recipes (mentionsOf n rs)) := by
  have hrun := (recordAll_ok hn rs h).2
  have hf' : recordOf db n {} := by simp [recordOf, slotAt, hf]
  rw [hrun, view_recordOf hf', single_warns h2]
  · rfl
  · intro m hm
    unfold ments at hm
    rw [List.mem_flatMap] at hm
    obtain ⟨r, hr, hm⟩ := hm
    split at hm
    · rename_i he
      rw [List.mem_replicate] at hm
      rw [hm.2]
      exact hs r hr he (List.count_pos_iff.1 (by omega))
    · cases hm
  · simp [FEntry.core]

/-- C34: each double-colon rule keeps its own prerequisites and its own recipe, in reading order. -/
theorem C34_double {n : Str} (hn : lookupName n = n) {rs : List FRule} {db db' : FileDb}
    {w : List FWarn} (hf : db n = none) (hne : mentionsOf n rs ≠ [])
    (hs : ∀ r ∈ rs, r.explicit → n ∈ r.targets.map plainName → r.double = true)
    (h : recordAll db rs = .ok (db', w)) :
    ∃ es, db' n = some ⟨es, true⟩ ∧
      es.map (fun f => (⟨f.deps.map normReq, f.cmds⟩ : Mention PreReq)) = mentionsOf n rs := by
  have hrun := (recordAll_ok hn rs h).1
  have hf' : recordOf db n {} := by simp [recordOf, slotAt, hf]
  rw [view_recordOf hf', double_run_first (by simpa [mentionsOf] using hne) ?_ rfl rfl] at hrun
  · have hv := (Option.some.inj hrun).symm
    unfold view at hv
    simp only [Prod.mk.injEq] at hv
    obtain ⟨v1, v2⟩ := hv
    have hsome : db' n = some (slotAt db' n) := by
      cases hd : db' n with
      | none => simp [slotAt, hd] at v1
      | some s => simp [slotAt, hd]
    refine ⟨(slotAt db' n).entries, ?_, ?_⟩
    · rw [hsome]
      cases hsl : slotAt db' n with
      | mk es d => rw [hsl] at v1; simp at v1; rw [v1]
    · have := congrArg (List.map fun c : FCore => (⟨c.deps, c.cmds⟩ : Mention PreReq)) v2
      rw [List.map_map, List.map_map] at this
      exact this
  · intro m hm
    unfold ments at hm
    rw [List.mem_flatMap] at hm
    obtain ⟨r, hr, hm⟩ := hm
    split at hm
    · rename_i he
      rw [List.mem_replicate] at hm
      rw [hm.2]
      exact hs r hr he (List.count_pos_iff.1 (by omega))
    · cases hm

/-- C34: `.SUFFIXES` without prerequisites forgets the suffixes given before; those given after it
are kept, in order. -/
theorem C34_suffixes {rs rs' : List FRule} {r : FRule} {db db' : FileDb} {w : List FWarn}
    {f : FEntry} (hf : recordOf db dotSuffixes f) (hr : r.targets = [dotSuffixes])
    (hrd : r.deps = []) (hrc : r.cmds = none) (hrp : r.pattern = none)
    (hs : ∀ x ∈ rs ++ r :: rs', x.explicit → dotSuffixes ∈ x.targets.map plainName →
      x.double = false)
    (hne : ∀ x ∈ mentionsOf dotSuffixes rs', x.deps ≠ [])
    (h : recordAll db (rs ++ r :: rs') = .ok (db', w)) :
    ∃ f', recordOf db' dotSuffixes f' ∧
      f'.deps.map normReq =
        withRecipe (mentionsOf dotSuffixes rs') ++ withoutRecipe (mentionsOf dotSuffixes rs') := by
  have hn : lookupName dotSuffixes = dotSuffixes := by
    rw [show dotSuffixes = ['.', 'S', 'U', 'F', 'F', 'I', 'X', 'E', 'S'] from by decide]
    unfold lookupName
    rw [stripLookup.eq_def]
    decide
  have hrun := (recordAll_ok hn _ h).1
  have happ : ments dotSuffixes (rs ++ r :: rs') =
      ments dotSuffixes rs ++ (mentOf r dotSuffixes :: ments dotSuffixes rs') := by
    have he : r.explicit = true := by
      unfold FRule.explicit
      rw [hr]
      decide
    have hc : (r.targets.map plainName).count dotSuffixes = 1 := by
      rw [hr]
      decide
    unfold ments
    rw [List.flatMap_append, List.flatMap_cons, if_pos he, hc]
    rfl
  have hall : ∀ m ∈ ments dotSuffixes (rs ++ r :: rs'), m.double = false := by
    intro m hm
    unfold ments at hm
    rw [List.mem_flatMap] at hm
    obtain ⟨r, hr, hm⟩ := hm
    split at hm
    · rename_i he
      rw [List.mem_replicate] at hm
      rw [hm.2]
      exact hs r hr he (List.count_pos_iff.1 (by omega))
    · cases hm
  rw [happ] at hall hrun
  rw [view_recordOf hf, viewRun_append] at hrun
  -- before the clearing rule
  have hform : ∀ (ms : List Ment) (c : FCore), (∀ m ∈ ms, m.double = false) →
      ∃ c', viewRun dotSuffixes (false, [c]) ms = some (false, [c']) := by
    intro ms
    induction ms with
    | nil => intro c _; exact ⟨c, rfl⟩
    | cons m ms ih =>
      intro c hm
      simp only [viewRun, viewStep, hm m (by simp), Bool.false_eq_true, if_false, Option.bind_some]
      exact ih _ fun x hx => hm x (by simp [hx])
  obtain ⟨c1, hc1⟩ := hform (ments dotSuffixes rs) f.core fun m hm => hall m (by simp [hm])
  rw [hc1] at hrun
  have hmd : (mentOf r dotSuffixes).deps = [] := by
    simp [mentOf, contribution, hrp, targetMatches, targetStem, hrd]
  have hmc : (mentOf r dotSuffixes).cmds = none := hrc
  simp only [Option.bind_some, viewRun, viewStep, hall (mentOf r dotSuffixes) (by simp),
    Bool.false_eq_true, if_false, List.getLast?_singleton, Option.getD_some] at hrun
  obtain ⟨c2, hc2, hd2⟩ := suffixes_run (ments dotSuffixes rs')
    (coreSingle dotSuffixes (mentOf r dotSuffixes) c1) (fun m hm => hall m (by simp [hm]))
    (fun m hm => hne m.mention (by simp only [mentionsOf, List.mem_map]; exact ⟨m, hm, rfl⟩))
  rw [hc2] at hrun
  obtain ⟨f', e1, e2⟩ := recordOf_view (Option.some.inj hrun).symm
  refine ⟨f', e1, ?_⟩
  have : f'.deps.map normReq = c2.deps := congrArg FCore.deps e2
  rw [this, hd2]
  simp [coreSingle, hmd, hmc, mergeReqs, mentionsOf]

/-- Non-vacuity of the theorems about single-colon rules: `t u: a | o`, `t: b` with a recipe, and
`./t: c`. -/
example :
    let rs : List FRule := [
      { targets := ["t".toList, "u".toList], deps := [⟨"a".toList, false⟩, ⟨"o".toList, true⟩],
        cmds := none },
      { targets := ["t".toList], deps := [⟨"b".toList, false⟩], cmds := some 1 },
      { targets := ["t".toList], deps := [⟨"c".toList, false⟩], cmds := none }]
    (match recordAll (fun _ => none) rs with | .ok _ => true | .fatal => false) = true ∧
    lookupName "t".toList = "t".toList ∧ "t".toList ≠ dotSuffixes ∧ "t".toList ≠ dotDefault ∧
    (∀ r ∈ rs, r.double = false) ∧
    (mentionsOf "t".toList rs).map (·.recipe) = [none, some 1, none] ∧
    (mentionsOf "t".toList rs).map (·.deps) =
      [[⟨"a".toList, false⟩, ⟨"o".toList, true⟩], [⟨"b".toList, false⟩], [⟨"c".toList, false⟩]] := by
  dsimp only
  refine ⟨?_, ?_, ?_, ?_, ?_, ?_, ?_⟩ <;> decide +kernel

/-- Non-vacuity for double-colon rules. -/
example :
    let rs : List FRule := [
      { targets := ["t".toList], deps := [⟨"a".toList, false⟩], cmds := some 0, double := true },
      { targets := ["t".toList], deps := [⟨"b".toList, false⟩], cmds := some 1, double := true }]
    (match recordAll (fun _ => none) rs with | .ok _ => true | .fatal => false) = true ∧
    (∀ r ∈ rs, r.double = true) ∧ (mentionsOf "t".toList rs).length = 2 := by
  dsimp only
  refine ⟨?_, ?_, ?_⟩ <;> decide +kernel

/-- Non-vacuity for mixed rules: `t: a` and `s t:: b`. -/
example :
    let r : FRule := { targets := ["t".toList], deps := [⟨"a".toList, false⟩], cmds := none }
    let r' : FRule := { targets := ["s".toList, "t".toList], deps := [], cmds := some 0,
                        double := true }
    r.explicit = true ∧ r'.explicit = true ∧ "t".toList ∈ r'.targets.map plainName ∧
    (match recordAll (fun _ => none) [r, r'] with | .ok _ => false | .fatal => true) = true := by
  dsimp only
  refine ⟨?_, ?_, ?_, ?_⟩ <;> decide +kernel

/-- Non-vacuity for `.SUFFIXES`. -/
example :
    let r : FRule := { targets := [dotSuffixes], deps := [], cmds := none }
    let s : FRule := { targets := [dotSuffixes], deps := [⟨".c".toList, false⟩], cmds := none }
    (match recordAll (fun _ => none) ([s] ++ r :: [s, s]) with
      | .ok (db, _) => (slotAt db dotSuffixes).entries.map (·.deps.map (·.name))
      | .fatal => []) = [[".c".toList, ".c".toList]] := by
  dsimp only; decide +kernel

/-! ## C35: the default goal -/

/-- A target that may be the default goal. -/
def Candidate (suffixes : List Str) (n : Str) : Prop :=
  '%' ∉ n ∧ ¬ DotName n ∧ ¬ SuffixName suffixes n

/-- Suffixes that start with a dot have no slash. -/
def PlainSuffixes (suffixes : List Str) : Prop :=
  ∀ d ∈ suffixes, d.head? = some '.' → '/' ∉ d

theorem suffixReject_iff (suffixes : List Str) (n : Str) : suffixReject suffixes n = true ↔
    (n ∈ suffixes ∧ n.head? ≠ some '.') ∨ ∃ a ∈ suffixes, ∃ b ∈ suffixes, n = a ++ b := by
  unfold suffixReject
  simp only [List.any_eq_true, Bool.or_eq_true, Bool.and_eq_true, decide_eq_true_eq, beq_iff_eq,
    List.isPrefixOf_iff_prefix]
  constructor
  · rintro ⟨d, hd, ⟨h1, rfl⟩ | ⟨d2, hd2, ⟨t, rfl⟩, h⟩⟩
    · exact .inl ⟨hd, h1⟩
    · refine .inr ⟨d2, hd2, d, hd, ?_⟩
      rw [List.drop_left] at h; rw [h]
  · rintro (⟨h1, h2⟩ | ⟨a, ha, b, hb, rfl⟩)
    · exact ⟨n, h1, .inl ⟨h2, rfl⟩⟩
    · exact ⟨b, hb, .inr ⟨a, ha, ⟨b, rfl⟩, List.drop_left⟩⟩

theorem candidate_iff {suffixes : List Str} (hs : PlainSuffixes suffixes) {n : Str} (hp : '%' ∉ n) :
    Candidate suffixes n ↔
      ¬ (n.head? = some '.' ∧ '/' ∉ n) ∧ suffixReject suffixes n = false := by
  rw [← Bool.not_eq_true, suffixReject_iff]
  unfold Candidate DotName SuffixName
  constructor
  · rintro ⟨-, h1, h2⟩
    exact ⟨h1, fun h => h2 (h.imp And.left id)⟩
  · rintro ⟨h1, h2⟩
    refine ⟨hp, h1, fun h => ?_⟩
    rcases h with h | h
    · by_cases hd : n.head? = some '.'
      · exact h1 ⟨hd, hs n h hd⟩
      · exact h2 (.inl ⟨h, hd⟩)
    · exact h2 (.inr h)

/-- The targets of a rule: all are patterns or none contains a percent sign. -/
def PlainTargets (ts : List Str) : Prop := (∀ t ∈ ts, '%' ∈ t) ∨ ∀ t ∈ ts, '%' ∉ t

theorem defaultFrom_spec {suffixes : List Str} (hs : PlainSuffixes suffixes) {ts : List Str}
    (ht : PlainTargets ts) :
    match defaultFrom suffixes ts with
    | none => ∀ t ∈ ts, ¬ Candidate suffixes t
    | some n => ∃ a b, ts = a ++ n :: b ∧ Candidate suffixes n ∧ ∀ t ∈ a, ¬ Candidate suffixes t := by
  rcases ht with ht | ht
  · cases ts with
    | nil => simp [defaultFrom]
    | cons t ts =>
      have h := ht t (by simp)
      simp only [defaultFrom, h, if_true]
      intro x hx hc
      exact hc.1 (ht x hx)
  · induction ts with
    | nil => simp [defaultFrom]
    | cons t ts ih =>
      have ih := ih fun x hx => ht x (by simp [hx])
      have hp := ht t (by simp)
      have hc := candidate_iff hs hp
      have skip : ¬ Candidate suffixes t →
          (match defaultFrom suffixes ts with
            | none => ∀ x ∈ t :: ts, ¬ Candidate suffixes x
            | some n => ∃ a b, t :: ts = a ++ n :: b ∧ Candidate suffixes n ∧
                ∀ t ∈ a, ¬ Candidate suffixes t) := by
        intro hn
        cases hd : defaultFrom suffixes ts with
        | none =>
          rw [hd] at ih
          simp only at ih ⊢
          intro x hx
          rcases List.mem_cons.1 hx with rfl | hx
          · exact hn
          · exact ih x hx
        | some n =>
          rw [hd] at ih
          obtain ⟨a, b, e1, e2, e3⟩ := ih
          refine ⟨t :: a, b, by rw [e1]; rfl, e2, ?_⟩
          intro x hx
          rcases List.mem_cons.1 hx with rfl | hx
          · exact hn
          · exact e3 x hx
      simp only [defaultFrom, hp, if_false]
      by_cases h1 : t.head? = some '.' ∧ '/' ∉ t
      · rw [if_pos h1]
        exact skip fun h => (hc.1 h).1 h1
      · rw [if_neg h1]
        by_cases h2 : suffixReject suffixes t = true
        · rw [if_pos h2]
          exact skip fun h => by rw [(hc.1 h).2] at h2; cases h2
        · rw [if_neg h2]
          exact ⟨[], ts, rfl, hc.2 ⟨h1, by simpa using h2⟩, by simp⟩

theorem goalStep_keep {g : Str} (hg : g ≠ []) : ∀ (es : List GoalEvent),
    (∀ v, GoalEvent.assign v ∉ es) → es.foldl goalStep g = g := by
  intro es
  induction es with
  | nil => intro _; rfl
  | cons e es ih =>
    intro h
    have h1 : goalStep g e = g := by
      cases e with
      | rule sd sfx ts => cases g <;> simp_all [goalStep]
      | assign v => exact absurd (List.mem_cons_self) (h v)
    rw [List.foldl_cons, h1]
    exact ih fun v hv => h v (List.mem_cons_of_mem _ hv)

/-- C35 (partial): as long as `.DEFAULT_GOAL` is not assigned, its value is the first target, in
reading order, that is no pattern, no special dot-target and no target of a suffix rule (for the
suffixes known then); it is empty only if there is no such target.  Missing: target names with a quoted
percent sign (`C35_percent`) and suffixes such as `.a/b` (`C35_slash`). -/
theorem C35_first_partial (es : List GoalEvent) (ha : ∀ v, GoalEvent.assign v ∉ es)
    (hs : ∀ sd sfx ts, GoalEvent.rule sd sfx ts ∈ es → PlainSuffixes sfx)
    (ht : ∀ sd sfx ts, GoalEvent.rule sd sfx ts ∈ es → PlainTargets ts ∧ [] ∉ ts) :
    (goalAfter es = [] → ∀ sfx ts, GoalEvent.rule true sfx ts ∈ es → ∀ t ∈ ts, ¬ Candidate sfx t) ∧
    (goalAfter es ≠ [] → ∃ before sfx a b after,
      es = before ++ .rule true sfx (a ++ goalAfter es :: b) :: after ∧
      Candidate sfx (goalAfter es) ∧ (∀ t ∈ a, ¬ Candidate sfx t) ∧
      ∀ sfx' ts, GoalEvent.rule true sfx' ts ∈ before → ∀ t ∈ ts, ¬ Candidate sfx' t) := by
  induction es with
  | nil => exact ⟨by simp, fun h => absurd rfl h⟩
  | cons e es ih =>
    cases e with
    | assign v => exact absurd (List.mem_cons_self) (ha v)
    | rule sd sfx ts =>
      have hs1 := hs sd sfx ts (by simp)
      have ht1 := ht sd sfx ts (by simp)
      have ih := ih (fun v hv => ha v (List.mem_cons_of_mem _ hv))
        (fun sd sfx ts h => hs sd sfx ts (List.mem_cons_of_mem _ h))
        (fun sd sfx ts h => ht sd sfx ts (List.mem_cons_of_mem _ h))
      have hd := defaultFrom_spec hs1 ht1.1
      -- a rule that gives no default goal
      have skip : goalStep [] (.rule sd sfx ts) = [] →
          (sd = true → ∀ t ∈ ts, ¬ Candidate sfx t) →
          (goalAfter (.rule sd sfx ts :: es) = [] → ∀ sfx' ts',
            GoalEvent.rule true sfx' ts' ∈ GoalEvent.rule sd sfx ts :: es →
              ∀ t ∈ ts', ¬ Candidate sfx' t) ∧
          (goalAfter (.rule sd sfx ts :: es) ≠ [] → ∃ before sfx' a b after,
            GoalEvent.rule sd sfx ts :: es =
              before ++ .rule true sfx' (a ++ goalAfter (.rule sd sfx ts :: es) :: b) :: after ∧
            Candidate sfx' (goalAfter (.rule sd sfx ts :: es)) ∧ (∀ t ∈ a, ¬ Candidate sfx' t) ∧
            ∀ sfx'' ts', GoalEvent.rule true sfx'' ts' ∈ before →
              ∀ t ∈ ts', ¬ Candidate sfx'' t) := by
        intro h1 h2
        have h3 : goalAfter (.rule sd sfx ts :: es) = goalAfter es := by
          unfold goalAfter; rw [List.foldl_cons, h1]
        rw [h3]
        refine (⟨?_, ?_⟩ : _ ∧ _)
        · intro hg sfx' ts' hm t htt
          rcases List.mem_cons.1 hm with hm | hm
          · cases hm; exact h2 rfl t htt
          · exact ih.1 hg sfx' ts' hm t htt
        · intro hg
          obtain ⟨before, sfx', a, b, after, e1, e2, e3, e4⟩ := ih.2 hg
          refine ⟨.rule sd sfx ts :: before, sfx', a, b, after, congrArg (_ :: ·) e1, e2, e3, ?_⟩
          intro sfx'' ts'' hm t htt
          rcases List.mem_cons.1 hm with hm | hm
          · cases hm; exact h2 rfl t htt
          · exact e4 sfx'' ts'' hm t htt
      cases sd with
      | false => exact skip (by simp [goalStep]) (by simp)
      | true =>
        cases hdf : defaultFrom sfx ts with
        | none =>
          rw [hdf] at hd
          exact skip (by simp [goalStep, hdf]) fun _ => hd
        | some n =>
          rw [hdf] at hd
          obtain ⟨a, b, e1, e2, e3⟩ := hd
          have hn : n ≠ [] := by rintro rfl; exact ht1.2 (by rw [e1]; simp)
          have hg : goalAfter (.rule true sfx ts :: es) = n := by
            unfold goalAfter
            rw [List.foldl_cons]
            have : goalStep [] (.rule true sfx ts) = n := by simp [goalStep, hdf]
            rw [this]
            exact goalStep_keep hn es fun v hv => ha v (List.mem_cons_of_mem _ hv)
          rw [hg]
          exact ⟨fun h => absurd h hn,
            fun _ => ⟨[], sfx, a, b, es, by rw [e1]; rfl, e2, e3, by simp⟩⟩

/-- Non-vacuity: with suffixes `.c` and `.o`, the rules `.PHONY:`, `%.o: %.c`, `.c.o:` and
`./.x all:` (that is `.x`, `all`). -/
example : goalAfter [.rule true [".c".toList, ".o".toList] [".PHONY".toList],
    .rule true [".c".toList, ".o".toList] ["%.o".toList],
    .rule true [".c".toList, ".o".toList] [".c.o".toList],
    .rule true [".c".toList, ".o".toList] [".x".toList, "all".toList],
    .rule true [".c".toList, ".o".toList] ["b".toList]] = "all".toList := by decide

/-- C35: once `.DEFAULT_GOAL` has been assigned a value that is not empty, rules do not change it. -/
theorem C35_assigned (before after : List GoalEvent) {v : Str} (hv : v ≠ [])
    (ha : ∀ u, GoalEvent.assign u ∉ after) :
    goalAfter (before ++ .assign v :: after) = v := by
  unfold goalAfter
  rw [List.foldl_append, List.foldl_cons]
  exact goalStep_keep hv after ha

/-- C35: emptying `.DEFAULT_GOAL` makes the search start anew at the next rule. -/
theorem C35_reset (before after : List GoalEvent) :
    goalAfter (before ++ .assign [] :: after) = goalAfter after := by
  unfold goalAfter
  rw [List.foldl_append, List.foldl_cons]
  rfl

/-- C35 fails for quoted percent signs: `a\%b c: ` is an explicit rule for `a%b` and `c`, but
neither becomes the default goal; it is taken from the next rule. -/
theorem C35_percent :
    isPatternName "a\\%b".toList = false ∧ plainName "a\\%b".toList = "a%b".toList ∧
    goalAfter [.rule true [] ["a\\%b".toList, "c".toList], .rule true [] ["d".toList]] =
      "d".toList := by
  refine ⟨?_, ?_, ?_⟩ <;> decide +kernel

/-- C35 fails for suffixes with a dot and a slash: `.a/b` becomes the default goal although it is a
suffix. -/
theorem C35_slash :
    SuffixName [".a/b".toList] ".a/b".toList ∧
    goalAfter [.rule true [".a/b".toList] [".a/b".toList]] = ".a/b".toList :=
  ⟨.inl (by simp), by decide⟩

theorem recordFiles_isSome {r : FRule} {db db' : FileDb} {w : List FWarn} {n : Str}
    (h : recordFiles r db = .ok (db', w))
    (hn : (r.explicit ∧ n ∈ r.targets.map plainName) ∨ (db n).isSome) : (db' n).isSome := by
  unfold recordFiles at h
  split at h
  · cases h
  · split at h
    · rename_i h2
      split at h
      · cases h
      · cases h
        rcases hn with hn | hn
        · simp [FRule.explicit, h2] at hn
        · exact hn
    · simp only at h
      have hv : (db n).isSome →
          ((if r.pattern.isSome then (db, r.deps) else enterPrereqs db r.deps).1 n).isSome := by
        intro hd
        split
        · exact hd
        · exact enterPrereqs_isSome _ hd
      generalize (if r.pattern.isSome then (db, r.deps) else enterPrereqs db r.deps) = e at h hv
      cases hr : recordTargets r e.2 e.1 (r.targets.map plainName) with
      | fatal => rw [hr] at h; cases h
      | ok x =>
        obtain ⟨db1, w1, hds⟩ := x
        rw [hr] at h
        simp only at h
        have h1 : (db1 n).isSome := recordTargets_isSome _ hr (hn.imp And.right hv)
        split at h
        · cases h
          have key : ∀ (l : List (Str × Nat)) (d : FileDb), (d n).isSome →
              ((recordGroup (r.targets.map plainName).reverse d l).1 n).isSome := by
            intro l
            induction l with
            | nil => intro d h; exact h
            | cons x l ih =>
              intro d h
              obtain ⟨m, i⟩ := x
              exact ih _ (modify_isSome h)
          exact key _ _ h1
        · cases h; exact h1

theorem recordAll_isSome {n : Str} : ∀ (rs : List FRule) {db db' : FileDb} {w : List FWarn},
    recordAll db rs = .ok (db', w) →
    (∃ r ∈ rs, r.explicit ∧ n ∈ r.targets.map plainName) ∨ (db n).isSome → (db' n).isSome := by
  intro rs
  induction rs with
  | nil => intro db db' w h hn; cases h; simpa using hn
  | cons r rs ih =>
    intro db db' w h hn
    unfold recordAll at h
    cases h1 : recordFiles r db with
    | fatal => rw [h1] at h; cases h
    | ok x =>
      obtain ⟨db1, w1⟩ := x
      rw [h1] at h
      simp only at h
      cases h2 : recordAll db1 rs with
      | fatal => rw [h2] at h; cases h
      | ok y =>
        obtain ⟨db2, w2⟩ := y
        rw [h2] at h
        cases h
        refine ih h2 ?_
        rcases hn with ⟨q, hq, hq2⟩ | hn
        · rcases List.mem_cons.1 hq with rfl | hq
          · exact .inr (recordFiles_isSome h1 (.inl hq2))
          · exact .inl ⟨q, hq, hq2⟩
        · exact .inr (recordFiles_isSome h1 (.inr hn))

/-- C35: when the value of `.DEFAULT_GOAL` is a target of a rule, that target is what is made, and
no new file is entered. -/
theorem C35_used (env : FsEnv) {rs : List FRule} {db db' : FileDb} {w : List FWarn} {r : FRule}
    {n : Str} (h : recordAll db rs = .ok (db', w)) (hr : r ∈ rs) (he : r.explicit)
    (ht : n ∈ r.targets.map plainName) {v : Str} (hv : v ≠ []) (hn : Stripped v n) :
    defaultGoal env db' v = .ok (n, db') := by
  have h1 : (db' n).isSome := recordAll_isSome rs h (.inl ⟨r, hr, he, ht⟩)
  have h2 := stripped_unique hn
  unfold defaultGoal lookupFile
  rw [← h2, if_neg hv]
  simp [h1]

/-- Non-vacuity: `all: x` is read, and the goal is `./all`. -/
example :
    let r : FRule := { targets := ["all".toList], deps := [⟨"x".toList, false⟩], cmds := none }
    r.explicit = true ∧ "all".toList ∈ r.targets.map plainName ∧
    (match recordAll (fun _ => none) [r] with | .ok _ => true | .fatal => false) = true ∧
    Stripped "./all".toList "all".toList := by
  dsimp only
  refine ⟨by decide +kernel, by decide +kernel, by decide +kernel, ?_⟩
  have h := lookupName_stripped "./all".toList
  have e : lookupName "./all".toList = "all".toList := by decide +kernel
  rwa [e] at h

/-! ## C68: static pattern rules -/

theorem contribution_fill {r : FRule} {pre post stem n : Str} {c : Char} {rd : Str → Pct}
    (hp : r.pattern = some (.found pre c post)) (hn : n = pre ++ stem ++ post)
    (h0 : n ≠ []) (hb : ∀ c ∈ n, isSpace c = false)
    (hrd : ∀ d ∈ r.deps, ReadsAs '%' d.name (rd d.name))
    (hq : ∀ d ∈ r.deps, d.name ≠ [] ∧ ∀ t, rd d.name = .lit t → t = d.name) :
    contribution r n = r.deps.filterMap fun d =>
      if fillStem stem (rd d.name) = [] then none
      else some { d with name := fillStem stem (rd d.name) } := by
  have hm : patternMatches (.found pre c post) n = true := by
    rw [patternMatches_found]; exact patMatch_iff.2 ⟨stem, hn⟩
  have hst := targetStem_eq (c := c) hn h0 hb
  have hbs : ∀ c ∈ stem, isSpace c = false := by
    intro x hx; exact hb x (by rw [hn]; simp [hx])
  unfold contribution
  rw [hp]
  simp only [targetMatches, hm, if_true, hst]
  unfold stemPrereqs
  apply filterMap_congr_mem
  intro d hd
  have h1 : (findPercent d.name).toPct = rd d.name := (ReadsAs_iff (by decide)).1 (hrd d hd)
  have h2 : stemPct stem d.name (findPercent d.name).toPct = fillStem stem (rd d.name) := by
    rw [h1]
    cases hr : rd d.name with
    | lit t => exact ((hq d hd).2 t hr).symm
    | pat a b => rfl
  rw [stemName_eq hbs (hq d hd).1, h2]
  split <;> rfl

/-- C68 (partial): a target that matches the pattern of a static pattern rule gets the rule's
prerequisites, in order and of the same kind, with the stem put in for the percent sign of each one
that has one (those that become empty are left out).  Missing: names with white space, see
`C68_blank`; quoted percent signs in prerequisites without another one, see `C68_quoted`. -/
theorem C68_matching_partial {r : FRule} {db db' : FileDb} {w : List FWarn} {f : FEntry}
    {n pre post stem : Str} {c : Char} {rd : Str → Pct}
    (h : recordFiles r db = .ok (db', w)) (he : r.explicit) (hdb : r.double = false)
    (hn : lookupName n = n) (h1 : n ≠ dotSuffixes) (h2 : n ≠ dotDefault)
    (hc : (r.targets.map plainName).count n = 1) (hf : recordOf db n f)
    (hp : r.pattern = some (.found pre c post)) (hm : n = pre ++ stem ++ post)
    (hb : ∀ c ∈ n, isSpace c = false)
    (hrd : ∀ d ∈ r.deps, ReadsAs '%' d.name (rd d.name))
    (hq : ∀ d ∈ r.deps, d.name ≠ [] ∧ ∀ t, rd d.name = .lit t → t = d.name) :
    let reqs := (r.deps.filterMap fun d =>
      if fillStem stem (rd d.name) = [] then none
      else some { d with name := fillStem stem (rd d.name) }).map normReq
    FWarn.noMatch n ∉ w ∧ ∃ f', recordOf db' n f' ∧ f'.deps.map normReq =
      if r.cmds.isSome then reqs ++ f.deps.map normReq else f.deps.map normReq ++ reqs := by
  have h0 : n ≠ [] := by
    rintro rfl
    have : lookupName [] = ['.', '/'] := by simp [lookupName, stripLookup]
    rw [hn] at this; cases this
  have hcon := contribution_fill hp hm h0 hb hrd hq
  have hmt : targetMatches r.pattern n = true := by
    rw [hp]; simp only [targetMatches]
    rw [patternMatches_found]; exact patMatch_iff.2 ⟨stem, hm⟩
  intro reqs
  refine ⟨fun hw => ?_, ?_⟩
  · have := (recordFiles_noMatch he h).1 hw
    rw [hmt] at this; cases this.2
  · have hall : recordAll db [r] = .ok (db', w) := by simp [recordAll, h]
    obtain ⟨f', e1, e2, -⟩ := C34_merge hn h1 h2 hf (by simp [hdb]) hall
    refine ⟨f', e1, ?_⟩
    have hms : mentionsOf n [r] = [⟨reqs, r.cmds⟩] := by
      simp only [mentionsOf, ments, List.flatMap_cons, List.flatMap_nil, he, if_true, hc,
        List.replicate_one, List.append_nil, List.map_cons, List.map_nil, mentOf, Ment.mention, hcon]
      rfl
    rw [e2, hms]
    cases hcm : r.cmds <;> simp [withRecipe, withoutRecipe]

/-- C68: a target that does not match the pattern is reported; it gets no prerequisites of the
rule, but it gets its recipe. -/
theorem C68_other {r : FRule} {db db' : FileDb} {w : List FWarn} {f : FEntry}
    {n pre post : Str} {c : Char}
    (h : recordFiles r db = .ok (db', w)) (he : r.explicit) (hdb : r.double = false)
    (hn : lookupName n = n) (h1 : n ≠ dotSuffixes) (h2 : n ≠ dotDefault)
    (hc : n ∈ r.targets.map plainName) (hf : recordOf db n f)
    (hp : r.pattern = some (.found pre c post)) (hm : ∀ stem, n ≠ pre ++ stem ++ post) :
    FWarn.noMatch n ∈ w ∧ ∃ f', recordOf db' n f' ∧ f'.deps.map normReq = f.deps.map normReq ∧
      f'.cmds = r.cmds.or f.cmds := by
  have hmt : targetMatches r.pattern n = false := by
    rw [hp]; simp only [targetMatches]
    rw [patternMatches_found, ← Bool.not_eq_true, patMatch_iff]
    rintro ⟨stem, h⟩; exact hm stem h
  have hcon : contribution r n = [] := by
    unfold contribution; rw [hmt]; rfl
  refine ⟨(recordFiles_noMatch he h).2 ⟨hc, hmt⟩, ?_⟩
  have hall : recordAll db [r] = .ok (db', w) := by simp [recordAll, h]
  obtain ⟨f', e1, e2, e3, -⟩ := C34_merge hn h1 h2 hf (by simp [hdb]) hall
  have hms : mentionsOf n [r] =
      List.replicate ((r.targets.map plainName).count n) ⟨[], r.cmds⟩ := by
    simp only [mentionsOf, ments, List.flatMap_cons, List.flatMap_nil, he, if_true,
      List.append_nil, List.map_replicate, mentOf, Ment.mention, hcon, List.map_nil]
  have hpos := List.count_pos_iff.2 hc
  refine ⟨f', e1, ?_, ?_⟩
  · rw [e2, hms]
    have key : ∀ k (x : Mention PreReq), x.deps = [] →
        withRecipe (List.replicate k x) = [] ∧ withoutRecipe (List.replicate k x) = [] := by
      intro k x hx
      constructor
      · unfold withRecipe
        rw [List.flatMap_eq_nil_iff]
        intro y hy
        have := List.mem_filter.1 (List.mem_reverse.1 hy)
        rw [(List.mem_replicate.1 this.1).2, hx]
      · unfold withoutRecipe
        rw [List.flatMap_eq_nil_iff]
        intro y hy
        have := List.mem_filter.1 hy
        rw [(List.mem_replicate.1 this.1).2, hx]
    have := key ((r.targets.map plainName).count n) ⟨[], r.cmds⟩ rfl
    rw [this.1, this.2]; simp
  · rw [e3, hms]
    congr 1
    obtain ⟨k, hk⟩ : ∃ k, (r.targets.map plainName).count n = k + 1 :=
      ⟨_, (Nat.succ_pred_eq_of_pos hpos).symm⟩
    rw [hk]
    cases hcm : r.cmds with
    | none =>
      have : recipes (List.replicate (k + 1) (⟨[], none⟩ : Mention PreReq)) = [] := by
        unfold recipes
        rw [List.filterMap_eq_nil_iff]
        intro x hx; rw [(List.mem_replicate.1 hx).2]
      rw [this]; rfl
    | some q =>
      have : recipes (List.replicate (k + 1) (⟨[], some q⟩ : Mention PreReq)) =
          List.replicate (k + 1) q := by
        exact List.filterMap_replicate_of_some (f := fun x : Mention PreReq => x.recipe) rfl
      rw [this, List.replicate_succ']
      simp

/-- Non-vacuity: `a.o b.x: %.o: %.c h | d/%` with a recipe. -/
example :
    let r : FRule := { targets := ["a.o".toList, "b.x".toList],
                       deps := [⟨"%.c".toList, false⟩, ⟨"h".toList, false⟩, ⟨"d/%".toList, true⟩],
                       cmds := some 0, pattern := some (.found [] '%' ".o".toList) }
    r.explicit = true ∧
    (match recordFiles r (fun _ => none) with
      | .ok (db, w) => ((slotAt db "a.o".toList).entries.map (·.deps), w)
      | .fatal => ([], [])) =
    ([[⟨"a.c".toList, false⟩, ⟨"h".toList, false⟩, ⟨"d/a".toList, true⟩]],
      [.noMatch "b.x".toList]) := by
  dsimp only
  constructor <;> decide +kernel

/-- C68 fails for names with blanks: in `xa\ xb: x%: %.c` the stem should be `a xb`, and the
prerequisite `a xb.c`; it is `a.c b.c` because every word is changed by itself. -/
theorem C68_blank :
    let r : FRule := { targets := ["xa xb".toList], deps := [⟨"%.c".toList, false⟩],
                       cmds := some 0, pattern := some (.found "x".toList '%' []) }
    (match recordFiles r (fun _ => none) with
      | .ok (db, _) =>
        (slotAt db "xa xb".toList).entries.map fun f => (f.deps.map (·.name), f.stem)
      | .fatal => []) = [(["a.c b.c".toList], some "a b".toList)] := by
  dsimp only; decide +kernel

/-- C68 fails for quoted percent signs: the prerequisite `p\%q` of a static pattern rule keeps its
backslash, while `p\%q%` loses it. -/
theorem C68_quoted :
    let r : FRule := { targets := ["a.o".toList],
                       deps := [⟨"p\\%q".toList, false⟩, ⟨"p\\%q%".toList, false⟩],
                       cmds := some 0, pattern := some (.found [] '%' ".o".toList) }
    (match recordFiles r (fun _ => none) with
      | .ok (db, _) => (slotAt db "a.o".toList).entries.map fun f => f.deps.map (·.name)
      | .fatal => []) = [["p\\%q".toList, "p%qa".toList]] := by
  dsimp only; decide +kernel

/-! ## C69: groups of targets -/

/-- C69 (partial: single-colon targets): after any rules, the targets made together with `n` are those of the last grouped rule
(`&:`) that names `n`; without such a rule there are none. -/
theorem C69_group_partial {n : Str} (hn : lookupName n = n) {rs : List FRule} {db : FileDb}
    {w : List FWarn}
    (hs : ∀ r ∈ rs, r.explicit → n ∈ r.targets.map plainName → r.double = false)
    (h : recordAll (fun _ => none) rs = .ok (db, w)) :
    ∃ f, recordOf db n f ∧
      ((∀ r ∈ rs, r.grouped → r.explicit → n ∉ r.targets.map plainName) → f.also = []) ∧
      (∀ a r b, rs = a ++ r :: b → r.grouped → r.explicit → n ∈ r.targets.map plainName →
        (∀ r' ∈ b, r'.grouped → r'.explicit → n ∉ r'.targets.map plainName) →
        ∀ m, m ∈ f.also ↔ m ∈ r.targets.map plainName) := by
  have h0 : Solo (fun _ => none) n {} := rfl
  obtain ⟨f, e1, e2⟩ := recordAll_also hn rs hs h0 h
  refine ⟨f, e1, ?_, ?_⟩
  · intro hno
    have : rs.filter (·.groups n) = [] := by
      rw [List.filter_eq_nil_iff]
      intro r hr hg
      simp only [FRule.groups, Bool.and_eq_true, decide_eq_true_eq] at hg
      exact hno r hr hg.1.1 hg.1.2 hg.2
    rw [e2, this]; rfl
  · intro a r b hrs hg he ht hb m
    have h1 : r.groups n = true := by simp only [FRule.groups, hg, he, ht, decide_true, Bool.and_self]
    have h2 : b.filter (·.groups n) = [] := by
      rw [List.filter_eq_nil_iff]
      intro r hr hg
      simp only [FRule.groups, Bool.and_eq_true, decide_eq_true_eq] at hg
      exact hb r hr hg.1.1 hg.1.2 hg.2
    have h3 : (rs.filter (·.groups n)).getLast? = some r := by
      rw [hrs, List.filter_append, List.filter_cons, if_pos h1, h2]
      simp
    rw [e2, h3]
    simp

/-- C69: a grouped rule without a recipe is fatal. -/
theorem C69_recipe (db : FileDb) {r : FRule} {rs : List FRule} (hr : r ∈ rs) (hg : r.grouped)
    (hc : r.cmds = none) : recordAll db rs = .fatal := by
  induction rs generalizing db with
  | nil => cases hr
  | cons q rs ih =>
    unfold recordAll
    rcases List.mem_cons.1 hr with rfl | hr
    · have : recordFiles r db = .fatal := by unfold recordFiles; rw [if_pos ⟨hc, hg⟩]
      rw [this]
    · cases recordFiles q db with
      | fatal => rfl
      | ok x => obtain ⟨d, w⟩ := x; simp only; rw [ih d hr]

/-- Non-vacuity: `a b &: x` and `b c &: y`; and a later rule `b: z` with a recipe of its own leaves `b` in
its group. -/
example :
    let rs : List FRule := [
      { targets := ["a".toList, "b".toList], deps := [], cmds := some 0, grouped := true },
      { targets := ["b".toList, "c".toList], deps := [], cmds := some 1, grouped := true },
      { targets := ["b".toList], deps := [], cmds := some 2 }]
    (match recordAll (fun _ => none) rs with
      | .ok (db, _) => ["a", "b", "c"].map fun n =>
          (slotAt db n.toList).entries.map fun f => (f.also, f.cmds)
      | .fatal => []) =
    [[(["b".toList, "a".toList], some 0)], [(["c".toList, "b".toList], some 2)],
      [(["c".toList, "b".toList], some 1)]] := by
  dsimp only; decide +kernel

end Remake
