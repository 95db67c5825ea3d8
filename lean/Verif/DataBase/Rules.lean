import Verif.DataBase.Props
/-!
# C145: the pattern rules in the printed data base
-/
set_option linter.unusedVariables false
set_option linter.unusedSimpArgs false
namespace Remake
open Spec

variable {σ : Type} {E : RdEnv σ}

/-- The rule line of a pattern rule. -/
def dbRuleHead (r : DbRule) : Str :=
  [' '].intercalate r.targets ++ ':' :: ((if r.terminal then [':'] else []) ++ printPrereqs r.deps)

/-- A file with the same recipe, prerequisites and colons. -/
def ruleFile (r : DbRule) (n : Str) : DbFile :=
  { name := n, double := r.terminal, isTarget := true, deps := r.deps, notes := [], cmds := r.cmds }

theorem intercalate_row (n : Str) (ns : List Str) : [' '].intercalate (n :: ns) = n ++ ns.flatMap fun w => ' ' :: w := by
  induction ns generalizing n with
  | nil => simp [List.intercalate, List.intersperse]
  | cons m ns ih =>
    have := ih m
    simp only [List.intercalate, List.intersperse, List.flatten_cons, List.flatMap_cons] at this ⊢
    rw [this]; simp

theorem ruleFile_ok {p : Char} {r : DbRule} (h : DbRuleOk p r) {n : Str} (hn : n ∈ r.targets) : DbFileOk p (ruleFile r n) :=
  ⟨(h.names n hn).1, h.deps, by simp [ruleFile, dbNotes], h.cmds⟩

theorem row_chars {ns : List Str} (h : ∀ n ∈ ns, DbName n) {c : Char} (hc : c ∈ ns.flatMap fun w => ' ' :: w) :
    c = ' ' ∨ ∃ n ∈ ns, c ∈ n := by
  simp only [List.mem_flatMap, List.mem_cons] at hc
  obtain ⟨n, hn, rfl | hc⟩ := hc
  · exact .inl rfl
  · exact .inr ⟨n, hn, hc⟩

theorem rhead_not {p : Char} {r : DbRule} (h : DbRuleOk p r) {c : Char}
    (hc : c ∈ ['\n', '=', '$', '\\', '&', ';', '#', '(', '~', '?', '*', '[']) : c ∉ dbRuleHead r := by
  intro hm
  obtain ⟨n, ns, ht⟩ := List.exists_cons_of_ne_nil h.some
  have hn : n ∈ r.targets := by simp [ht]
  unfold dbRuleHead at hm
  rw [ht, intercalate_row, List.append_assoc] at hm
  have h1 := head_not (ruleFile_ok h hn) hc
  have hne : c ≠ ' ' ∧ (isSpace c = true ∨ c ∈ ['=', ':', '$', '\\', '&', ';', '#', '(', '~', '?', '*', '[', '|']) := by
    revert c
    intro c hc _ _
    simp only [List.mem_cons, List.not_mem_nil, or_false] at hc
    rcases hc with rfl | rfl | rfl | rfl | rfl | rfl | rfl | rfl | rfl | rfl | rfl | rfl <;> decide
  rcases List.mem_append.1 hm with hm | hm
  · exact h1 (by unfold dbHead; exact List.mem_append_left _ hm)
  · rcases List.mem_append.1 hm with hm | hm
    · rcases row_chars (fun m hm => (h.names m (by simp [ht, hm])).1) hm with e | ⟨m, hm', hc'⟩
      · exact hne.1 e
      · exact dbName_chars (h.names m (by simp [ht, hm'])).1 hne.2 hc'
    · exact h1 (by unfold dbHead; exact List.mem_append_right _ hm)

theorem expandAll_plain (hx : LiteralText E.expand) (s : σ) : ∀ ns : List Str, (∀ n ∈ ns, DbName n) → expandAll E.expand s ns = (s, ns) := by
  intro ns
  induction ns with
  | nil => intro _; rfl
  | cons n ns ih =>
    intro h
    simp only [expandAll, hx s n (dbName_chars (h n (by simp)) (by decide)), ih fun m hm => h m (by simp [hm])]

theorem map_same {g : Str → Str} {ns : List Str} (h : ∀ n ∈ ns, g n = n) : ns.map g = ns := by
  conv => rhs; rw [← List.map_id ns]
  exact List.map_congr_left fun n hn => by simp [h n hn]

/-- The rule line of a pattern rule is read as its rule. -/
theorem db_pattern (hx : LiteralText E.expand) (hg : ∀ l, (E.garbage l).head? ≠ some '=') {r : DbRule} {p : Char} {s : σ}
    (h : DbRuleOk p r) :
    ∃ w, ruleLine E s (cutLine E (dbRuleHead r)).1 (cutLine E (dbRuleHead r)).2.1 (cutLine E (dbRuleHead r)).2.2 = (s, .rule w none) ∧
      PatternOf E.fs (E.cmdPrefix s) r w (dbText (ruleFile r [])) := by
  obtain ⟨n, ns, ht⟩ := List.exists_cons_of_ne_nil h.some
  have hnn : ∀ m ∈ n :: ns, DbName m := fun m hm => (h.names m (ht ▸ hm)).1
  have hf := ruleFile_ok h (n := n) (by simp [ht])
  have hcut := cutLine_head E (l := dbRuleHead r) (fun c hc => rhead_not h (by
    simp only [List.mem_cons, List.not_mem_nil, or_false] at hc ⊢
    rcases hc with rfl | rfl | rfl | rfl <;> simp))
  have hds : ∀ d ∈ r.deps, DbName d.name := fun d hd => (h.deps d hd).1
  rw [hcut]
  have hpiece : ∀ m ∈ n :: ns, Piece m ∧ m ≠ [] ∧ m.head? ≠ some ';' := by
    intro m hm
    have hd := hnn m hm
    refine ⟨piece_plain fun c hc hm' => ?_, hd.1, fun hh => ?_⟩
    · refine dbName_chars hd (c := c) ?_ hc
      simp only [List.mem_cons, List.not_mem_nil, or_false] at hm'
      rcases hm' with rfl | rfl | rfl | rfl | rfl | rfl | rfl <;> decide
    · exact dbName_chars hd (c := ';') (by decide) (List.mem_of_mem_head? (Option.mem_def.2 hh))
  have hrow : WordRow (⟨[], n⟩ :: ns.map fun m => ⟨[' '], m⟩) := by
    refine ⟨fun q hq => ?_, fun q hq => ?_⟩
    · simp only [List.mem_cons, List.mem_map] at hq
      rcases hq with rfl | ⟨m, hm, rfl⟩
      · exact ⟨by simp, hpiece n (by simp)⟩
      · exact ⟨fun c hc => by simp at hc; subst hc; decide, hpiece m (by simp [hm])⟩
    · simp only [List.tail_cons, List.mem_map] at hq
      obtain ⟨m, hm, rfl⟩ := hq
      simp
  have hwords : (⟨[], n⟩ :: ns.map fun m => (⟨[' '], m⟩ : Lead)).map (·.word) = n :: ns := by
    simp [List.map_map, Function.comp_def]
  have hna : parseVarAssignment (printPrereqs r.deps) = none := by
    by_cases hd : r.deps = []
    · rw [hd]; decide
    · obtain ⟨w, tl, e, hb, hw, ha, ht, -, -⟩ := prereqs_shape h.deps hd
      refine noAssign_words (prereqs_not hds (by decide)) ?_
      have e2 : nextToken (printPrereqs r.deps) = w ++ tl := by
        rw [e]
        have : nextToken (' ' :: (w ++ tl)) = nextToken (w ++ tl) := by
          have : isSpace ' ' = true := by decide
          simp [nextToken, this]
        rw [this, nextToken_begins hb]
      rw [e2, tokenPrefix_word hw ht]
      exact ha
  have hun : unquoteEquals (printPrereqs r.deps) = printPrereqs r.deps := by
    have : EqualsUndone (printPrereqs r.deps) (printPrereqs r.deps) :=
      ⟨.lit _, .none (prereqs_not hds (by decide)), rfl⟩
    exact ((unquoteEquals_iff _ _).1 this).symm
  obtain ⟨g, d, hgs, hd, er⟩ := C88_rule_partial hx hrow (sep := []) (by simp)
    (k := if r.terminal then .dcolon else .colon) (rest := printPrereqs r.deps) (stale := E.garbage (dbRuleHead r))
    (db_ends hf (hg _)) (semi := none) (s := s) (s1 := s) (s2 := s) (ts := n :: ns)
    (by rw [hwords]; exact expandAll_plain hx s _ hnn)
    (fun t ht => ⟨dbName_chars (hnn t ht) (by decide), fun _ => dbName_chars (hnn t ht) (by decide)⟩)
    (listing_ended isBlank_ok true (n :: ns) hnn) (fun w hw => dbName_plain (hnn w hw)) (by simp)
    (no_assign hna) (u := printPrereqs r.deps) (D := printPrereqs r.deps) ((unquoteEquals_iff _ _).2 hun.symm)
    (hx s _ (prereqs_not hds (by decide))) (prereqs_not hds (by decide)) (fun _ => prereqs_not hds (by decide))
  have eh : leadText (⟨[], n⟩ :: ns.map fun m => ⟨[' '], m⟩) ++
      ([] ++ ((if r.terminal then RuleSign.dcolon else RuleSign.colon).text ++ printPrereqs r.deps)) = dbRuleHead r := by
    unfold dbRuleHead
    rw [ht, intercalate_row]
    cases r.terminal <;> simp [leadText, RuleSign.text, List.flatMap_map]
  rw [eh] at er
  refine ⟨_, er, ?_⟩
  constructor
  · simp only [ht]
    exact map_same fun m hm => by rw [stripped_unique (hgs m), dbName_lookup (hnn m hm)]
  · cases r.terminal <;> rfl
  · rfl
  · cases r.terminal <;> rfl
  · rfl
  · intro hd0
    have : d = [] := isTrim_unique hd (by
      rw [hd0]
      exact ⟨[], [], rfl, by simp, by simp, by simp, by simp, fun _ => rfl⟩)
    simp [this]
  · intro hd0
    obtain ⟨w, tl, e, hb, hw, ha, ht, hl, hp⟩ := prereqs_shape h.deps hd0
    have hdw : d = w ++ tl := isTrim_unique hd (by
      rw [e]
      obtain ⟨c, cs, rfl, hc⟩ := hb
      refine ⟨[' '], [], by simp, by intro c hc; simp at hc; subst hc; decide, by simp, ?_, hl, by simp⟩
      intro x hx; cases hx; exact hc)
    have hne : w ++ tl ≠ [] := by
      obtain ⟨c, cs, rfl, hc⟩ := hb
      simp
    refine ⟨w ++ tl, by simp [hdw, hne], ?_⟩
    rw [prereqText_split E.fs hp, List.map_map]
    congr 1
    have : ∀ x ∈ normalFirst r.deps, x ∈ r.deps := by
      intro x hx
      simp only [normalFirst, List.mem_append, List.mem_filter] at hx
      rcases hx with hx | hx <;> exact hx.1
    conv => rhs; rw [← List.map_id (normalFirst r.deps)]
    refine List.map_congr_left fun x hx => ?_
    simp [dbName_lookup (hds x (this x hx))]
  · rfl

theorem rhead_word {p : Char} {r : DbRule} (h : DbRuleOk p r) :
    '%' ∈ tokenPrefix (dbRuleHead r) ∧ nextToken (dbRuleHead r) = dbRuleHead r ∧ (dbRuleHead r).head? ≠ some p := by
  obtain ⟨n, ns, ht⟩ := List.exists_cons_of_ne_nil h.some
  obtain ⟨h1, h2, h3⟩ := h.names n (by simp [ht])
  unfold dbRuleHead
  rw [ht, intercalate_row, List.append_assoc]
  refine ⟨?_, nextToken_begins (dbName_begins h1), ?_⟩
  · unfold tokenPrefix
    rw [List.takeWhile_append_of_pos (fun c hc => by simp [(h1.2.1 c hc).1])]
    exact List.mem_append_left _ h3
  · cases n with
    | nil => exact absurd rfl h1.1
    | cons c cs => exact h2

theorem rhead_heads {p : Char} {r : DbRule} (h : DbRuleOk p r) {tr : List Str} :
    Heads E ⟨dbRuleHead r, [], tr⟩ none ∧ firstWord (evalText E.posix (dbRuleHead r)) ∉ directiveWords := by
  obtain ⟨h1, h2, -⟩ := rhead_word h
  have he : evalText E.posix (dbRuleHead r) = dbRuleHead r := by
    rw [evalText_plain E.posix _ ⟨rhead_not h (by decide), rhead_not h (by decide), rhead_not h (by decide)⟩, h2]
  have hne : dbRuleHead r ≠ [] := by unfold dbRuleHead; simp
  have hw : ∀ w : Str, '%' ∉ w → firstWord (dbRuleHead r) ≠ w := by
    intro w hw e
    exact hw (e ▸ h1)
  refine ⟨⟨hne, ?_, fun _ => ⟨by rw [he]; exact hne, ?_⟩⟩, ?_⟩
  · simp only [he]
    refine noAssign_words (rhead_not h (by decide)) ?_
    rw [h2]
    intro hm
    have : ∀ w ∈ assignWords, '%' ∉ w := by decide
    exact this _ hm h1
  · simp only [he]
    rintro (⟨k, e⟩ | e | e)
    · exact hw (keyword k) (by cases k <;> decide) e
    · exact hw _ (by decide) e
    · exact hw _ (by decide) e
  · rw [he]
    intro hm
    have : ∀ w ∈ directiveWords, '%' ∉ w := by decide
    exact this _ hm h1

/-- The lines of a pattern rule after the first. -/
def dbRuleTrail (p : Char) (r : DbRule) (ls : List Str) : List Str := dbTrail p (ruleFile r []) ls

theorem ruleFile_trail {p : Char} {r : DbRule} {ls : List Str} (n : Str) : dbTrail p (ruleFile r n) ls = dbTrail p (ruleFile r []) ls := rfl

theorem printDbRule_lines {p : Char} {r : DbRule} (h : DbRuleOk p r) : ∃ ls, RecipeRows (dbText (ruleFile r [])) ls ∧
    printDbRule p r = (dbRuleHead r :: [] :: dbRuleTrail p r ls).flatMap fun l => l ++ ['\n'] := by
  cases hc : r.cmds with
  | none =>
    refine ⟨[], ⟨by simp [dbText, ruleFile, hc], by simp⟩, ?_⟩
    simp [printDbRule, dbRuleTrail, dbTrail, ruleFile, dbNotes, hc, dbRuleHead]
  | some c =>
    obtain ⟨h1, h2, ls, hl⟩ := h.cmds c hc
    refine ⟨ls, by simpa [dbText, ruleFile, hc] using hl, ?_⟩
    have hr : (ls.map fun l => p :: l).flatMap (fun l => l ++ ['\n']) = ls.flatMap fun l => p :: l ++ ['\n'] := by
      rw [List.flatMap_map]
    unfold printDbRule dbRuleTrail dbTrail printCommands
    simp only [hc, ruleFile, dbNotes, dbRuleHead, dbCmdLines_whole p hl, List.flatMap_cons, List.flatMap_append, hr]
    simp

theorem db_patterns (hx : LiteralText E.expand) (hs : StablePrefix E) (hg : ∀ l, (E.garbage l).head? ≠ some '=') {p : Char}
    (hp1 : p ≠ '#') (hp2 : p ≠ '\\') (hp3 : p ≠ '\n') : ∀ (rs : List DbRule) (s : σ) (o : Bool), E.cmdPrefix s = p →
    (∀ r ∈ rs, DbRuleOk p r) →
    ∃ zs e, rs.flatMap (printDbRule p) = (zs.flatMap Stanza.lines).flatMap (fun l => l ++ ['\n']) ∧
      (∀ l ∈ zs.flatMap Stanza.lines, Whole l) ∧ Stanzas E o s zs e ∧ PatternsOf E s rs e := by
  intro rs
  induction rs with
  | nil => intro s o _ _; exact ⟨[], s, rfl, by simp, .nil, .nil⟩
  | cons r rs ih =>
    intro s o hsp hf
    have h := hf r (by simp)
    obtain ⟨n, ns, ht⟩ := List.exists_cons_of_ne_nil h.some
    have hfile := ruleFile_ok h (n := n) (by simp [ht])
    obtain ⟨ls, hl, ep⟩ := printDbRule_lines h
    obtain ⟨w, er, hw⟩ := db_pattern (E := E) hx hg (s := s) h
    obtain ⟨zs, e, e1, hwh, hz, hr⟩ := ih (E.record s w (dbText (ruleFile r []))) true (by rw [hs, hsp])
      (fun g hg => hf g (by simp [hg]))
    obtain ⟨t1, t2⟩ := db_trail hp1 (posix := E.posix) hfile (ls := ls) hl (after := []) (by simp)
    have hnil : NoText E.posix [] := by
      show evalText E.posix [] = []
      rw [evalText_plain E.posix [] (by decide)]; rfl
    have t1' : ∀ l ∈ [] :: dbRuleTrail p r ls, IsRecipeLine p l ∨ NoText E.posix l := by
      intro l hl
      rcases List.mem_cons.1 hl with rfl | hl
      · exact .inr hnil
      · exact t1 l (by rw [List.append_nil]; exact hl)
    have t2' : recipeText p ([] :: dbRuleTrail p r ls) = dbText (ruleFile r []) := by
      have e0 : recipeText p ([] :: dbRuleTrail p r ls) = recipeText p (dbRuleTrail p r ls) := by
        unfold recipeText
        rw [List.filter_cons_of_neg (by simp [IsRecipeLine])]
      rw [e0]
      rw [List.append_nil] at t2
      exact t2
    have hhead := (rhead_word h).2.2
    refine ⟨⟨dbRuleHead r, [], [] :: dbRuleTrail p r ls⟩ :: zs, e, ?_, ?_, ?_, .cons hw hr⟩
    · rw [List.flatMap_cons, ep, e1]
      simp [Stanza.lines]
    · intro l hl'
      simp only [List.flatMap_cons, Stanza.lines, List.nil_append, List.mem_append, List.mem_cons] at hl'
      rcases hl' with (rfl | rfl | hl') | hl'
      · exact whole_plain (rhead_not h (by decide)) (rhead_not h (by decide))
      · exact whole_plain (by simp) (by simp)
      · unfold dbRuleTrail dbTrail at hl'
        cases hc : r.cmds with
        | none => simp [ruleFile, dbNotes, hc] at hl'
        | some c =>
          simp only [ruleFile, dbNotes, hc, List.append_nil, if_true, List.map_nil, List.nil_append, List.mem_cons, List.mem_map] at hl'
          rcases hl' with rfl | ⟨x, hx', rfl⟩
          · have := (h.cmds c hc).2.1
            have hd : '\n' ∉ dbRecipeNote ∧ '\\' ∉ dbRecipeNote := by decide
            exact whole_plain (by simp [this.1, hd.1]) (by simp [this.2, hd.2])
          · exact whole_recipe hp2 hp3 (hl.2 x hx')
      · exact hwh l hl'
    · refine .cons (fun _ => by rw [hsp]; exact hhead) ?_ hz
      have := StanzaMeans.rule (E := E) (s := s) (z := ⟨dbRuleHead r, [], [] :: dbRuleTrail p r ls⟩) (cmd := none)
        ⟨(rhead_heads h).1, (rhead_heads (tr := []) h).2, by rw [hsp]; exact hhead, rfl, er⟩ (by rw [hsp]; exact t1')
      rw [hsp] at this
      simp only [firstCommand, List.nil_append, t2'] at this
      exact this

/-- **C145** (partial, as for files) What `-p` prints of the pattern rules can be read as a makefile again: the
same targets, prerequisites, colons and recipes, in the same order. -/
theorem C145_patterns_partial (hx : LiteralText E.expand) (hs : StablePrefix E) (hg : ∀ l, (E.garbage l).head? ≠ some '=')
    (s : σ) (rs : List DbRule) (hp : DbPrefixOk (E.cmdPrefix s) []) (hf : ∀ r ∈ rs, DbRuleOk (E.cmdPrefix s) r) :
    ∃ e, readMakefile E s (readString (printDbRules (E.cmdPrefix s) rs)) = .done e ∧ PatternsOf E s rs e := by
  obtain ⟨zs, e, e1, hw, hz, hr⟩ := db_patterns hx hs hg hp.1 hp.2.1 hp.2.2.1 rs s false rfl hf
  refine ⟨e, ?_, hr⟩
  have el : readString (printDbRules (E.cmdPrefix s) rs) = [[], dbRulesNote] ++ zs.flatMap Stanza.lines := by
    have : printDbRules (E.cmdPrefix s) rs = ([[], dbRulesNote] ++ zs.flatMap Stanza.lines).flatMap (fun l => l ++ ['\n']) := by
      unfold printDbRules
      rw [e1, List.flatMap_append]
      simp
    rw [this]
    refine lines_of_whole fun l hl => ?_
    rcases List.mem_append.1 hl with hl | hl
    · simp only [List.mem_cons, List.not_mem_nil, or_false] at hl
      rcases hl with rfl | rfl
      · exact whole_plain (by simp) (by simp)
      · exact whole_plain (by decide) (by decide)
    · exact hw l hl
  rw [el]
  refine C87_makefile_partial hs (lead := [[], dbRulesNote]) (zs := zs) rfl (fun l hl => ?_) hz
  simp only [List.mem_cons, List.not_mem_nil, or_false] at hl
  rcases hl with rfl | rfl
  · show evalText E.posix [] = []
    rw [evalText_plain E.posix [] (by decide)]; rfl
  · exact note_noText (n := " Implicit Rules".toList) (by decide)

/-! ## Examples -/

/-- A make that keeps the rules it is given, with all their parts. -/
def dbMake (pfx : Char) (val : Str) : RdEnv (List (Waiting × Str)) where
  posix := false
  cmdPrefix _ := pfx
  expand s t := (s, exSub val t)
  defined _ _ := false
  fs := ⟨fun _ => none, fun _ => .nomatch, fun _ _ => []⟩
  garbage _ := []
  assign s _ _ := s
  define s _ _ _ := s
  targetVar s _ _ _ := s
  directive s _ _ := s
  record s w c := s ++ [(w, c)]

theorem dbMake_literal (pfx : Char) (val : Str) : LiteralText (dbMake pfx val).expand := by
  intro s t h
  have := exRd_literal val [] t h
  simp only [exRd, Prod.mk.injEq, true_and] at this
  simp [dbMake, this]

/-- The recipe `echo a\⏎⇥b` and `echo c`. -/
def dbRecipe : DbCmds := { text := "echo a\\\n\tb\necho c\n".toList, pfx := '\t', place := " (from 'Makefile', line 2):".toList }

theorem dbRecipe_whole : RecipeRows dbRecipe.text ["echo a\\\n\tb".toList, "echo c".toList] := by
  refine ⟨by decide, fun l hl => ?_⟩
  simp only [List.mem_cons, List.not_mem_nil, or_false] at hl
  rcases hl with rfl | rfl
  · refine ⟨?_, by rw [endsOdd_iff]; decide⟩
    have he : AllEscaped ("echo a".toList ++ ['\\'] ++ ['\n'] ++ "\tb".toList) :=
      allEscaped_append_no_nl (allEscaped_snoc (allEscaped_no_nl (l := "echo a".toList) (by decide)) (by decide) (by decide)) (by decide)
    have e : "echo a".toList ++ ['\\'] ++ ['\n'] ++ "\tb".toList = "echo a\\\n\tb".toList := by decide
    rw [e] at he; exact he
  · exact ⟨allEscaped_no_nl (by decide), by rw [endsOdd_iff]; decide⟩

/-- `a:: b | c d` with a recipe; `b` is only mentioned. -/
def dbExample : List DbFile :=
  [{ name := ['a'], double := true, isTarget := true, deps := [⟨['c'], true⟩, ⟨['b'], false⟩, ⟨['d'], true⟩],
     notes := ["  Phony target".toList], also := [['e']], cmds := some dbRecipe },
   { name := ['b'], double := false, isTarget := false, deps := [], notes := [], cmds := none }]

theorem dbName_ok {w : Str} (h1 : w ≠ []) (h2 : ∀ c ∈ w, isSpace c = false ∧
    c ∉ ['=', ':', '$', '\\', '&', ';', '#', '(', '~', '?', '*', '[', '|']) (h3 : ['.', '/'].isPrefixOf w = false) : DbName w :=
  ⟨h1, h2, fun h => by rw [List.isPrefixOf_iff_prefix.2 h] at h3; cases h3⟩

example : ∃ e, readMakefile (dbMake '\t' []) [] (readString (printFiles '\t' dbExample).2) = .done e ∧
    FileRules (dbMake '\t' []) [] dbExample e := by
  refine C145_files_partial (E := dbMake '\t' []) (dbMake_literal _ _) (fun _ _ _ => rfl) (fun l h => by cases h) [] dbExample
    ⟨by decide, by decide, by decide, by decide⟩ fun f hf => ?_
  simp only [dbExample, List.mem_cons, List.not_mem_nil, or_false] at hf
  rcases hf with rfl | rfl
  · refine ⟨dbName_ok (by decide) (by decide) (by decide), fun d hd => ?_, ?_, ?_⟩
    · simp only [List.mem_cons, List.not_mem_nil, or_false] at hd
      rcases hd with rfl | rfl | rfl <;> exact ⟨dbName_ok (by decide) (by decide) (by decide), by decide⟩
    · unfold DbNote; decide
    · rintro c ⟨⟩
      exact ⟨rfl, ⟨by decide, by decide⟩, _, dbRecipe_whole⟩
  · exact ⟨dbName_ok (by decide) (by decide) (by decide), by simp, by unfold DbNote; decide, by simp⟩

example : ∃ e, readMakefile (dbMake '\t' []) [] (readString (printDbRules '\t'
      [{ targets := ["%.h".toList, "%.c".toList], terminal := true, deps := [⟨"%.y".toList, false⟩], cmds := some dbRecipe }])) = .done e ∧
    PatternsOf (dbMake '\t' []) [] [{ targets := ["%.h".toList, "%.c".toList], terminal := true, deps := [⟨"%.y".toList, false⟩],
                                      cmds := some dbRecipe }] e := by
  refine C145_patterns_partial (E := dbMake '\t' []) (dbMake_literal _ _) (fun _ _ _ => rfl) (fun l h => by cases h) [] _
    ⟨by decide, by decide, by decide, by simp⟩ fun r hr => ?_
  simp only [List.mem_singleton] at hr
  subst hr
  refine ⟨by simp, fun n hn => ?_, fun d hd => ?_, ?_⟩
  · simp only [List.mem_cons, List.not_mem_nil, or_false] at hn
    rcases hn with rfl | rfl <;> exact ⟨dbName_ok (by decide) (by decide) (by decide), by decide, by decide⟩
  · simp only [List.mem_cons, List.not_mem_nil, or_false] at hd
    subst hd
    exact ⟨dbName_ok (by decide) (by decide) (by decide), by decide⟩
  · rintro c ⟨⟩
    exact ⟨rfl, ⟨by decide, by decide⟩, _, dbRecipe_whole⟩

/-! ## What does not come back -/

deriving instance DecidableEq for ReadRes

/-- A file that is a target, without prerequisites. -/
def dbTarget (n : Str) (c : Option DbCmds) : DbFile :=
  { name := n, double := false, isTarget := true, deps := [], notes := [], cmds := c }

/-- The rule that is read. -/
def dbWait (names : List Str) (deps : Option Str) : Waiting :=
  { names := names, grouped := false, pattern := none, deps := deps, twoColon := false, pfx := '\t' }

/-- **C145** (negative) A file that is only mentioned is printed as a rule without recipe, after a comment that says it is no
target: when it is read it is one. -/
theorem C145_not_target : readMakefile (dbMake '\t' []) [] (readString (printFiles '\t'
      [{ name := ['x'], double := false, isTarget := false, deps := [], notes := [], cmds := none }]).2) =
    .done [(dbWait [['x']] none, [])] := by
  decide +kernel

/-- **C145** (negative) Names are printed as they are.  A target named `a$(x)`, one written `a$$(x)` in the makefile, is read
as a reference to the variable; `a b`, written `a\ b`, as two targets; and after a target named `a#b` make does not
get further. -/
theorem C145_names : readMakefile (dbMake '\t' "y".toList) [] (readString (printFiles '\t' [dbTarget "a$(x)".toList none]).2) =
      .done [(dbWait ["ay".toList] none, [])] ∧
    readMakefile (dbMake '\t' []) [] (readString (printFiles '\t' [dbTarget "a b".toList none]).2) =
      .done [(dbWait [['a'], ['b']] none, [])] ∧
    readMakefile (dbMake '\t' []) [] (readString (printFiles '\t' [dbTarget "a#b".toList none, dbTarget "c".toList none]).2) = .fatal := by
  decide +kernel

/-- The rule `a b &:`, whose recipe makes both files. -/
def dbGroup : List DbFile :=
  [{ dbTarget ['a'] (some { dbRecipe with text := "r\n".toList }) with also := [['b']] },
   { dbTarget ['b'] (some { dbRecipe with text := "r\n".toList }) with also := [['a']] }]

/-- **C145** (negative) That the targets of a grouped rule are made together is printed only in comments: they are read as two rules,
and the recipe is run for each. -/
theorem C145_grouped : readMakefile (dbMake '\t' []) [] (readString (printFiles '\t' dbGroup).2) =
    .done [(dbWait [['a']] none, "r\n".toList), (dbWait [['b']] none, "r\n".toList)] := by
  decide +kernel

/-- **C145** (negative) A pattern rule that was read with the recipe prefix `>` is printed with the prefix of
the moment, but the other lines of a recipe line with continuations keep theirs: what was `echo b` is `>echo b`
afterwards, which the shell takes for a redirection. -/
theorem C145_pattern_prefix : readMakefile (dbMake '\t' []) [] (readString (printDbRules '\t'
      [{ targets := [['%']], terminal := false, deps := [],
         cmds := some { text := "true; \\\n>echo b\n".toList, pfx := '>', place := [] } }])) =
    .done [(dbWait [['%']] none, "true; \\\n>echo b\n".toList)] ∧ (dbWait [['%']] none).pfx = '\t' := by
  decide +kernel

end Remake
