import Verif.DataBase.Lemmas2
/-!
# C145: the rules in the printed data base
-/
set_option linter.unusedVariables false
set_option linter.unusedSimpArgs false
namespace Remake
open Spec

variable {σ : Type} {E : RdEnv σ}

theorem db_ends {f : DbFile} {p : Char} (h : DbFileOk p f) {stale : Str} (hg : stale.head? ≠ some '=') :
    (if f.double then RuleSign.dcolon else RuleSign.colon).Ends (printPrereqs f.deps) stale := by
  have he : '=' ∉ printPrereqs f.deps := prereqs_not (fun d hd => (h.deps d hd).1) (by decide)
  have hc : ':' ∉ printPrereqs f.deps := prereqs_not (fun d hd => (h.deps d hd).1) (by decide)
  split
  · refine ⟨fun hh => he ?_, fun _ => hg⟩
    exact List.mem_of_mem_tail (List.mem_of_mem_head? (Option.mem_def.2 hh))
  · exact ⟨fun hh => hc (List.mem_of_mem_head? (Option.mem_def.2 hh)), fun hh => he (List.mem_of_mem_head? (Option.mem_def.2 hh))⟩

theorem tokenPrefix_word {w tl : Str} (hw : ∀ c ∈ w, isSpace c = false) (ht : tl = [] ∨ ∃ r, tl = ' ' :: r) :
    tokenPrefix (w ++ tl) = w := by
  unfold tokenPrefix
  rw [List.takeWhile_append_of_pos (fun c hc => by simp [hw c hc])]
  rcases ht with rfl | ⟨r, rfl⟩
  · simp
  · have : isSpace ' ' = true := by decide
    simp [this]

theorem nextToken_begins {w tl : Str} (hb : Begins w) : nextToken (w ++ tl) = w ++ tl := by
  obtain ⟨c, cs, rfl, hc⟩ := hb
  simp [nextToken, hc]

/-- The rule line of a file is read as its rule. -/
theorem db_rule (hx : LiteralText E.expand) (hg : ∀ l, (E.garbage l).head? ≠ some '=') {f : DbFile} {p : Char} {s : σ}
    (h : DbFileOk p f) :
    ∃ w, ruleLine E s (cutLine E (dbHead f)).1 (cutLine E (dbHead f)).2.1 (cutLine E (dbHead f)).2.2 = (s, .rule w none) ∧
      RuleOf E.fs (E.cmdPrefix s) f w (dbText f) := by
  have hcut := cutLine_head E (l := dbHead f) (fun c hc => head_not h (by
    simp only [List.mem_cons, List.not_mem_nil, or_false] at hc ⊢
    rcases hc with rfl | rfl | rfl | rfl <;> simp))
  have hds : ∀ d ∈ f.deps, DbName d.name := fun d hd => (h.deps d hd).1
  rw [hcut]
  have hrow : WordRow [⟨[], f.name⟩] := by
    refine ⟨fun q hq => ?_, by simp⟩
    simp only [List.mem_singleton] at hq
    subst hq
    refine ⟨by simp, piece_plain fun c hc hm => ?_, h.name.1, fun hh => ?_⟩
    · refine dbName_chars h.name (c := c) ?_ hc
      simp only [List.mem_cons, List.not_mem_nil, or_false] at hm
      rcases hm with rfl | rfl | rfl | rfl | rfl | rfl | rfl <;> decide
    · exact dbName_chars h.name (c := ';') (by decide) (List.mem_of_mem_head? (Option.mem_def.2 hh))
  have hlist : Listing isBlank true [f.name] (targetText [f.name]) := by
    have := listing_ended isBlank_ok true [f.name] (by simpa using h.name)
    simpa [targetText] using this
  have hna : parseVarAssignment (printPrereqs f.deps) = none := by
    by_cases hd : f.deps = []
    · rw [hd]; decide
    · obtain ⟨w, tl, e, hb, hw, ha, ht, -, -⟩ := prereqs_shape h.deps hd
      refine noAssign_words (prereqs_not hds (by decide)) ?_
      have e2 : nextToken (printPrereqs f.deps) = w ++ tl := by
        rw [e]
        have : nextToken (' ' :: (w ++ tl)) = nextToken (w ++ tl) := by
          have : isSpace ' ' = true := by decide
          simp [nextToken, this]
        rw [this, nextToken_begins hb]
      rw [e2, tokenPrefix_word hw ht]
      exact ha
  have hun : unquoteEquals (printPrereqs f.deps) = printPrereqs f.deps := by
    have : EqualsUndone (printPrereqs f.deps) (printPrereqs f.deps) :=
      ⟨.lit _, .none (prereqs_not hds (by decide)), rfl⟩
    exact ((unquoteEquals_iff _ _).1 this).symm
  obtain ⟨g, d, hgs, hd, er⟩ := C88_rule_partial hx hrow (sep := []) (by simp)
    (k := if f.double then .dcolon else .colon) (rest := printPrereqs f.deps) (stale := E.garbage (dbHead f))
    (db_ends h (hg _)) (semi := none) (s := s) (s1 := s) (s2 := s) (ts := [f.name])
    (by simp only [List.map_cons, List.map_nil, expandAll, hx s f.name (dbName_chars h.name (by decide))])
    (by
      intro t ht
      simp only [List.mem_singleton] at ht
      subst ht
      exact ⟨dbName_chars h.name (by decide), fun _ => dbName_chars h.name (by decide)⟩)
    hlist (by intro w hw; simp only [List.mem_singleton] at hw; subst hw; exact dbName_plain h.name) (by simp)
    (no_assign hna) (u := printPrereqs f.deps) (D := printPrereqs f.deps) ((unquoteEquals_iff _ _).2 hun.symm)
    (hx s _ (prereqs_not hds (by decide))) (prereqs_not hds (by decide)) (fun _ => prereqs_not hds (by decide))
  have eh : leadText [⟨[], f.name⟩] ++ ([] ++ ((if f.double then RuleSign.dcolon else RuleSign.colon).text ++ printPrereqs f.deps)) =
      dbHead f := by
    unfold dbHead
    cases f.double <;> simp [leadText, RuleSign.text]
  rw [eh] at er
  refine ⟨_, er, ?_⟩
  have hgn : g f.name = f.name := by rw [stripped_unique (hgs f.name), dbName_lookup h.name]
  constructor
  · simp [hgn]
  · cases f.double <;> rfl
  · rfl
  · cases f.double <;> rfl
  · rfl
  · intro hd0
    have : d = [] := isTrim_unique hd (by
      rw [hd0]
      exact ⟨[], [], rfl, by simp, by simp, by simp, by simp, fun _ => rfl⟩)
    simp [this]
  · intro hd0
    obtain ⟨w, tl, e, hb, hw, ha, ht, hl, hp⟩ := prereqs_shape h.deps hd0
    have hdw : d = w ++ tl := isTrim_unique hd (by
      rw [e]
      obtain ⟨c, cs, rfl, hc⟩ := hb
      refine ⟨[' '], [], by simp, by intro c hc; simp at hc; subst hc; decide, by simp, ?_, hl, by simp⟩
      intro x hx; cases hx; exact hc)
    have hne : w ++ tl ≠ [] := by
      obtain ⟨c, cs, rfl, hc⟩ := hb
      simp
    refine ⟨w ++ tl, by simp [hdw, hne], ?_⟩
    rw [prereqText_split E.fs hp, List.map_map]
    congr 1
    have : ∀ x ∈ normalFirst f.deps, x ∈ f.deps := by
      intro x hx
      simp only [normalFirst, List.mem_append, List.mem_filter] at hx
      rcases hx with hx | hx <;> exact hx.1
    conv => rhs; rw [← List.map_id (normalFirst f.deps)]
    refine List.map_congr_left fun x hx => ?_
    simp [dbName_lookup (hds x (this x hx))]
  · rfl

/-- The first word of a rule line has a colon. -/
theorem dbHead_word {p : Char} {f : DbFile} (h : DbFileOk p f) : ':' ∈ tokenPrefix (dbHead f) ∧ nextToken (dbHead f) = dbHead f := by
  constructor
  · unfold dbHead tokenPrefix
    rw [List.takeWhile_append_of_pos (fun c hc => by simp [(h.name.2.1 c hc).1])]
    have : isSpace ':' = false := by decide
    simp [this]
  · exact nextToken_begins (dbName_begins h.name)

theorem db_heads {p : Char} {f : DbFile} (h : DbFileOk p f) {tr : List Str} :
    Heads E ⟨dbHead f, [], tr⟩ none ∧ firstWord (evalText E.posix (dbHead f)) ∉ directiveWords := by
  obtain ⟨h1, h2⟩ := dbHead_word h
  have he : evalText E.posix (dbHead f) = dbHead f := by
    rw [evalText_plain E.posix _ ⟨head_not h (by decide), head_not h (by decide), head_not h (by decide)⟩, h2]
  have hne : dbHead f ≠ [] := by unfold dbHead; simp
  have hw : ∀ w : Str, ':' ∉ w → firstWord (dbHead f) ≠ w := by
    intro w hw e
    exact hw (e ▸ h1)
  refine ⟨⟨hne, ?_, fun _ => ⟨by rw [he]; exact hne, ?_⟩⟩, ?_⟩
  · simp only [he]
    refine noAssign_words (head_not h (by decide)) ?_
    rw [h2]
    intro hm
    have : ∀ w ∈ assignWords, ':' ∉ w := by decide
    exact this _ hm h1
  · simp only [he]
    rintro (⟨k, e⟩ | e | e)
    · exact hw (keyword k) (by cases k <;> decide) e
    · exact hw _ (by decide) e
    · exact hw _ (by decide) e
  · rw [he]
    intro hm
    have : ∀ w ∈ directiveWords, ':' ∉ w := by decide
    exact this _ hm h1

theorem note_noText {posix : Bool} {n : Str} (h : '\n' ∉ n) : NoText posix ('#' :: n) := evalText_comment h

theorem lead_noText {posix : Bool} {f : DbFile} : ∀ l ∈ dbLead f, NoText posix l ∧ l.head? ≠ some '\t' ∧ (l = [] ∨ l.head? = some '#') := by
  intro l hl
  unfold dbLead at hl
  simp only [List.mem_cons] at hl
  rcases hl with rfl | hl
  · refine ⟨?_, by simp, .inl rfl⟩
    show evalText posix [] = []
    rw [evalText_plain posix [] (by decide)]; rfl
  · split at hl
    · cases hl
    · simp only [List.mem_singleton] at hl
      subst hl
      exact ⟨note_noText (n := " Not a target:".toList) (by decide), by decide, .inr (by decide)⟩

theorem recipe_of_lines {p : Char} {ls : List Str} : recipeText p (ls.map fun l => p :: l) = ls.flatMap fun l => l ++ ['\n'] := by
  unfold recipeText
  rw [List.filter_eq_self.2]
  · rw [List.flatMap_map]; rfl
  · intro l hl
    obtain ⟨x, -, rfl⟩ := List.mem_map.1 hl
    simp [IsRecipeLine]

theorem recipe_append {p : Char} (a b : List Str) : recipeText p (a ++ b) = recipeText p a ++ recipeText p b := by
  simp [recipeText]

theorem recipe_none {p : Char} {ls : List Str} (h : ∀ l ∈ ls, ¬ IsRecipeLine p l) : recipeText p ls = [] := by
  unfold recipeText
  rw [List.filter_eq_nil_iff.2 (fun l hl => by simpa using h l hl)]
  rfl

/-- The lines after a rule line: recipe lines and lines without text, and the recipe is the one of the file. -/
theorem db_trail {p : Char} (hp : p ≠ '#') {posix : Bool} {f : DbFile} (h : DbFileOk p f) {ls : List Str} (hl : RecipeRows (dbText f) ls)
    {after : List Str} (ha : ∀ l ∈ after, NoText posix l ∧ (l = [] ∨ l.head? = some '#')) :
    (∀ l ∈ dbTrail p f ls ++ after, IsRecipeLine p l ∨ NoText posix l) ∧ recipeText p (dbTrail p f ls ++ after) = dbText f := by
  have hnr : ∀ l : Str, (l = [] ∨ l.head? = some '#') → ¬ IsRecipeLine p l := by
    rintro l (rfl | e) hh
    · cases hh
    · unfold IsRecipeLine at hh; rw [e] at hh; exact hp (Option.some.inj hh).symm
  have hnotes : recipeText p ((dbNotes f).map fun n => '#' :: n) = [] := recipe_none fun l hl => by
    obtain ⟨n, -, rfl⟩ := List.mem_map.1 hl
    exact hnr _ (.inr rfl)
  have haft : recipeText p after = [] := recipe_none fun l hl => hnr l (ha l hl).2
  unfold dbTrail
  cases hc : f.cmds with
  | none =>
    refine ⟨fun l hl => .inr ?_, ?_⟩
    · simp only [List.append_nil, List.mem_append, List.mem_map] at hl
      rcases hl with ⟨n, hn, rfl⟩ | hl
      · exact note_noText (h.notes n hn).1
      · exact (ha l hl).1
    · rw [recipe_append, recipe_append, hnotes, haft, dbText, hc]; rfl
  | some c =>
    have hcm := h.cmds c hc
    have e : ∀ x : List Str, recipeText p ((dbRecipeNote ++ c.place) :: x) = recipeText p x := by
      intro x
      unfold recipeText
      rw [List.filter_cons_of_neg]
      have : (dbRecipeNote ++ c.place).head? = some '#' := by
        have : dbRecipeNote = '#' :: "  recipe to execute".toList := by decide
        rw [this]; rfl
      simpa using hnr _ (.inr this)
    refine ⟨fun l hl => ?_, ?_⟩
    · simp only [List.mem_append, List.mem_map, List.mem_cons] at hl
      rcases hl with (⟨n, hn, rfl⟩ | rfl | ⟨x, hx, rfl⟩) | hl
      · exact .inr (note_noText (h.notes n hn).1)
      · right
        have : dbRecipeNote ++ c.place = '#' :: ("  recipe to execute".toList ++ c.place) := by
          have : dbRecipeNote = '#' :: "  recipe to execute".toList := by decide
          rw [this]; rfl
        rw [this]
        refine note_noText ?_
        rw [List.mem_append]
        rintro (hm | hm)
        · revert hm; decide
        · exact hcm.2.1.1 hm
      · exact .inl rfl
      · exact .inr (ha l hl).1
    · rw [recipe_append, recipe_append, hnotes, haft, List.nil_append, List.append_nil, e, recipe_of_lines, ← hl.1]

/-- The lines before the first rule of the files. -/
def leadOf : List DbFile → List Str
  | [] => []
  | f :: _ => dbLead f

theorem leadOf_noText {posix : Bool} (fs : List DbFile) : ∀ l ∈ leadOf fs, NoText posix l ∧ (l = [] ∨ l.head? = some '#') := by
  intro l hl
  cases fs with
  | nil => cases hl
  | cons f fs => exact ⟨(lead_noText l hl).1, (lead_noText (posix := posix) l hl).2.2⟩

theorem leadOf_whole (fs : List DbFile) : ∀ l ∈ leadOf fs, Whole l := by
  intro l hl
  cases fs with
  | nil => cases hl
  | cons f fs =>
    simp only [leadOf, dbLead, List.mem_cons] at hl
    rcases hl with rfl | hl
    · exact whole_plain (by simp) (by simp)
    · split at hl
      · cases hl
      · simp only [List.mem_singleton] at hl
        subst hl
        exact whole_plain (by decide) (by decide)

theorem db_stanzas (hx : LiteralText E.expand) (hs : StablePrefix E) (hg : ∀ l, (E.garbage l).head? ≠ some '=') {p : Char}
    (hp1 : p ≠ '#') (hp2 : p ≠ '\\') (hp3 : p ≠ '\n') : ∀ (fs : List DbFile) (s : σ) (o : Bool), E.cmdPrefix s = p →
    (∀ f ∈ fs, f.name.head? ≠ some p) → (∀ f ∈ fs, DbFileOk p f) →
    ∃ zs e, (printFiles p fs).2 = (leadOf fs ++ zs.flatMap Stanza.lines).flatMap (fun l => l ++ ['\n']) ∧
      (∀ l ∈ zs.flatMap Stanza.lines, Whole l) ∧ Stanzas E o s zs e ∧ FileRules E s fs e := by
  intro fs
  induction fs with
  | nil => intro s o _ _ _; exact ⟨[], s, rfl, by simp, .nil, .nil⟩
  | cons f fs ih =>
    intro s o hsp hn hf
    have h := hf f (by simp)
    obtain ⟨ls, hl, ep⟩ := printFile_lines h
    obtain ⟨w, er, hw⟩ := db_rule (E := E) hx hg (s := s) h
    obtain ⟨zs, e, e1, hwh, hz, hr⟩ := ih (E.record s w (dbText f)) true (by rw [hs, hsp])
      (fun g hg => hn g (by simp [hg])) (fun g hg => hf g (by simp [hg]))
    obtain ⟨t1, t2⟩ := db_trail hp1 (posix := E.posix) h hl (leadOf_noText fs)
    have hhead : (dbHead f).head? ≠ some p := by
      have := hn f (by simp)
      unfold dbHead
      cases hnm : f.name with
      | nil => exact absurd hnm h.name.1
      | cons c cs => rw [hnm] at this; exact this
    refine ⟨⟨dbHead f, [], dbTrail p f ls ++ leadOf fs⟩ :: zs, e, ?_, ?_, ?_, .cons hw hr⟩
    · rw [printFiles, ep]
      simp only [e1, leadOf, List.flatMap_cons, Stanza.lines, List.flatMap_append, List.append_assoc, List.nil_append,
        List.cons_append]
    · intro l hl'
      simp only [List.flatMap_cons, Stanza.lines, List.nil_append, List.mem_append, List.mem_cons] at hl'
      rcases hl' with (rfl | hl' | hl') | hl'
      · exact whole_plain (head_not h (by decide)) (head_not h (by decide))
      · unfold dbTrail at hl'
        simp only [List.mem_append, List.mem_map] at hl'
        rcases hl' with ⟨n, hn', rfl⟩ | hl'
        · have := h.notes n hn'
          exact whole_plain (by simpa using this.1) (by simpa using this.2)
        · cases hc : f.cmds with
          | none => rw [hc] at hl'; cases hl'
          | some c =>
            rw [hc] at hl'
            simp only [List.mem_cons, List.mem_map] at hl'
            rcases hl' with rfl | ⟨x, hx', rfl⟩
            · have := (h.cmds c hc).2.1
              have hd : '\n' ∉ dbRecipeNote ∧ '\\' ∉ dbRecipeNote := by decide
              exact whole_plain (by simp [this.1, hd.1]) (by simp [this.2, hd.2])
            · exact whole_recipe hp2 hp3 (hl.2 x hx')
      · exact leadOf_whole fs l hl'
      · exact hwh l hl'
    · refine .cons (fun _ => by rw [hsp]; exact hhead) ?_ hz
      have := StanzaMeans.rule (E := E) (s := s) (z := ⟨dbHead f, [], dbTrail p f ls ++ leadOf fs⟩) (cmd := none)
        ⟨(db_heads h).1, (db_heads (tr := []) h).2, by rw [hsp]; exact hhead, rfl, er⟩ (by rw [hsp]; exact t1)
      rw [hsp] at this
      simp only [firstCommand, List.nil_append, t2] at this
      exact this

/-- **C145** (partial) What `-p` prints of the files can be read as a makefile again: make is given the same rules in the
same order, each with its target, its prerequisites, whether it is independent (`::`), and its recipe, character by
character; the prerequisites come in the same order, the order-only ones after the others.  Missing: names with characters that mean
something in a makefile, recipes with different prefixes, variables of targets, and memory after the end of
a line that begins with an equals sign. -/
theorem C145_files_partial (hx : LiteralText E.expand) (hs : StablePrefix E) (hg : ∀ l, (E.garbage l).head? ≠ some '=')
    (s : σ) (fs : List DbFile) (hp : DbPrefixOk (E.cmdPrefix s) fs) (hf : ∀ f ∈ fs, DbFileOk (E.cmdPrefix s) f) :
    ∃ e, readMakefile E s (readString (printFiles (E.cmdPrefix s) fs).2) = .done e ∧ FileRules E s fs e := by
  obtain ⟨zs, e, e1, hw, hz, hr⟩ := db_stanzas hx hs hg hp.1 hp.2.1 hp.2.2.1 fs s false rfl hp.2.2.2 hf
  refine ⟨e, ?_, hr⟩
  have el : readString (printFiles (E.cmdPrefix s) fs).2 = leadOf fs ++ zs.flatMap Stanza.lines := by
    rw [e1]
    refine lines_of_whole fun l hl => ?_
    rcases List.mem_append.1 hl with hl | hl
    · exact leadOf_whole fs l hl
    · exact hw l hl
  rw [el]
  refine C87_makefile_partial hs (lead := leadOf fs) (zs := zs) ?_ (fun l hl => (leadOf_noText fs l hl).1) hz
  cases fs with
  | nil =>
    cases hr
    cases zs with
    | nil => rfl
    | cons z zs =>
      exfalso
      have := congrArg List.length e1
      simp [printFiles, leadOf, Stanza.lines] at this
  | cons f fs => rfl

end Remake
