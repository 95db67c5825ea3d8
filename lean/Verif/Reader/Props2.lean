import Verif.Reader.Props
import Verif.Text.Props2
/-! Property theorems for the reading of whole makefiles (C87), and cases that meet the hypotheses of C88. -/
set_option linter.unusedVariables false
set_option linter.unusedSimpArgs false
namespace Remake
open Spec
variable {σ : Type} {E : RdEnv σ}

/-! ## C87: recipes -/

theorem makefile_run (hs : StablePrefix E) {s s' : σ} {lines lead : List Str} {zs : List Stanza}
    (hl : skipBom lines = lead ++ zs.flatMap Stanza.lines) (hn : ∀ l ∈ lead, NoText E.posix l)
    (h : Stanzas E false s zs s') : readMakefile E s lines = .done s' := by
  obtain ⟨o', t', hb, e⟩ := stanzas_run hs h (t := live s none [] false) .closed
  unfold readMakefile evalLines
  have hi : ({ env := s } : RdState σ) = live s none [] false := rfl
  rw [hl, hi, loop_trail_closed s _ hn, e]
  simp only [between_failed hb, between_flush hb, Option.isSome_none, Bool.false_eq_true, if_false]
  rfl

/-- **C87** (partial: conditionals only within recipes, recording a rule does not change the recipe prefix) A makefile that is
a sequence of stanzas — assignments, definitions, directives, target-specific variables, rules — leads where the stanzas lead,
one after the other.  The recipe of a rule is its first command and the lines after it that start with the recipe prefix,
up to the next stanza; empty lines and comments between them do not matter, and of conditionals between them the branches that
are taken. -/
theorem C87_makefile_partial (hs : StablePrefix E) {s s' : σ} {lines lead : List Str} {zs : List Stanza}
    (hl : skipBom lines = lead ++ zs.flatMap Stanza.lines) (hn : ∀ l ∈ lead, NoText E.posix l)
    (h : Stanzas E false s zs s') : readMakefile E s lines = .done s' :=
  makefile_run hs hl hn h

/-- **C87** (partial, as before) Every makefile without conditionals is such a sequence, or make stops with an error. -/
theorem C87_every_partial (hs : StablePrefix E) (s : σ) (lines : List Str)
    (hc : ∀ l ∈ skipBom lines, ¬ Reserved (firstWord (evalText E.posix l))) :
    (∃ lead zs s', skipBom lines = lead ++ zs.flatMap Stanza.lines ∧ (∀ l ∈ lead, NoText E.posix l) ∧
      Stanzas E false s zs s' ∧ readMakefile E s lines = .done s') ∨ readMakefile E s lines = .fatal := by
  rcases decompose hs _ (skipBom lines) (Nat.le_refl _) hc (live s none [] false) ⟨_, _, .closed⟩ with h | h
  · obtain ⟨trail, zs, o, s1, s', e, hw, hz⟩ := h
    refine .inl ⟨trail, zs, s', e, ?_⟩
    have key : ∀ t, t = live s none [] false → Waits E t trail o s1 →
        (∀ l ∈ trail, NoText E.posix l) ∧ Stanzas E false s zs s' := by
      intro t ht hw
      cases hw with
      | closed hn => cases ht; exact ⟨hn, hz⟩
      | ignored hn => cases ht
      | rule hn => cases ht
    obtain ⟨h1, h2⟩ := key _ rfl hw
    exact ⟨h1, h2, makefile_run hs e h1 h2⟩
  · refine .inr ?_
    unfold readMakefile evalLines
    have hi : ({ env := s } : RdState σ) = live s none [] false := rfl
    rw [hi]
    rcases h with h | ⟨t, h, hf⟩
    · rw [h]
    · rw [h]; simp only [hf, if_true]

/-! ### Cases that meet the hypotheses -/

instance (p : Bool) (l : Str) : Decidable (NoText p l) := inferInstanceAs (Decidable (_ = _))
instance (w : Str) : Decidable (Reserved w) :=
  decidable_of_iff (w ∈ [keyword .ifeq, keyword .ifneq, keyword .ifdef, keyword .ifndef, "else".toList, "endif".toList]) (by
    unfold Reserved
    constructor
    · intro h
      simp only [List.mem_cons, List.not_mem_nil, or_false] at h
      rcases h with h | h | h | h | h
      · exact .inl ⟨_, h⟩
      · exact .inl ⟨_, h⟩
      · exact .inl ⟨_, h⟩
      · exact .inl ⟨_, h⟩
      · exact .inr h
    · rintro (⟨k, rfl⟩ | h)
      · cases k <;> simp
      · simp only [List.mem_cons, List.not_mem_nil, or_false]; exact .inr (.inr (.inr (.inr h))))

/-- Rules recorded so far: targets, prerequisites, recipe. -/
abbrev RdLog := List (List Str × Option Str × Str)

/-- The text with `$(x)` replaced. -/
def exSub (val : Str) : Str → Str
  | [] => []
  | '$' :: '(' :: 'x' :: ')' :: cs => val ++ exSub val cs
  | c :: cs => c :: exSub val cs

/-- A make with one variable `x`, that keeps the rules it is given; target-specific variables are kept as rules whose
targets are preceded by an empty name. -/
def exRd (val : Str) : RdEnv RdLog where
  posix := false
  cmdPrefix _ := '\t'
  expand s t := (s, exSub val t)
  defined _ n := n = "X".toList
  fs := ⟨fun _ => none, fun _ => .nomatch, fun _ _ => []⟩
  garbage _ := []
  assign s _ _ := s
  define s _ _ _ := s
  targetVar s n _ d := s ++ [([] :: n, some d, [])]
  directive s _ _ := s
  record s w c := s ++ [(w.names, w.deps, c)]

theorem exRd_literal (val : Str) : LiteralText (exRd val).expand := by
  intro s t h
  simp only [exRd, Prod.mk.injEq, true_and]
  fun_induction exSub val t with
  | case1 => rfl
  | case2 cs ih => simp at h
  | case3 c cs _ ih => rw [ih (fun hc => h (by simp [hc]))]

theorem exRd_stable (val : Str) : StablePrefix (exRd val) := fun _ _ _ => rfl

/-- The stanzas of the makefile below. -/
def exStanzas : List Stanza :=
  [{ head := "y = 1".toList, trail := ["# z".toList] },
   { head := "a: b; echo 0".toList, trail := ["\techo 1".toList, [], "# no".toList, "\techo 2".toList] },
   { head := "$(x): c".toList,
     trail := ["ifdef X".toList, "\techo 3".toList, "else".toList, "\techo 4".toList, "endif".toList, "\techo 5".toList] }]

/-- The block after the last rule. -/
def exRecipe : Blk :=
  .cond "ifdef X".toList .ifdef (.plain "\techo 3".toList .nil)
    (.els "else".toList (.plain "\techo 4".toList .nil) "endif".toList) (.plain "\techo 5".toList .nil)

/-- A rule without pattern. -/
def exWait (names : List Str) (deps : Str) : Waiting :=
  { names := names, grouped := false, pattern := none, deps := some deps, twoColon := false, pfx := '\t' }

instance : DecidableEq (Option Str × Str) := inferInstance
instance : DecidableEq (List Str × Option Str × Str) := inferInstance
instance : DecidableEq RdLog := inferInstance
instance : DecidableEq (RdLog × Str) := inferInstance

theorem exRecipe_wf : exRecipe.WF (readerEnv (exRd "t u".toList)) := by
  have dir : ∀ l : Str, l ≠ [] → l.head? ≠ some '\t' → parseVarAssignment (evalText false l) = none →
      Directive (readerEnv (exRd "t u".toList)) l := by
    intro l h1 h2 h3
    refine ⟨h1, fun s => ?_, ?_⟩
    · simp [readerEnv, exRd, h2]
    · simp [readerEnv, exRd, h3]
  have plain : ∀ l : Str, parseVarAssignment (evalText false l) = none → ¬ Reserved (firstWord (evalText false l)) →
      IsPlain (readerEnv (exRd "t u".toList)) l := by
    intro l h1 h2 _ s _
    exact ⟨by simp [readerEnv, exRd, h1], fun _ => h2⟩
  have p3 := plain "\techo 3".toList (by decide +kernel) (by decide +kernel)
  have p4 := plain "\techo 4".toList (by decide +kernel) (by decide +kernel)
  have p5 := plain "\techo 5".toList (by decide +kernel) (by decide +kernel)
  have d1 := dir "ifdef X".toList (by decide) (by decide) (by decide +kernel)
  have d2 := dir "else".toList (by decide) (by decide) (by decide +kernel)
  have d3 := dir "endif".toList (by decide) (by decide) (by decide +kernel)
  simp only [exRecipe, Blk.WF, Tail.WF, and_true]
  refine ⟨⟨d1, ?_⟩, p3, ⟨⟨d2, ?_, ?_⟩, p4, d3, ?_⟩, p5⟩ <;>
    (simp only [readerEnv, exRd]; decide +kernel)

example : readMakefile (exRd "t u".toList) [] ([] :: exStanzas.flatMap Stanza.lines) = .done
    [(["a".toList], some "b".toList, " echo 0\necho 1\necho 2\n".toList),
     (["t".toList, "u".toList], some "c".toList, "echo 3\necho 5\n".toList)] := by
  refine C87_makefile_partial (exRd_stable _) (lead := [[]]) (zs := exStanzas) (by decide) (by decide +kernel) ?_
  refine .cons (o' := false) (e := []) (fun h => by cases h)
    (.assign (m := {}) (q := "y = 1".toList) ⟨by decide, by decide +kernel, fun h => by cases h⟩ rfl rfl
    (by decide +kernel)) ?_
  refine .cons (o' := true) (fun h => by cases h) (.rule (e := []) (w := exWait ["a".toList] "b".toList) (cmd := some " echo 0".toList)
    ⟨⟨by decide, by decide +kernel, fun _ => by decide +kernel⟩, by decide +kernel, by decide, rfl, by decide +kernel⟩
    (by decide +kernel)) ?_
  exact .cons (fun _ => by decide) (.ruleCond (b := exRecipe)
    (e := [(["a".toList], some "b".toList, " echo 0\necho 1\necho 2\n".toList)])
    (e' := [(["a".toList], some "b".toList, " echo 0\necho 1\necho 2\n".toList)])
    (text := "echo 3\necho 5\n".toList) (cmd := none) (w := exWait ["t".toList, "u".toList] "c".toList)
    ⟨⟨by decide, by decide +kernel, fun _ => by decide +kernel⟩, by decide +kernel, by decide, rfl, by decide +kernel⟩
    (by decide) exRecipe_wf (by decide +kernel)) .nil

/-- A makefile to which `C87_every_partial` applies. -/
example : ∀ l ∈ skipBom ["a: b".toList, "\techo".toList], ¬ Reserved (firstWord (evalText (exRd []).posix l)) := by
  decide +kernel

/-! ## C88: cases, and lines that are not read as their expansion -/

/-- Words of plain characters. -/
theorem piece_plain {w : Str} (h : ∀ c ∈ w, c ∉ [' ', '\t', ':', '=', '$', '\\', '&']) : Piece w := by
  induction w with
  | nil => exact .nil
  | cons c w ih =>
    have hc := h c (by simp)
    simp only [List.mem_cons, List.not_mem_nil, or_false, not_or] at hc
    exact .char hc.1 hc.2.1 hc.2.2.2.1 hc.2.2.1 hc.2.2.2.2.1 hc.2.2.2.2.2.1 hc.2.2.2.2.2.2 (ih fun x hx => h x (by simp [hx]))

theorem piece_x : Piece "$(x)".toList := by
  have : Piece ('$' :: '(' :: ("x".toList ++ ')' :: [])) :=
    .ref (.inl ⟨rfl, rfl⟩) (by
      intro k hk
      have : ')' ∉ k := fun h => by have := hk.subset h; revert this; decide
      rw [List.count_eq_zero.2 this]; omega) (by decide) .nil
  exact this

theorem no_assign {t : Str} (h : parseVarAssignment t = none) (m : VMods) (q : Str) : ¬ AssignLine t m q := by
  intro h'
  have := (C90_modifiers _ _ _).2 h'
  rw [h] at this; cases this

/-- The words `a $(x)`. -/
def exLeads : List Lead := [⟨[], "a".toList⟩, ⟨[' '], "$(x)".toList⟩]

theorem exLeads_ok : WordRow exLeads := by
  constructor
  · intro p hp
    simp only [exLeads, List.mem_cons, List.not_mem_nil, or_false] at hp
    rcases hp with rfl | rfl
    · exact ⟨by decide, piece_plain (by decide), by decide, by decide⟩
    · exact ⟨by decide, piece_x, by decide, by decide⟩
  · simp [exLeads]

theorem ex_listing : Listing isBlank true ["a".toList, "t".toList, "u".toList] (targetText ["a".toList, "t u".toList]) := by
  have h3 : Listing isBlank true ["u".toList] ([] ++ "u".toList ++ ' ' :: []) :=
    .cons (by intro c h; cases h) ⟨_, _, rfl, by decide⟩ (quoted_plain (by decide)) rfl (.nil (by intro c h; cases h))
  have h2 : Listing isBlank true ["t".toList, "u".toList] ([] ++ "t".toList ++ ' ' :: ([] ++ "u".toList ++ ' ' :: [])) :=
    .cons (by intro c h; cases h) ⟨_, _, rfl, by decide⟩ (quoted_plain (by decide)) rfl h3
  exact Listing.cons (sp := []) (t := "a".toList) (b := ' ') (by intro c h; cases h) ⟨_, _, rfl, by decide⟩ (quoted_plain (by decide)) rfl h2

/-- `a $(x) &:: c d` -/
example : ∃ w, ruleLine (exRd "t u".toList) [] "a $(x) &:: c d".toList [] none = ([], .rule w none) := by
  obtain ⟨f, d, hf, hd, e⟩ := C88_rule_partial (exRd_literal "t u".toList) exLeads_ok (sep := [' ']) (by decide)
    (k := .ampdcolon) (rest := " c d".toList) (stale := []) trivial (semi := none) (s := []) (s1 := []) (s2 := [])
    (ts := ["a".toList, "t u".toList]) (by decide) (by decide) ex_listing (by unfold PlainWord; decide) (by decide)
    (no_assign (by decide +kernel)) (u := " c d".toList) (D := " c d".toList)
    ((unquoteEquals_iff _ _).2 (by decide)) (by decide) (by decide) (by decide)
  exact ⟨_, e⟩

/-- `a $(x): %.o : %.c` -/
example : ∃ w, ruleLine (exRd "t u".toList) [] "a $(x): %.o : %.c".toList [] none = ([], .rule w none) := by
  obtain ⟨f, d, hf, hd, e⟩ := (C88_static_partial (exRd_literal "t u".toList) exLeads_ok (sep := []) (by decide)
    (k := .colon) (rest := " %.o : %.c".toList) (stale := []) ⟨by decide, by decide⟩ (semi := none) (s := []) (s1 := []) (s2 := [])
    (ts := ["a".toList, "t u".toList]) (by decide) (by decide) ex_listing (by unfold PlainWord; decide) (by decide)
    (no_assign (by decide +kernel)) (u := " %.o : %.c".toList) (sp := [' ']) (w := "%.o".toList) (sp2 := [' '])
    (dt := " %.c".toList) ((unquoteEquals_iff _ _).2 (by decide)) (by decide) (by unfold Spaces; decide) (by decide) (by decide)
    (by unfold PatternChar; decide) (by decide) (n := "%.o".toList) (a := []) (b := ".o".toList)
    (by
      have h := lookupName_stripped "%.o".toList
      have e : lookupName "%.o".toList = "%.o".toList := by decide +kernel
      rw [e] at h; exact h)).1 (.unquoted (a := []) (k := 0) (by simp) (by simp))
  exact ⟨_, e⟩

/-- The word `$(x)`. -/
theorem ex_lead : WordRow [⟨[], "$(x)".toList⟩] :=
  ⟨fun p hp => by
    simp only [List.mem_singleton] at hp; subst hp
    exact ⟨by decide, piece_x, by decide, by decide⟩, by simp⟩

theorem ex_listing_a : Listing isBlank true ["a".toList] "a ".toList :=
  Listing.cons (sp := []) (t := "a".toList) (b := ' ') (by intro c h; cases h) ⟨_, _, rfl, by decide⟩
    (quoted_plain (by decide)) rfl (.nil (by intro c h; cases h))

/-- `$(x):$(x)` with a semicolon in the text after the colon. -/
example : ∃ w, ruleLine (exRd "a".toList) [] "$(x):b\\;;c".toList [] none = ([], .rule w (some "c".toList)) := by
  obtain ⟨f, d, hf, hd, e⟩ := C88_semicolon_partial (exRd_literal "a".toList) ex_lead (sep := []) (by decide)
    (k := .colon) (rest := "b\\;;c".toList) (stale := []) ⟨by decide, by decide⟩ (s := []) (s1 := []) (s2 := [])
    (ts := ["a".toList]) (by decide) (by decide) (names := ["a".toList]) ex_listing_a (by unfold PlainWord; decide) (by decide)
    (no_assign (by decide +kernel)) (u := "b\\;;c".toList) (D := "b\\;;c".toList)
    (pre := "b;".toList) (post := "c".toList) ((unquoteEquals_iff _ _).2 (by decide)) (by decide)
    (.quoted (a := "b".toList) (k := 0) (by decide) (by decide) (.unquoted (a := []) (k := 0) (by decide) (by decide))) (by decide)
  exact ⟨_, e⟩

/-- `$(x) c` where the value of `x` is `a :b`. -/
example : ∃ w, ruleLine (exRd "a :b".toList) [] "$(x) c".toList [] none = ([], .rule w none) := by
  obtain ⟨f, d, hf, hd, e⟩ := C88_colon_partial (exRd_literal "a :b".toList) ex_lead (rest := " c".toList) (stale := [])
    (.inr (.inl rfl)) (semi := none) (s := []) (s1 := []) (s2 := []) (T := "a :b".toList) (pre := "a ".toList) (post := "b".toList)
    (by decide) (.unquoted (a := "a ".toList) (k := 0) (by decide) (by decide)) (by decide) (by decide) (by decide)
    ex_listing_a (by unfold PlainWord; decide) (by decide) (by intro _ c hc; cases hc; decide) (no_assign (by decide +kernel))
    (u := " c".toList) (D := " c".toList) ((unquoteEquals_iff _ _).2 (by decide)) (by decide) (by decide) (by decide)
  exact ⟨_, e⟩

/-- `$(x)` where the value of `x` is blank, before a colon. -/
example : ruleLine (exRd [' ']) [] "$(x): b".toList [] none = ([], .noTargets) :=
  (C88_no_targets (exRd_literal [' ']) (sep := []) (by decide) (k := .colon) (rest := " b".toList) (stale := [])
    ⟨by decide, by decide⟩ (semi := none) (s := [])).2 ex_lead (ts := [[' ']]) (by decide) (by decide)

/-- Words without a colon. -/
example : ruleLine (exRd "t u".toList) [] "a $(x)".toList [] none = ([], .fatal .missingSeparator) := by
  have := C88_missing_separator (E := exRd "t u".toList) exLeads_ok (sep := []) (stale := []) (by decide) (semi := none)
    (s := []) (s1 := []) (ts := ["a".toList, "t u".toList]) (by decide) (by decide)
  have hne : ¬ ∀ t ∈ ["a".toList, "t u".toList], ∀ c ∈ t, isSpace c = true := by decide
  rw [if_neg hne] at this
  exact this

/-! ### Lines that are not read as their expansion -/

/-- **C88** (negative) With `x = a:  b` the line `$(x) cd` expands to `a:  b cd`, yet it is read as a rule with the prerequisites
`b c cd`: there is one more, which is in no text. -/
theorem C88_not_expansion : ruleLine (exRd "a:  b".toList) [] "$(x) cd".toList [] none =
    ([], .rule (exWait ["a".toList] "b c cd".toList) none) ∧
    ruleLine (exRd "a:  b".toList) [] "a:  b cd".toList [] none = ([], .rule (exWait ["a".toList] "b cd".toList) none) := by
  decide +kernel

/-- **C88** (negative) With `x = a.o: %.o` the static pattern rule `$(x): %.c` has the prerequisites `: %.c`. -/
theorem C88_not_static : ruleLine (exRd "a.o: %.o".toList) [] "$(x): %.c".toList [] none =
    ([], .rule { names := ["a.o".toList], grouped := false, pattern := some (.found [] '%' ".o".toList),
                 deps := some ": %.c".toList, twoColon := false, pfx := '\t' } none) ∧
    ruleLine (exRd "a.o: %.o".toList) [] "a.o: %.o: %.c".toList [] none =
    ([], .rule { names := ["a.o".toList], grouped := false, pattern := some (.found [] '%' ".o".toList),
                 deps := some "%.c".toList, twoColon := false, pfx := '\t' } none) := by
  decide +kernel

/-- **C88** (negative) The target `y=z` is taken for three: but not when it comes out of a variable. -/
theorem C88_not_equals : ruleLine (exRd "y=z".toList) [] "x y=z: c".toList [] none =
    ([], .rule (exWait ["x".toList, "y".toList, "=".toList, "z".toList] "c".toList) none) ∧
    ruleLine (exRd "y=z".toList) [] "x $(x): c".toList [] none =
    ([], .rule (exWait ["x".toList, "y=z".toList] "c".toList) none) := by
  decide +kernel

/-- **C88** (negative) The search goes on after the end of a line that ends in a double colon: what is in memory after it, here the
text of a comment or a command, can turn the rule into a variable definition without a name. -/
theorem C88_not_end :
    ruleLine (exRd []) [] (cutLine (exRd []) "a::#=b".toList).1 (cutLine (exRd []) "a::#=b".toList).2.1
      (cutLine (exRd []) "a::#=b".toList).2.2 = ([], .targetVar ["a".toList] {} "=b".toList) ∧
    ruleLine (exRd []) [] (cutLine (exRd []) "a::;=b".toList).1 (cutLine (exRd []) "a::;=b".toList).2.1
      (cutLine (exRd []) "a::;=b".toList).2.2 ≠ ruleLine (exRd []) [] "a::".toList [] (some "=b".toList) := by
  decide +kernel

/-! ## C89: lines that define target-specific variables -/

/-- **C89** (partial: as `C88_rule_partial`; the command has no continuation lines) If the text after the colon is an assignment, with or
without modifiers, the line defines a variable for its targets.  The text of the assignment is kept as it is written: it is
not expanded when the line is read, and a semicolon belongs to it. -/
theorem C89_line_partial (hx : LiteralText E.expand) {p : Lead} {ps : List Lead} (hps : WordRow (p :: ps)) {sep : Str}
    (hsep : ∀ c ∈ sep, isBlank c = true) {k : RuleSign} {rest stale : Str} (hk : k.Ends rest stale)
    {semi : Option Str} {s s1 : σ} {ts : List Str} (he : expandAll E.expand s ((p :: ps).map (·.word)) = (s1, ts))
    (ht : ∀ t ∈ ts, ':' ∉ t ∧ (semi = none → ';' ∉ t))
    {names : List Str} (hl : Listing isBlank true names (targetText ts)) (hn : ∀ w ∈ names, PlainWord w)
    (hne : names ≠ []) {m : VMods} {q : Str} (ha : AssignLine rest m q) (hc : ∀ c ∈ semi, '\n' ∉ c) :
    ∃ f : Str → Str, (∀ w, Stripped w (f w)) ∧
      ruleLine E s (leadText (p :: ps) ++ (sep ++ (k.text ++ rest))) stale semi =
        (s1, .targetVar (names.map f) m (q ++ ((semi.map (';' :: ·)).getD []))) := by
  refine ⟨lookupName, lookupName_stripped, ?_⟩
  have ha' := (C90_modifiers _ _ _).2 ha
  have two : ∀ b : Bool, (if (if b then [':'] else ([] : Str)).head? = some ':' then (if b then [':'] else ([] : Str)).tail
      else if b then [':'] else ([] : Str)) = [] := by decide
  rw [ruleLine_sign hx hps hsep hk he ht hl hn, if_neg hne]
  unfold afterColon
  simp only [two, List.nil_append, ha']
  cases semi with
  | none => simp
  | some c =>
    have h : '\n' ∉ ';' :: c := by simp [hc c rfl]
    simp only [C17_no_newline E.posix _ h]
    rfl

/-- `a $(x): export y = 1;2` -/
example : ∃ n, ruleLine (exRd "t u".toList) [] "a $(x): export y = $(x)".toList [] (some "2".toList) =
    ([], .targetVar n { exportV := true } "y = $(x);2".toList) := by
  obtain ⟨f, hf, e⟩ := C89_line_partial (exRd_literal "t u".toList) exLeads_ok (sep := []) (by decide)
    (k := .colon) (rest := " export y = $(x)".toList) (stale := []) ⟨by decide, by decide⟩ (semi := some "2".toList) (s := []) (s1 := [])
    (ts := ["a".toList, "t u".toList]) (by decide) (by decide) ex_listing (by unfold PlainWord; decide) (by decide)
    (m := { exportV := true }) (q := "y = $(x)".toList) ((C90_modifiers _ _ _).1 (by decide +kernel)) (by decide)
  exact ⟨_, e⟩

end Remake
