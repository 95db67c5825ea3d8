import Verif.Reader.Lemmas
import Verif.Reader.Lemmas2
/-!
# Properties of the reading of makefiles: C87 (recipes), C88 (rule lines), C90 (modifiers)
-/
set_option linter.unusedVariables false
set_option linter.unusedSimpArgs false
namespace Remake
open Spec

variable {σ : Type} {E : RdEnv σ}

/-! ## C90: modifiers of assignments -/

theorem assigns_iff (p : Str) : Assigns p ↔ (parseVariableDefinition p).isSome = true := by
  constructor
  · rintro ⟨n, f, v, h⟩
    rw [(C27_recognised p n f v).2 h]; rfl
  · intro h
    obtain ⟨⟨n, f, v⟩, e⟩ := Option.isSome_iff_exists.1 h
    exact ⟨n, f, v, (C27_recognised p n f v).1 e⟩

theorem wordThen_iff {w : Str} (hw : ∀ c ∈ w, isSpace c = false) (p q : Str) :
    WordThen w p q ↔ tokenPrefix p = w ∧ nextToken (endOfToken p) = q := by
  constructor
  · rintro ⟨sp, rfl, hsp, hq⟩
    have hstop : ∀ c, (sp ++ q).head? = some c → isSpace c = true := by
      intro c hc
      cases sp with
      | nil =>
        by_cases h : q = []
        · subst h; cases hc
        · exact absurd rfl (hq h).1
      | cons b sp => cases hc; exact hsp c (by simp)
    have e1 : tokenPrefix (w ++ sp ++ q) = w := by
      unfold tokenPrefix
      rw [List.append_assoc, List.takeWhile_append_of_pos (fun c hc => by simp [hw c hc])]
      cases h : sp ++ q with
      | nil => simp
      | cons c r => rw [List.takeWhile_cons, hstop c (by rw [h]; rfl)]; simp
    have e2 : endOfToken (w ++ sp ++ q) = sp ++ q := by
      unfold endOfToken
      rw [List.append_assoc, List.dropWhile_append_of_pos (fun c hc => by simp [hw c hc])]
      cases h : sp ++ q with
      | nil => simp
      | cons c r => rw [List.dropWhile_cons, hstop c (by rw [h]; rfl)]; simp
    refine ⟨e1, ?_⟩
    rw [e2, nextToken, List.dropWhile_append_of_pos hsp]
    cases q with
    | nil => rfl
    | cons c q =>
      obtain ⟨d, ds, h, hd⟩ := (hq (by simp)).2
      cases h
      simp [List.dropWhile_cons, hd]
  · rintro ⟨rfl, rfl⟩
    refine ⟨(endOfToken p).takeWhile isSpace, ?_, fun c hc => mem_takeWhile_imp hc, ?_⟩
    · rw [List.append_assoc, nextToken, List.takeWhile_append_dropWhile]
      exact (List.takeWhile_append_dropWhile).symm
    · intro hne
      constructor
      · intro h
        have h1 : endOfToken p = nextToken (endOfToken p) := by
          have := List.takeWhile_append_dropWhile (p := isSpace) (l := endOfToken p)
          rw [h] at this; exact this.symm
        cases he : endOfToken p with
        | nil => rw [he] at hne; exact hne rfl
        | cons c r =>
          have h2 := List.head?_dropWhile_not (fun c => !isSpace c) p
          have h3 : (p.dropWhile fun c => !isSpace c) = c :: r := he
          rw [h3] at h2
          have h4 : isSpace c = true := by simpa using h2
          rw [he, List.takeWhile_cons, h4] at h
          simp at h
      · cases he : nextToken (endOfToken p) with
        | nil => exact absurd he hne
        | cons c r =>
          refine ⟨c, r, rfl, ?_⟩
          have h2 := List.head?_dropWhile_not isSpace (endOfToken p)
          have h3 : ((endOfToken p).dropWhile isSpace) = c :: r := he
          rw [h3] at h2
          simpa using h2

theorem modifier_text (k : Modifier) : ∀ c ∈ k.text, isSpace c = false := by
  cases k <;> decide

theorem varAssignGo_modified (m : VMods) (p : Str) : ∀ m' q, varAssignGo m p = some (m', q) → Modified p m m' q := by
  fun_induction varAssignGo m p with
  | case1 m p h =>
    intro m' q e
    cases e
    exact .assign ((assigns_iff p).2 h)
  | case2 m p h w next hw =>
    intro m' q e
    cases e
    exact .define (fun ha => h ((assigns_iff p).1 ha)) ((wordThen_iff (by decide) p _).2 ⟨hw, rfl⟩)
  | case3 m p h w next _ hw =>
    intro m' q e
    cases e
    exact .undefine (fun ha => h ((assigns_iff p).1 ha)) ((wordThen_iff (by decide) p _).2 ⟨hw, rfl⟩)
  | case4 => intro m' q e; cases e
  | case5 m p h w next h1 h2 hk m1 hn ih =>
    intro m' q e
    have ha : ¬ Assigns p := fun ha => h ((assigns_iff p).1 ha)
    have key : ∀ k : Modifier, w = k.text → m1 = k.set m → Modified p m m' q := by
      intro k hw hm
      refine .modifier (k := k) ha ((wordThen_iff (modifier_text k) p _).2 ⟨hw, rfl⟩) hn ?_
      rw [← hm]
      exact ih _ _ e
    rcases hk with hk | hk | hk
    · exact key .export_ hk (by simp [m1, hk, Modifier.set])
    · have : ¬ w = "export".toList := by rw [hk]; decide
      exact key .override hk (by simp [m1, hk, Modifier.set])
    · exact key .private_ hk (by simp [m1, hk, Modifier.set])
  | case6 => intro m' q e; cases e

theorem modified_varAssignGo {p : Str} {m m' : VMods} {q : Str} (h : Modified p m m' q) :
    varAssignGo m p = some (m', q) := by
  induction h with
  | @assign p m h =>
    rw [varAssignGo.eq_def, if_pos ((assigns_iff p).1 h)]
  | @define p q m h hw =>
    obtain ⟨h1, h2⟩ := (wordThen_iff (by decide) p _).1 hw
    rw [varAssignGo.eq_def, if_neg (fun ha => h ((assigns_iff p).2 ha))]
    simp only [h1, h2, if_true]
  | @undefine p q m h hw =>
    obtain ⟨h1, h2⟩ := (wordThen_iff (by decide) p _).1 hw
    rw [varAssignGo.eq_def, if_neg (fun ha => h ((assigns_iff p).2 ha))]
    have : ¬ "undefine".toList = "define".toList := by decide
    simp only [h1, h2, if_true, if_neg this]
  | @modifier k p r q m m' h hw hr hm ih =>
    obtain ⟨h1, h2⟩ := (wordThen_iff (modifier_text k) p _).1 hw
    rw [varAssignGo.eq_def, if_neg (fun ha => h ((assigns_iff p).2 ha))]
    simp only [h1, h2]
    have d1 : ¬ k.text = "define".toList := by cases k <;> decide
    have d2 : ¬ k.text = "undefine".toList := by cases k <;> decide
    have d3 : k.text = "export".toList ∨ k.text = "override".toList ∨ k.text = "private".toList := by cases k <;> decide
    rw [if_neg d1, if_neg d2, dif_pos d3, if_neg hr]
    have d4 : (if k.text = "export".toList then { m with exportV := true }
        else if k.text = "override".toList then { m with overrideV := true }
        else { m with privateV := true }) = k.set m := by
      cases k with
      | export_ => rw [if_pos (by decide)]; rfl
      | override => rw [if_neg (by decide), if_pos (by decide)]; rfl
      | private_ => rw [if_neg (by decide), if_neg (by decide)]; rfl
    rw [d4]
    exact ih

/-- **C90** A line is an assignment exactly if it has the form of one: any number of the modifiers `export`, `override` and
`private` in any order, and then a variable assignment, or `define` or `undefine` and a name.  Each modifier stands for
itself; a word that is assigned to is no modifier. -/
theorem C90_modifiers (line : Str) (m : VMods) (q : Str) :
    parseVarAssignment line = some (m, q) ↔ AssignLine line m q := by
  unfold parseVarAssignment AssignLine
  constructor
  · intro h
    by_cases hn : nextToken line = []
    · rw [if_pos hn] at h; cases h
    · rw [if_neg hn] at h
      refine ⟨line.takeWhile isSpace, nextToken line, (List.takeWhile_append_dropWhile).symm,
        fun c hc => mem_takeWhile_imp hc, ?_, varAssignGo_modified _ _ _ _ h⟩
      cases he : nextToken line with
      | nil => exact absurd he hn
      | cons c r =>
        refine ⟨c, r, rfl, ?_⟩
        have h2 := List.head?_dropWhile_not isSpace line
        have h3 : (line.dropWhile isSpace) = c :: r := he
        rw [h3] at h2
        simpa using h2
  · rintro ⟨sp, p, rfl, hsp, ⟨c, r, rfl, hc⟩, hm⟩
    have e : nextToken (sp ++ c :: r) = c :: r := by
      rw [nextToken, List.dropWhile_append_of_pos hsp]; simp [List.dropWhile_cons, hc]
    rw [e, if_neg (by simp)]
    exact modified_varAssignGo hm

/-- Where the parts are: `export` and `override` before an assignment; `export` assigned to. -/
example : AssignLine " export  override X = 1".toList { exportV := true, overrideV := true } "X = 1".toList ∧
    AssignLine "export = 1".toList {} "export = 1".toList ∧
    ∀ m q, ¬ AssignLine "override export".toList m q := by
  refine ⟨(C90_modifiers _ _ _).1 (by decide +kernel), (C90_modifiers _ _ _).1 (by decide +kernel), ?_⟩
  intro m q h
  have h1 := (C90_modifiers _ _ _).2 h
  have h2 : parseVarAssignment "override export".toList = none := by decide +kernel
  rw [h2] at h1; cases h1

/-! ## C88: rule lines -/

theorem unquoteEquals_iff (t u : Str) : EqualsUndone t u ↔ u = unquoteEquals t := by
  have key : ∀ p, ReadsAs '=' t p → (match p with
      | .lit s => s
      | .pat a b => a ++ '=' :: b) = unquoteEquals t := by
    intro p hp
    have h := ReadsAs_findCharUnquote (by decide) hp
    unfold unquoteEquals
    cases hq : findCharUnquote '=' t with
    | none s => rw [hq] at h; subst h; rfl
    | found a c b =>
      have hc := findCharUnquote_char hq
      rw [hq] at h; subst h; subst hc; rfl
  constructor
  · rintro ⟨p, hp, rfl⟩
    exact key p hp
  · rintro rfl
    obtain ⟨p, hp⟩ := ReadsAs_exists (stop := '=') t
    exact ⟨p, hp, (key p hp).symm⟩

/-- Up to the colon. -/
theorem ruleLine_sign (hx : LiteralText E.expand) {p : Lead} {ps : List Lead} (hps : WordRow (p :: ps)) {sep : Str}
    (hsep : ∀ c ∈ sep, isBlank c = true) {k : RuleSign} {rest stale : Str} (hk : k.Ends rest stale)
    {semi : Option Str} {s s1 : σ} {ts : List Str} (he : expandAll E.expand s ((p :: ps).map (·.word)) = (s1, ts))
    (ht : ∀ t ∈ ts, ':' ∉ t ∧ (semi = none → ';' ∉ t))
    {names : List Str} (hl : Listing isBlank true names (targetText ts)) (hn : ∀ w ∈ names, PlainWord w) :
    ruleLine E s (leadText (p :: ps) ++ (sep ++ (k.text ++ rest))) stale semi =
      if names = [] then (s1, .noTargets)
      else afterColon E s1 (names.map lookupName) k.grouped (if k.double then [':'] else []) rest semi semi := by
  have hp := hps.1 p (by simp)
  have hps' : WordRow ps := ⟨fun q hq => hps.1 q (by simp [hq]), fun q hq => hps.2 q (by
    simpa using List.mem_of_mem_tail hq)⟩
  have hne : ∀ q ∈ ps, q.sep ≠ [] := fun q hq => hps.2 q (by simpa using hq)
  have hs : StopsWord (leadText ps ++ (sep ++ (k.text ++ rest))) :=
    leads_stop (fun q hq => (hps'.1 q hq).1) hne (blanks_stop hsep (.inr (sign_stops k rest)))
  obtain ⟨t, ht', em⟩ := getNextMword_piece (stale := stale) hp.1 hp.2.1 hp.2.2.1 hp.2.2.2 hs
  have el : leadText (p :: ps) ++ (sep ++ (k.text ++ rest)) =
      p.sep ++ (p.word ++ (leadText ps ++ (sep ++ (k.text ++ rest)))) := by
    simp [leadText, List.append_assoc]
  simp only [List.map_cons, expandAll, Prod.mk.injEq] at he
  obtain ⟨rfl, rfl⟩ := he
  simp only [List.mem_cons, forall_eq_or_imp] at ht
  have hc := colonLoop_sign hx (semi := semi) hsep hk ps (E.expand s p.word).1 [] (E.expand s p.word).2 hps' hne
    ht.1.1 ht.1.2 ht.2
  have hl' : parseFileSeq E.fs {} none (fun _ => false)
      (targetText ((E.expand s p.word).2 :: (expandAll E.expand (E.expand s p.word).1 (ps.map (·.word))).2)) =
        some (names.map lookupName, []) := by
    have := parse_listing (env := E.fs) (pfx := none) (stop := fun _ => false) rfl hl
      (rest := []) (.inr ⟨rfl, rfl⟩) (fun w hw => (hn w hw).1) [] (by intro c hc; cases hc)
    rw [List.nil_append, List.append_nil] at this
    rw [parseFileSeq, this, collect_plain hn]; rfl
  have htext : ∀ (a : Str) (l : List Str), a ++ (l.flatMap fun t => ' ' :: t) ++ [' '] = targetText (a :: l) := by
    intro a l
    induction l generalizing a with
    | nil => simp [targetText]
    | cons b l ih => simpa [targetText, List.append_assoc] using congrArg (a ++ ' ' :: ·) (ih b)
  have hgo : colonDone E semi (colonLoop E.expand (E.expand s p.word).1 [] (E.expand s p.word).2
        (leadText ps ++ (sep ++ (k.text ++ rest))) stale semi).1 (colonLoop E.expand (E.expand s p.word).1 [] (E.expand s p.word).2
        (leadText ps ++ (sep ++ (k.text ++ rest))) stale semi).2 =
      (if names = [] then ((expandAll E.expand (E.expand s p.word).1 (ps.map (·.word))).1, RuleOut.noTargets)
      else afterColon E (expandAll E.expand (E.expand s p.word).1 (ps.map (·.word))).1 (names.map lookupName)
        k.grouped (if k.double then [':'] else []) rest semi semi) := by
    rw [hc]
    simp only [List.nil_append, colonDone]
    have hg : decide (((E.expand s p.word).2 ++
          ((expandAll E.expand (E.expand s p.word).1 (ps.map (·.word))).2.flatMap fun t => ' ' :: t) ++
          ' ' :: (if k.grouped then ['&'] else [])).getLast? = some '&') = k.grouped := by
      cases k.grouped <;> simp
    rw [hg]
    have hd : (if k.grouped = true then ((E.expand s p.word).2 ++
          ((expandAll E.expand (E.expand s p.word).1 (ps.map (·.word))).2.flatMap fun t => ' ' :: t) ++
          ' ' :: (if k.grouped then ['&'] else [])).dropLast else (E.expand s p.word).2 ++
          ((expandAll E.expand (E.expand s p.word).1 (ps.map (·.word))).2.flatMap fun t => ' ' :: t) ++
          ' ' :: (if k.grouped then ['&'] else [])) =
        targetText ((E.expand s p.word).2 :: (expandAll E.expand (E.expand s p.word).1 (ps.map (·.word))).2) := by
      rw [← htext]
      cases k.grouped with
      | false => simp
      | true => simp [List.dropLast_append]
    rw [hd, hl']
    cases names with
    | nil => simp
    | cons n names => simp
  unfold ruleLine
  rw [el, em]
  rcases ht' with rfl | rfl
  · exact hgo
  · exact hgo

theorem hasColon_false : ∀ {t rev : Str}, ':' ∉ t → hasColon rev t = false := by
  intro t
  induction t with
  | nil => intro rev h; rfl
  | cons c t ih =>
    intro rev h
    simp only [List.mem_cons, not_or] at h
    rw [hasColon, if_neg (fun hc => h.1 hc.1.symm), ih h.2]

theorem ruleRest_plain {fs : FsEnv} {names : List Str} {g two : Bool} {pfx : Char} {t : Str} {cmd : Option Str}
    (h : ':' ∉ t) :
    ruleRest fs names g two pfx t cmd =
      .rule { names := names, grouped := g, pattern := none,
              deps := if stripWhitespace t = [] then none else some (stripWhitespace t), twoColon := two, pfx := pfx } cmd := by
  simp only [ruleRest, hasColon_false h, Bool.false_eq_true, if_false]

/-- After the colon. -/
theorem afterColon_sign (hx : LiteralText E.expand) {g two : Bool} {rest : Str}
    (ha : parseVarAssignment rest = none) {s s2 : σ} {D : Str} (hD : E.expand s (unquoteEquals rest) = (s2, D))
    (names : List Str) (semi : Option Str) :
    afterColon E s names g (if two then [':'] else []) rest semi semi =
      (s2, match semi with
        | some c => ruleRest E.fs names g two (E.cmdPrefix s) D (some c)
        | none => match findCharUnquote ';' D with
          | .none t => ruleRest E.fs names g two (E.cmdPrefix s) t none
          | .found pre _ post => ruleRest E.fs names g two (E.cmdPrefix s) pre (some post)) := by
  have key : ∀ after, (decide (after.head? = some ':') = two) → ((if after.head? = some ':' then after.tail else after) = []) →
      afterColon E s names g after rest semi semi =
      (s2, match semi with
        | some c => ruleRest E.fs names g two (E.cmdPrefix s) D (some c)
        | none => match findCharUnquote ';' D with
          | .none t => ruleRest E.fs names g two (E.cmdPrefix s) t none
          | .found pre _ post => ruleRest E.fs names g two (E.cmdPrefix s) pre (some post)) := by
    intro after h1 h2
    unfold afterColon
    simp only [decide_eq_true_eq, h2, h1, List.nil_append, ha]
    by_cases hr : rest = []
    · subst hr
      have e : unquoteEquals [] = [] := by decide
      rw [e, hx _ _ (by simp)] at hD
      cases hD
      simp only [if_true, prereqText, nextToken, true_or, List.dropWhile_nil]
      cases semi with
      | some c => rfl
      | none => rfl
    · simp only [if_neg hr, hD, prereqText, List.nil_append, ne_eq, not_true, and_false, if_false, List.length_nil,
        List.take_zero]
      cases semi with
      | some c => simp
      | none =>
        simp only [Option.isSome_none, Bool.false_eq_true, or_self, if_false, hr]
        cases findCharUnquote ';' D <;> rfl
  cases two with
  | false => exact key _ (by simp) (by simp)
  | true => exact key _ (by simp) (by simp)

/-- **C88** (partial: rules whose colon is in the text itself, with plain file names; see also `C88_static_partial` and
`C88_colon_partial`).  A line of words, a colon sign and further text is a rule.  Its targets are the names listed by
the expansions of the words, its prerequisites the expansion of the text after the sign without the white space around
it, its first command what follows the semicolon of the line. -/
theorem C88_rule_partial (hx : LiteralText E.expand) {p : Lead} {ps : List Lead} (hps : WordRow (p :: ps)) {sep : Str}
    (hsep : ∀ c ∈ sep, isBlank c = true) {k : RuleSign} {rest stale : Str} (hk : k.Ends rest stale)
    {semi : Option Str} {s s1 s2 : σ} {ts : List Str} (he : expandAll E.expand s ((p :: ps).map (·.word)) = (s1, ts))
    (ht : ∀ t ∈ ts, ':' ∉ t ∧ (semi = none → ';' ∉ t))
    {names : List Str} (hl : Listing isBlank true names (targetText ts)) (hn : ∀ w ∈ names, PlainWord w)
    (hne : names ≠ []) (ha : ∀ m q, ¬ AssignLine rest m q) {u D : Str} (hu : EqualsUndone rest u)
    (hD : E.expand s1 u = (s2, D)) (hc : ':' ∉ D) (hs : semi = none → ';' ∉ D) :
    ∃ (f : Str → Str) (d : Str), (∀ w, Stripped w (f w)) ∧ IsTrim D d ∧
      ruleLine E s (leadText (p :: ps) ++ (sep ++ (k.text ++ rest))) stale semi =
        (s2, .rule { names := names.map f, grouped := k.grouped, pattern := none,
                     deps := if d = [] then none else some d, twoColon := k.double, pfx := E.cmdPrefix s1 } semi) := by
  refine ⟨lookupName, stripWhitespace D, lookupName_stripped, isTrim_strip D, ?_⟩
  have ha' : parseVarAssignment rest = none := by
    cases h : parseVarAssignment rest with
    | none => rfl
    | some q => exact absurd ((C90_modifiers _ _ _).1 h) (ha _ _)
  have hD' : E.expand s1 (unquoteEquals rest) = (s2, D) := by
    have := (unquoteEquals_iff rest u).1 hu
    rw [← this]; exact hD
  rw [ruleLine_sign hx hps hsep hk he ht hl hn, if_neg hne,
    afterColon_sign hx ha' hD']
  cases semi with
  | some c => simp only [ruleRest_plain hc]
  | none => simp only [findCharUnquote_none (hs rfl), ruleRest_plain hc]

/-- **C88** (partial, as before) If the line itself has no semicolon, the first one in the expansion of the text after
the colon begins the first command. -/
theorem C88_semicolon_partial (hx : LiteralText E.expand) {p : Lead} {ps : List Lead} (hps : WordRow (p :: ps)) {sep : Str}
    (hsep : ∀ c ∈ sep, isBlank c = true) {k : RuleSign} {rest stale : Str} (hk : k.Ends rest stale)
    {s s1 s2 : σ} {ts : List Str} (he : expandAll E.expand s ((p :: ps).map (·.word)) = (s1, ts))
    (ht : ∀ t ∈ ts, ':' ∉ t ∧ ';' ∉ t)
    {names : List Str} (hl : Listing isBlank true names (targetText ts)) (hn : ∀ w ∈ names, PlainWord w)
    (hne : names ≠ []) (ha : ∀ m q, ¬ AssignLine rest m q) {u D pre post : Str} (hu : EqualsUndone rest u)
    (hD : E.expand s1 u = (s2, D)) (hr : ReadsAs ';' D (.pat pre post)) (hc : ':' ∉ pre) :
    ∃ (f : Str → Str) (d : Str), (∀ w, Stripped w (f w)) ∧ IsTrim pre d ∧
      ruleLine E s (leadText (p :: ps) ++ (sep ++ (k.text ++ rest))) stale none =
        (s2, .rule { names := names.map f, grouped := k.grouped, pattern := none,
                     deps := if d = [] then none else some d, twoColon := k.double, pfx := E.cmdPrefix s1 }
          (some post)) := by
  refine ⟨lookupName, stripWhitespace pre, lookupName_stripped, isTrim_strip pre, ?_⟩
  have ha' : parseVarAssignment rest = none := by
    cases h : parseVarAssignment rest with
    | none => rfl
    | some q => exact absurd ((C90_modifiers _ _ _).1 h) (ha _ _)
  have hD' : E.expand s1 (unquoteEquals rest) = (s2, D) := by
    have := (unquoteEquals_iff rest u).1 hu
    rw [← this]; exact hD
  have hf := ReadsAs_findCharUnquote (by decide) hr
  have hf' : ∃ c, findCharUnquote ';' D = .found pre c post := by
    cases h : findCharUnquote ';' D with
    | none t => rw [h] at hf; cases hf
    | found a c b => rw [h] at hf; cases hf; exact ⟨c, rfl⟩
  obtain ⟨c, hf'⟩ := hf'
  rw [ruleLine_sign hx hps hsep hk he (fun t h => ⟨(ht t h).1, fun _ => (ht t h).2⟩) hl hn, if_neg hne,
    afterColon_sign hx ha' hD']
  simp only [hf', ruleRest_plain hc]

/-- **C88** A rule whose words expand to nothing has no targets, and so has a line that begins with a colon sign. -/
theorem C88_no_targets (hx : LiteralText E.expand) {sep : Str} (hsep : ∀ c ∈ sep, isBlank c = true) {k : RuleSign}
    {rest stale : Str} (hk : k.Ends rest stale) {semi : Option Str} {s : σ} :
    ruleLine E s (sep ++ (k.text ++ rest)) stale semi = (s, .noTargets) ∧
    ∀ {p : Lead} {ps : List Lead}, WordRow (p :: ps) → ∀ {s1 : σ} {ts : List Str},
      expandAll E.expand s ((p :: ps).map (·.word)) = (s1, ts) → (∀ t ∈ ts, ∀ c ∈ t, isBlank c = true) →
      ruleLine E s (leadText (p :: ps) ++ (sep ++ (k.text ++ rest))) stale semi = (s1, .noTargets) := by
  constructor
  · unfold ruleLine
    rw [getNextMword_sign hsep hk]
    cases k <;> rfl
  · intro p ps hps s1 ts he ht
    have hsp : Spaces (targetText ts) := by
      intro c hc
      simp only [targetText, List.mem_flatMap, List.mem_append, List.mem_singleton] at hc
      obtain ⟨t, ht1, h | h⟩ := hc
      · simp [isSpace, ht t ht1 c h]
      · subst h; decide
    have := ruleLine_sign (E := E) hx hps hsep hk (semi := semi) he (fun t h => ⟨fun hc => by
        have := ht t h _ hc; revert this; decide, fun _ hc => by have := ht t h _ hc; revert this; decide⟩)
      (.nil hsp) (by simp) (names := [])
    rw [this, if_pos rfl]

/-- **C88** A line of words without a colon sign, whose expansions have no colon, is an error — missing separator — unless
all of them expand to nothing: then the line is skipped. -/
theorem C88_missing_separator {p : Lead} {ps : List Lead} (hps : WordRow (p :: ps)) {sep stale : Str}
    (hsep : ∀ c ∈ sep, isBlank c = true) {semi : Option Str} {s s1 : σ} {ts : List Str}
    (he : expandAll E.expand s ((p :: ps).map (·.word)) = (s1, ts))
    (ht : ∀ t ∈ ts, ':' ∉ t ∧ (semi = none → ';' ∉ t)) :
    ruleLine E s (leadText (p :: ps) ++ sep) stale semi =
      (s1, if ∀ t ∈ ts, ∀ c ∈ t, isSpace c = true then .nothing else .fatal .missingSeparator) := by
  have hp := hps.1 p (by simp)
  have hps' : WordRow ps := ⟨fun q hq => hps.1 q (by simp [hq]), fun q hq => hps.2 q (by
    simpa using List.mem_of_mem_tail hq)⟩
  have hne : ∀ q ∈ ps, q.sep ≠ [] := fun q hq => hps.2 q (by simpa using hq)
  have hs : StopsWord (leadText ps ++ sep) := by
    refine leads_stop (fun q hq => (hps'.1 q hq).1) hne ?_
    have := blanks_stop (t := []) hsep (.inr (.inl rfl))
    simpa using this
  obtain ⟨t, ht', em⟩ := getNextMword_piece (stale := stale) hp.1 hp.2.1 hp.2.2.1 hp.2.2.2 hs
  have el : leadText (p :: ps) ++ sep = p.sep ++ (p.word ++ (leadText ps ++ sep)) := by
    simp [leadText, List.append_assoc]
  simp only [List.map_cons, expandAll, Prod.mk.injEq] at he
  obtain ⟨rfl, rfl⟩ := he
  simp only [List.mem_cons, forall_eq_or_imp] at ht
  have hc := colonLoop_eol (x := E.expand) (stale := stale) (semi := semi) hsep ps (E.expand s p.word).1 []
    (E.expand s p.word).2 hps' hne ht.1.1 ht.1.2 ht.2
  have hnt : ∀ a : Str, nextToken a = [] ↔ ∀ c ∈ a, isSpace c = true := by
    intro a
    unfold nextToken
    induction a with
    | nil => simp
    | cons c a ih =>
      rw [List.dropWhile_cons]
      cases h : isSpace c with
      | false => simp [h]
      | true => simp [h, ih]
  have hgo : colonDone E semi (colonLoop E.expand (E.expand s p.word).1 [] (E.expand s p.word).2
        (leadText ps ++ sep) stale semi).1 (colonLoop E.expand (E.expand s p.word).1 [] (E.expand s p.word).2
        (leadText ps ++ sep) stale semi).2 =
      ((expandAll E.expand (E.expand s p.word).1 (ps.map (·.word))).1,
        if ∀ t ∈ (E.expand s p.word).2 :: (expandAll E.expand (E.expand s p.word).1 (ps.map fun x : Lead => x.word)).2,
          ∀ c ∈ t, isSpace c = true then .nothing else .fatal .missingSeparator) := by
    rw [hc]
    simp only [colonDone, List.nil_append]
    congr 1
    have hiff : nextToken ((E.expand s p.word).2 ++
          ((expandAll E.expand (E.expand s p.word).1 (ps.map (·.word))).2.flatMap fun t => ' ' :: t)) = [] ↔
        ∀ t ∈ (E.expand s p.word).2 :: (expandAll E.expand (E.expand s p.word).1 (ps.map (·.word))).2,
          ∀ c ∈ t, isSpace c = true := by
      rw [hnt]
      simp only [List.mem_append, List.mem_flatMap, List.mem_cons, forall_eq_or_imp]
      constructor
      · intro h
        exact ⟨fun c hc => h c (.inl hc), fun t ht c hc => h c (.inr ⟨t, ht, .inr hc⟩)⟩
      · rintro ⟨h1, h2⟩ c (hc | ⟨t, ht, rfl | hc⟩)
        · exact h1 c hc
        · decide
        · exact h2 t ht c hc
    by_cases h : nextToken ((E.expand s p.word).2 ++
          ((expandAll E.expand (E.expand s p.word).1 (ps.map (·.word))).2.flatMap fun t => ' ' :: t)) = []
    · rw [if_pos h, if_pos (hiff.1 h)]
    · rw [if_neg h, if_neg (fun h' => h (hiff.2 h'))]
  unfold ruleLine
  rw [el, em]
  rcases ht' with rfl | rfl
  · exact hgo
  · exact hgo

/-! ### Static pattern rules -/

/-- Characters that stand for themselves in a target pattern. -/
def PatternChar (c : Char) : Prop := isSpace c = false ∧ c ≠ ':' ∧ c ≠ '\\' ∧ c ≠ '('

theorem quoted_plain {find : Char → Bool} {e : Bool} {w : Str} (h : ∀ c ∈ w, find c = false ∧ c ≠ '\\') :
    Quoted find e w w := by
  induction w with
  | nil => exact .nil
  | cons c w ih =>
    have := Quoted.char (k := 0) (h c (by simp)).1 (h c (by simp)).2 (ih fun x hx => h x (by simp [hx])) (e := e)
    simpa using this

theorem hasColon_here : ∀ {a rev b : Str}, (∀ c ∈ a, c ≠ '\\') → (a = [] → bsCount rev = 0) →
    hasColon rev (a ++ ':' :: b) = true := by
  intro a
  induction a with
  | nil => intro rev b _ h; rw [List.nil_append, hasColon, if_pos ⟨rfl, by rw [h rfl]⟩]
  | cons c a ih =>
    intro rev b h _
    rw [List.cons_append, hasColon]
    split
    · rfl
    · exact ih (fun x hx => h x (by simp [hx])) (fun _ => by simp [bsCount, h c (by simp)])

theorem findMap_colon {c : Char} (h : PatternChar c) : findMap { noglob := true } (· == ':') c = false := by
  have h1 : isBlank c = false := by have := h.1; simp [isSpace] at this; exact this.1
  simp [findMap, h.2.1, h1]

/-- The pattern before the second colon. -/
theorem parse_pattern {fs : FsEnv} {sp w sp2 dt : Str} (hsp : Spaces sp) (hw : w ≠ []) (hc : ∀ c ∈ w, PatternChar c)
    (hsp2 : ∀ c ∈ sp2, isBlank c = true) :
    parseFileSeq fs { noglob := true } none (· == ':') (sp ++ w ++ (sp2 ++ ':' :: dt)) = some ([seqName w], ':' :: dt) := by
  have hq : Quoted (findMap { noglob := true } (· == ':')) false w w :=
    quoted_plain fun c h => ⟨findMap_colon (hc c h), (hc c h).2.2.1⟩
  have hf : Follows (findMap { noglob := true } (· == ':')) false (sp2 ++ ':' :: dt) := by
    cases sp2 with
    | nil => exact .inl ⟨rfl, ':', dt, rfl, by decide⟩
    | cons b sp2 => exact .inl ⟨rfl, b, _, rfl, by simp [findMap, hsp2 b (by simp)]⟩
  cases w with
  | nil => exact absurd rfl hw
  | cons c w =>
    have hword := seqWord_quoted (find := findMap { noglob := true } (· == ':')) (by decide) hq hf
    have h1 : '(' ∉ seqName (c :: w) := mem_seqName (by decide) fun h => (hc _ h).2.2.2 rfl
    have hrest : ∀ grp, parseSeqGo fs { noglob := true } none (· == ':') grp (sp2 ++ ':' :: dt) = some ([], ':' :: dt) := by
      intro grp
      refine parseSeq_stop ?_ (by simp)
      rw [nextToken_spaces (fun c h => by simp [isSpace, hsp2 c h]), nextToken_begin (by decide)]
    rw [parseFileSeq, parseSeq_word (c := c) (cs := w ++ (sp2 ++ ':' :: dt)) ?_ ?_ hword]
    · simp [groupOpen, h1, groupElement, seqName_ne_nil, hrest, elementNames, consNames]
    · rw [List.append_assoc, nextToken_spaces hsp, List.cons_append, nextToken_begin (hc c (by simp)).1]
    · simpa using (hc c (by simp)).2.1

/-- **C88** (partial, as before; the pattern has no backslashes and parentheses) A second colon in the expansion of the text after the
colon makes a static pattern rule: the text before it is the target pattern, the text after it the prerequisites. -/
theorem C88_static_partial (hx : LiteralText E.expand) {p : Lead} {ps : List Lead} (hps : WordRow (p :: ps)) {sep : Str}
    (hsep : ∀ c ∈ sep, isBlank c = true) {k : RuleSign} {rest stale : Str} (hk : k.Ends rest stale)
    {semi : Option Str} {s s1 s2 : σ} {ts : List Str} (he : expandAll E.expand s ((p :: ps).map (·.word)) = (s1, ts))
    (ht : ∀ t ∈ ts, ':' ∉ t ∧ (semi = none → ';' ∉ t))
    {names : List Str} (hl : Listing isBlank true names (targetText ts)) (hn : ∀ w ∈ names, PlainWord w)
    (hne : names ≠ []) (ha : ∀ m q, ¬ AssignLine rest m q) {u sp w sp2 dt : Str} (hu : EqualsUndone rest u)
    (hD : E.expand s1 u = (s2, sp ++ w ++ (sp2 ++ ':' :: dt))) (hsp : Spaces sp) (hsp2 : ∀ c ∈ sp2, isBlank c = true)
    (hw : w ≠ []) (hc : ∀ c ∈ w, PatternChar c) (hs : semi = none → ';' ∉ w ++ dt) {n a b : Str} (hnw : Stripped w n) :
    (ReadsAs '%' n (.pat a b) →
      ∃ (f : Str → Str) (d : Str), (∀ w, Stripped w (f w)) ∧ IsTrim dt d ∧
        ruleLine E s (leadText (p :: ps) ++ (sep ++ (k.text ++ rest))) stale semi =
          (s2, .rule { names := names.map f, grouped := k.grouped, pattern := some (.found a '%' b),
                       deps := if d = [] then none else some d, twoColon := k.double, pfx := E.cmdPrefix s1 } semi)) ∧
    ('%' ∉ n → ruleLine E s (leadText (p :: ps) ++ (sep ++ (k.text ++ rest))) stale semi = (s2, .fatal .noPercent)) := by
  have ha' : parseVarAssignment rest = none := by
    cases h : parseVarAssignment rest with
    | none => rfl
    | some q => exact absurd ((C90_modifiers _ _ _).1 h) (ha _ _)
  have hD' : E.expand s1 (unquoteEquals rest) = (s2, sp ++ w ++ (sp2 ++ ':' :: dt)) := by
    have := (unquoteEquals_iff rest u).1 hu
    rw [← this]; exact hD
  have hsemi : semi = none → ';' ∉ sp ++ w ++ (sp2 ++ ':' :: dt) := by
    intro h hm
    have := hs h
    simp only [List.mem_append, List.mem_cons, not_or] at this hm
    rcases hm with (hm | hm) | hm | hm | hm
    · have := hsp _ hm; revert this; decide
    · exact this.1 hm
    · have := hsp2 _ hm; revert this; decide
    · revert hm; decide
    · exact this.2 hm
  have hcol : hasColon [] (sp ++ w ++ (sp2 ++ ':' :: dt)) = true := by
    rw [← List.append_assoc]
    refine hasColon_here ?_ (fun _ => rfl)
    intro c hm
    simp only [List.mem_append] at hm
    rcases hm with (hm | hm) | hm
    · rintro rfl; have := hsp _ hm; revert this; decide
    · exact (hc c hm).2.2.1
    · rintro rfl; have := hsp2 _ hm; revert this; decide
  have hname : seqName w = n := by rw [seqName_eq_lookup]; exact (stripped_unique hnw).symm
  have hrr : ∀ semi', ruleRest E.fs (names.map lookupName) k.grouped k.double (E.cmdPrefix s1)
        (sp ++ w ++ (sp2 ++ ':' :: dt)) semi' =
      match findPercent n with
      | .none _ => .fatal .noPercent
      | .found a c b => .rule { names := names.map lookupName, grouped := k.grouped, pattern := some (.found a c b)
                                deps := if stripWhitespace dt = [] then none else some (stripWhitespace dt)
                                twoColon := k.double, pfx := E.cmdPrefix s1 } semi' := by
    intro semi'
    unfold ruleRest
    rw [if_pos hcol, parse_pattern hsp hw hc hsp2]
    simp only [hname, (C19_cached n).1, List.tail_cons]
    cases findPercent n <;> rfl
  have hmain : ruleLine E s (leadText (p :: ps) ++ (sep ++ (k.text ++ rest))) stale semi =
      (s2, ruleRest E.fs (names.map lookupName) k.grouped k.double (E.cmdPrefix s1)
        (sp ++ w ++ (sp2 ++ ':' :: dt)) semi) := by
    rw [ruleLine_sign hx hps hsep hk he ht hl hn, if_neg hne, afterColon_sign hx ha' hD']
    cases semi with
    | some c => rfl
    | none => simp only [findCharUnquote_none (hsemi rfl)]
  rw [hmain, hrr]
  constructor
  · intro hr
    refine ⟨lookupName, stripWhitespace dt, lookupName_stripped, isTrim_strip dt, ?_⟩
    have h := ReadsAs_findCharUnquote (by decide) hr
    have hf : findPercent n = findCharUnquote '%' n := rfl
    rw [hf]
    cases hq : findCharUnquote '%' n with
    | none t => rw [hq] at h; cases h
    | found a' c b' =>
      have := findCharUnquote_char hq
      rw [hq] at h; cases h; subst this; rfl
  · intro h
    have hf : findPercent n = findCharUnquote '%' n := rfl
    rw [hf, findCharUnquote_none h]

/-- The patterns before the second colon. -/
theorem parse_patterns {fs : FsEnv} {sp2 dt : Str} (hsp2 : ∀ c ∈ sp2, isBlank c = true) : ∀ (qs : List Lead), (∀ q ∈ qs, (∀ c ∈ q.sep, isBlank c = true) ∧ q.word ≠ [] ∧
      ∀ c ∈ q.word, PatternChar c) → (∀ q ∈ qs.tail, q.sep ≠ []) →
    parseSeqGo fs { noglob := true } none (· == ':') none (leadText qs ++ (sp2 ++ ':' :: dt)) = some (qs.map fun q => seqName q.word, ':' :: dt) := by
  intro qs
  induction qs with
  | nil =>
    intro _ _
    rw [leadText, List.flatMap_nil, List.nil_append]
    refine parseSeq_stop ?_ (by simp)
    rw [nextToken_spaces (fun c h => by simp [isSpace, hsp2 c h]), nextToken_begin (by decide)]
  | cons q qs ih =>
    intro hq hne
    obtain ⟨sp, w⟩ := q
    obtain ⟨hsp, hw, hc⟩ := hq _ List.mem_cons_self
    have ih' := ih (fun q h => hq q (List.mem_cons_of_mem _ h)) (fun q h => hne q (by simpa using List.mem_of_mem_tail h))
    have hqd : Quoted (findMap { noglob := true } (· == ':')) false w w :=
      quoted_plain fun c h => ⟨findMap_colon (hc c h), (hc c h).2.2.1⟩
    have hf : Follows (findMap { noglob := true } (· == ':')) false (leadText qs ++ (sp2 ++ ':' :: dt)) := by
      cases qs with
      | nil =>
        rw [leadText, List.flatMap_nil, List.nil_append]
        cases sp2 with
        | nil => exact .inl ⟨rfl, ':', dt, rfl, by decide⟩
        | cons b sp2 => exact .inl ⟨rfl, b, _, rfl, by simp [findMap, hsp2 b (by simp)]⟩
      | cons q qs =>
        have h1 := hne q (by simp)
        have h2 := (hq q (by simp)).1
        obtain ⟨qsp, qw⟩ := q
        cases qsp with
        | nil => exact absurd rfl h1
        | cons b qsp =>
          simp only [leadText, List.flatMap_cons, List.cons_append]
          exact .inl ⟨rfl, b, _, rfl, by simp [findMap, h2 b (by simp)]⟩
    cases w with
    | nil => exact absurd rfl hw
    | cons c w =>
      have hword := seqWord_quoted (find := findMap { noglob := true } (· == ':')) (by decide) hqd hf
      have h1 : '(' ∉ seqName (c :: w) := mem_seqName (by decide) fun h => (hc _ h).2.2.2 rfl
      have et : leadText (⟨sp, c :: w⟩ :: qs) ++ (sp2 ++ ':' :: dt) = sp ++ (c :: w ++ (leadText qs ++ (sp2 ++ ':' :: dt))) := by
        simp [leadText]
      rw [et, parseSeq_word (c := c) (cs := w ++ (leadText qs ++ (sp2 ++ ':' :: dt))) ?_ ?_ hword]
      · simp [groupOpen, h1, groupElement, seqName_ne_nil, ih', elementNames, consNames]
      · rw [nextToken_spaces (fun c h => by simp [isSpace, hsp c h]), List.cons_append, nextToken_begin (hc c (by simp)).1]
      · simpa using (hc c (by simp)).2.1

/-- **C88** (partial, as before) No pattern before a second colon, or several of them, are refused. -/
theorem C88_patterns_partial (hx : LiteralText E.expand) {p : Lead} {ps : List Lead} (hps : WordRow (p :: ps)) {sep : Str}
    (hsep : ∀ c ∈ sep, isBlank c = true) {k : RuleSign} {rest stale : Str} (hk : k.Ends rest stale)
    {semi : Option Str} {s s1 s2 : σ} {ts : List Str} (he : expandAll E.expand s ((p :: ps).map (·.word)) = (s1, ts))
    (ht : ∀ t ∈ ts, ':' ∉ t ∧ (semi = none → ';' ∉ t))
    {names : List Str} (hl : Listing isBlank true names (targetText ts)) (hn : ∀ w ∈ names, PlainWord w)
    (hne : names ≠ []) (ha : ∀ m q, ¬ AssignLine rest m q) {u sp2 dt : Str} {qs : List Lead} (hu : EqualsUndone rest u)
    (hD : E.expand s1 u = (s2, leadText qs ++ (sp2 ++ ':' :: dt))) (hsp2 : ∀ c ∈ sp2, isBlank c = true)
    (hq : ∀ q ∈ qs, (∀ c ∈ q.sep, isBlank c = true) ∧ q.word ≠ [] ∧ ∀ c ∈ q.word, PatternChar c) (hqs : ∀ q ∈ qs.tail, q.sep ≠ [])
    (hs : semi = none → ';' ∉ leadText qs ++ dt) :
    (qs = [] → ruleLine E s (leadText (p :: ps) ++ (sep ++ (k.text ++ rest))) stale semi = (s2, .fatal .missingPattern)) ∧
    (2 ≤ qs.length → ruleLine E s (leadText (p :: ps) ++ (sep ++ (k.text ++ rest))) stale semi = (s2, .fatal .multiplePatterns)) := by
  have ha' : parseVarAssignment rest = none := by
    cases h : parseVarAssignment rest with
    | none => rfl
    | some q => exact absurd ((C90_modifiers _ _ _).1 h) (ha _ _)
  have hD' : E.expand s1 (unquoteEquals rest) = (s2, leadText qs ++ (sp2 ++ ':' :: dt)) := by
    have := (unquoteEquals_iff rest u).1 hu
    rw [← this]; exact hD
  have hsemi : semi = none → ';' ∉ leadText qs ++ (sp2 ++ ':' :: dt) := by
    intro h hm
    have := hs h
    simp only [List.mem_append, List.mem_cons, not_or] at this hm
    rcases hm with hm | hm | hm | hm
    · exact this.1 hm
    · have := hsp2 _ hm; revert this; decide
    · revert hm; decide
    · exact this.2 hm
  have hcol : hasColon [] (leadText qs ++ (sp2 ++ ':' :: dt)) = true := by
    rw [← List.append_assoc]
    refine hasColon_here ?_ (fun _ => rfl)
    rintro c hm rfl
    simp only [List.mem_append, leadText, List.mem_flatMap] at hm
    rcases hm with ⟨q, h1, hm | hm⟩ | hm
    · have := (hq q h1).1 _ hm; revert this; decide
    · exact ((hq q h1).2.2 _ hm).2.2.1 rfl
    · have := hsp2 _ hm; revert this; decide
  have hmain : ruleLine E s (leadText (p :: ps) ++ (sep ++ (k.text ++ rest))) stale semi =
      (s2, ruleRest E.fs (names.map lookupName) k.grouped k.double (E.cmdPrefix s1) (leadText qs ++ (sp2 ++ ':' :: dt)) semi) := by
    rw [ruleLine_sign hx hps hsep hk he ht hl hn, if_neg hne, afterColon_sign hx ha' hD']
    cases semi with
    | some c => rfl
    | none => simp only [findCharUnquote_none (hsemi rfl)]
  rw [hmain]
  unfold ruleRest
  rw [if_pos hcol, parseFileSeq, parse_patterns hsp2 qs hq hqs]
  constructor
  · rintro rfl; rfl
  · intro h2
    match qs, h2 with
    | a :: b :: qs, _ => rfl

example : ∀ q ∈ [(⟨" ".toList, "%.o".toList⟩ : Lead), ⟨" ".toList, "%.a".toList⟩],
    (∀ c ∈ q.sep, isBlank c = true) ∧ q.word ≠ [] ∧ ∀ c ∈ q.word, PatternChar c := by
  unfold PatternChar; decide

/-- **C88** A semicolon with nothing before it is refused. -/
theorem C88_lone_semicolon {E : RdEnv σ} {s : σ} {sep stale c : Str} (hsep : ∀ c ∈ sep, isBlank c = true) :
    ruleLine E s sep stale (some c) = (s, .fatal .missingRule) := by
  unfold ruleLine
  rw [getNextMword_eol hsep]
  rfl

/-! ### A colon that comes out of a variable -/

theorem stripWhitespace_nextToken (t : Str) : stripWhitespace (nextToken t) = stripWhitespace t := by
  have h1 := isTrim_strip (nextToken t)
  have h2 := isTrim_strip t
  have ht : t = t.takeWhile isSpace ++ nextToken t := (List.takeWhile_append_dropWhile).symm
  obtain ⟨l, r, e, hl, hr, hh, hh', hm⟩ := h1
  refine isTrim_unique (s := t) ⟨t.takeWhile isSpace ++ l, r, ?_, ?_, hr, hh, hh', ?_⟩ h2
  · rw [List.append_assoc, List.append_assoc, ← List.append_assoc l, ← e]; exact ht
  · intro c hc
    rcases List.mem_append.1 hc with h | h
    · exact mem_takeWhile_imp h
    · exact hl c h
  · intro h0
    rw [List.append_assoc, hm h0]; exact ht.symm

theorem readsAs_suffix {stop : Char} {t : Str} {q : Pct} (h : ReadsAs stop t q) :
    ∀ {pre post : Str}, q = .pat pre post → post <:+ t := by
  induction h with
  | none _ => intro pre post e; cases e
  | unquoted _ _ => intro pre post e; cases e; exact (List.suffix_cons _ _).trans (List.suffix_append _ _)
  | @quoted a rest k p _ _ _ ih =>
    intro pre post e
    cases p with
    | lit u => cases e
    | pat x y =>
      cases e
      obtain ⟨b, hb⟩ := ih rfl
      exact ⟨a ++ List.replicate (2 * k + 1) '\\' ++ stop :: b, by rw [← hb]; simp⟩

/-- **C88** (partial: the colon is in the expansion of the first word, and what follows it there does not begin with white
space unless it is all that is left of the line: without that the claim is false, see `C88_not_expansion`)  If the
expansion of the first word has a colon, the line is the rule that its expansion is. -/
theorem C88_colon_partial (hx : LiteralText E.expand) {p : Lead} (hp : WordRow [p]) {rest stale : Str}
    (hr : StopsWord rest) {semi : Option Str} {s s1 s2 : σ} {T pre post : Str} (he : E.expand s p.word = (s1, T))
    (hT : ReadsAs ':' T (.pat pre post)) (hsT : semi = none → ';' ∉ T) (h2 : post.head? ≠ some ':')
    (hg : pre.getLast? ≠ some '&')
    {names : List Str} (hl : Listing isBlank true names pre) (hn : ∀ w ∈ names, PlainWord w)
    (hne : names ≠ []) (hb : rest ≠ [] → ∀ c ∈ post.head?, isSpace c = false)
    (ha : ∀ m q, ¬ AssignLine (post ++ rest) m q) {u D : Str} (hu : EqualsUndone rest u)
    (hD : E.expand s1 u = (s2, D)) (hc : ':' ∉ post ++ D) (hs : semi = none → ';' ∉ D) :
    ∃ (f : Str → Str) (d : Str), (∀ w, Stripped w (f w)) ∧ IsTrim (post ++ D) d ∧
      ruleLine E s (p.sep ++ (p.word ++ rest)) stale semi =
        (s2, .rule { names := names.map f, grouped := false, pattern := none,
                     deps := if d = [] then none else some d, twoColon := false, pfx := E.cmdPrefix s1 } semi) := by
  refine ⟨lookupName, stripWhitespace (post ++ D), lookupName_stripped, isTrim_strip _, ?_⟩
  have ha' : parseVarAssignment (post ++ rest) = none := by
    cases h : parseVarAssignment (post ++ rest) with
    | none => rfl
    | some q => exact absurd ((C90_modifiers _ _ _).1 h) (ha _ _)
  have hD' : E.expand s1 (unquoteEquals rest) = (s2, D) := by
    have := (unquoteEquals_iff rest u).1 hu
    rw [← this]; exact hD
  have hp' := hp.1 p (by simp)
  obtain ⟨t, ht, em⟩ := getNextMword_piece (stale := stale) hp'.1 hp'.2.1 hp'.2.2.1 hp'.2.2.2 hr
  have hf := ReadsAs_findCharUnquote (by decide) hT
  have hf' : ∃ c, findCharUnquote ':' T = .found pre c post := by
    cases h : findCharUnquote ':' T with
    | none t => rw [h] at hf; cases hf
    | found a c b => rw [h] at hf; cases hf; exact ⟨c, rfl⟩
  obtain ⟨c, hf'⟩ := hf'
  have hpost : ';' ∈ post → ';' ∈ T := by
    intro h
    exact (readsAs_suffix hT rfl).subset h
  have hl' : parseFileSeq E.fs {} none (fun _ => false) pre = some (names.map lookupName, []) := by
    have := parse_listing (env := E.fs) (pfx := none) (stop := fun _ => false) rfl hl
      (rest := []) (.inr ⟨rfl, rfl⟩) (fun w hw => (hn w hw).1) [] (by intro c hc; cases hc)
    rw [List.nil_append, List.append_nil] at this
    rw [parseFileSeq, this, collect_plain hn]; rfl
  have hcp : ':' ∉ post := fun h => hc (by simp [h])
  have hgo : ∀ st, colonDone E semi (colonLoop E.expand s1 [] T rest st semi).1 (colonLoop E.expand s1 [] T rest st semi).2 =
        (s2, .rule { names := names.map lookupName, grouped := false, pattern := none,
                     deps := if stripWhitespace (post ++ D) = [] then none else some (stripWhitespace (post ++ D)),
                     twoColon := false, pfx := E.cmdPrefix s1 } semi) := by
    intro st
    rw [colonLoop.eq_def]
    simp only [findSemi_none hsT, hf', List.nil_append, colonDone, hg, decide_false, Bool.false_eq_true, if_false, hl']
    obtain ⟨n, ns, rfl⟩ : ∃ n ns, names = n :: ns := by
      cases names with
      | nil => exact absurd rfl hne
      | cons n ns => exact ⟨n, ns, rfl⟩
    simp only [List.map_cons]
    unfold afterColon
    simp only [h2, if_false, ha', decide_false, Bool.false_eq_true]
    by_cases h0 : rest = []
    · subst h0
      have e : unquoteEquals [] = [] := by decide
      rw [e, hx _ _ (by simp)] at hD'
      cases hD'
      have hq : ':' ∉ nextToken post := fun h => hcp ((List.dropWhile_sublist _).subset h)
      simp only [if_true, prereqText, true_or, List.append_nil, ruleRest_plain hq, stripWhitespace_nextToken]
    · have hpt : prereqText post rest D = post ++ D := by
        unfold prereqText
        rw [if_neg h0]
        cases post with
        | nil => simp
        | cons b post =>
          have hb' := hb h0 b (by simp)
          rw [List.cons_append, nextToken_begin hb']
          simp
      simp only [if_neg h0, hD', hpt]
      cases semi with
      | some c => simp only [Option.isSome_some, or_true, if_true, ruleRest_plain hc]
      | none =>
        have : ';' ∉ post ++ D := by
          intro h
          rcases List.mem_append.1 h with h | h
          · exact hsT rfl (hpost h)
          · exact hs rfl h
        simp only [h0, Option.isSome_none, Bool.false_eq_true, or_self, if_false, findCharUnquote_none this, ruleRest_plain hc]
  unfold ruleLine
  rw [em]
  simp only [he]
  rcases ht with rfl | rfl <;> exact hgo _

/-- **C88** (partial: the rule is in the expansion of the first word) If the expansion of the first word has a rule with a semicolon, what
follows the semicolon, with the expansion of the rest of the line, is the first command. -/
theorem C88_command_partial {p : Lead} (hp : WordRow [p]) {rest stale : Str}
    (hr : StopsWord rest) {s s1 s2 : σ} {T a cmd pre post D : Str} (he : E.expand s p.word = (s1, T))
    (hT : ReadsAs ';' T (.pat a cmd)) (ha : ReadsAs ':' a (.pat pre post)) (h2 : post.head? ≠ some ':')
    (hg : pre.getLast? ≠ some '&')
    {names : List Str} (hl : Listing isBlank true names pre) (hn : ∀ w ∈ names, PlainWord w)
    (hne : names ≠ []) (has : ∀ m q, ¬ AssignLine post m q)
    (hD : E.expand s1 rest = (s2, D)) (hc : ':' ∉ post) :
    ∃ (f : Str → Str) (d : Str), (∀ w, Stripped w (f w)) ∧ IsTrim post d ∧
      ruleLine E s (p.sep ++ (p.word ++ rest)) stale none =
        (s2, .rule { names := names.map f, grouped := false, pattern := none,
                     deps := if d = [] then none else some d, twoColon := false, pfx := E.cmdPrefix s2 } (some (cmd ++ D))) := by
  refine ⟨lookupName, stripWhitespace post, lookupName_stripped, isTrim_strip _, ?_⟩
  have ha' : parseVarAssignment post = none := by
    cases h : parseVarAssignment post with
    | none => rfl
    | some q => exact absurd ((C90_modifiers _ _ _).1 h) (has _ _)
  have hp' := hp.1 p (by simp)
  obtain ⟨t, ht, em⟩ := getNextMword_piece (stale := stale) hp'.1 hp'.2.1 hp'.2.2.1 hp'.2.2.2 hr
  have key : ∀ {k : Char} {t a b : Str}, k ≠ '\\' → ReadsAs k t (.pat a b) → ∃ c, findCharUnquote k t = .found a c b := by
    intro k t a b hk h
    have hf := ReadsAs_findCharUnquote hk h
    cases h : findCharUnquote k t with
    | none t => rw [h] at hf; cases hf
    | found a c b => rw [h] at hf; cases hf; exact ⟨c, rfl⟩
  obtain ⟨c1, f1⟩ := key (by decide) hT
  obtain ⟨c2, f2⟩ := key (by decide) ha
  have hl' : parseFileSeq E.fs {} none (fun _ => false) pre = some (names.map lookupName, []) := by
    have := parse_listing (env := E.fs) (pfx := none) (stop := fun _ => false) rfl hl
      (rest := []) (.inr ⟨rfl, rfl⟩) (fun w hw => (hn w hw).1) [] (by intro c hc; cases hc)
    rw [List.nil_append, List.append_nil] at this
    rw [parseFileSeq, this, collect_plain hn]; rfl
  have hs : ∀ st, colonLoop E.expand s1 [] T rest st none = (s2, .colon pre post [] (some (cmd ++ D))) := by
    intro st
    rw [colonLoop.eq_def]
    simp only [findSemi, f1, hD, f2, List.nil_append]
  have hq : ':' ∉ nextToken post := fun h => hc ((List.dropWhile_sublist _).subset h)
  obtain ⟨n, ns, rfl⟩ : ∃ n ns, names = n :: ns := by
    cases names with
    | nil => exact absurd rfl hne
    | cons n ns => exact ⟨n, ns, rfl⟩
  have hgo : ∀ st, colonDone E none (colonLoop E.expand s1 [] T rest st none).1 (colonLoop E.expand s1 [] T rest st none).2 =
        (s2, .rule { names := (n :: ns).map lookupName, grouped := false, pattern := none,
                     deps := if stripWhitespace post = [] then none else some (stripWhitespace post),
                     twoColon := false, pfx := E.cmdPrefix s2 } (some (cmd ++ D))) := by
    intro st
    simp only [hs, colonDone, hg, decide_false, Bool.false_eq_true, if_false, hl', List.map_cons]
    unfold afterColon
    simp only [h2, if_false, ha', decide_false, Bool.false_eq_true, List.append_nil, if_true, prereqText, true_or,
      ruleRest_plain hq, stripWhitespace_nextToken]
  unfold ruleLine
  rw [em]
  simp only [he]
  rcases ht with rfl | rfl <;> exact hgo _

example : ReadsAs ';' "a: b ;echo".toList (.pat "a: b ".toList "echo".toList) ∧ ReadsAs ':' "a: b ".toList (.pat "a".toList " b ".toList) :=
  ⟨.unquoted (k := 0) (a := "a: b ".toList) (by decide) (by decide), .unquoted (k := 0) (a := "a".toList) (by decide) (by decide)⟩

end Remake
