import Verif.Print.Props
set_option linter.unusedVariables false
set_option linter.unusedSimpArgs false
/-! C114: values that are not read back, commented definitions, and a concrete case. -/
namespace Remake
open Spec

section
variable {D : DefEnv} {E : RdEnv (Option DefState)} {ext : List (VarSet × Bool) → Str → List Str → Option Str} {fuel : Nat}

/-- A file whose lines are read. -/
theorem read_text (ls : List Str) (h : ∀ l ∈ ls, PrintedLine l) (hb : ∀ l, ls.head? = some l → l.head? = some '#')
    (st st' : DefState)
    (hl : evalLoop (readerEnv E) (atLine (some st)) [] false false ls =
      evalLoop (readerEnv E) (atLine (some st')) [] false false []) :
    ∃ cs, readFile (ls.flatMap (· ++ ['\n'])) = some cs ∧
      readMakefile E (some st) (cs.map (·.1)) = .done (some st') := by
  obtain ⟨cs, c1, c2⟩ := readFile_lines ls h
  refine ⟨cs, c1, ?_⟩
  have hskip : skipBom ls = ls := by
    cases ls with
    | nil => rfl
    | cons l ls =>
      have := hb l rfl
      cases l with
      | nil => simp at this
      | cons c l =>
        simp only [List.head?_cons, Option.some.injEq] at this
        subst this
        simp only [skipBom]
        rw [if_neg]
        simp [List.isPrefixOf]
  have : evalLines (readerEnv E) { env := some st } ls = .done (atLine (some st')) := by
    show evalLoop (readerEnv E) (atLine (some st)) [] false false _ = _
    rw [hl, evalLoop, if_pos rfl]
  rw [c2, readMakefile, hskip, this]
  simp [atLine, flush]

/-- C114 (deviation): of a recursive value with a `#` outside of references, only what is before the `#` is read
back. -/
theorem C114_hash (hE : CarriesOut E D) (hx : ExpandsAs D ext (fuel + 2)) (p : PrintedVar) (x y : Str)
    (hn : PrintableName p.name) (ho : p.var.origin ≠ .invalid) (happ : p.var.append = false)
    (hloc : ∀ f n, p.loc = some (f, n) → '\n' ∉ f ∧ '\x00' ∉ f) (hrec : p.var.recursive = true)
    (hv : p.var.value = x ++ '#' :: y) (hlt : PrintedLine p.var.value)
    (h1 : ∀ c ∈ x, c ≠ '#' ∧ c ≠ '$' ∧ c ≠ '\\') (h2 : x.head?.all (fun c => !isSpace c) = true) (st : DefState) :
    ∃ text cs st', printVariable [] p = some text ∧ readFile text = some cs ∧
      readMakefile E (some st) (cs.map (·.1)) = .done (some st') ∧
      Assigned D.envOv (st.sets 0 p.name) (st'.sets 0 p.name) x .file true := by
  obtain ⟨cl, hcl, hpr⟩ := comment_line p ho hloc
  have hcr : CommentRead p.var.value x (some y) := by
    rw [hv]
    have := commentRead_prefix (CommentRead.cut (k := 0) (comment := y)) _ x (Nat.le_refl _)
      (fun h => (h1 _ h).1 rfl) (fun h => (h1 _ h).2.1 rfl) (fun h => (h1 _ (List.mem_of_getLast? h)).2.2 rfl)
    simpa using this
  obtain ⟨hlt2, hstep⟩ := read_assignment_kept (E := E) hE hn .rec_ (by decide) hlt hcr (dropSpaces_id h2)
    (d := st) (d' := finishDefinition D st p.name x .file true false false false)
    (fun l hl => assign_recursive hx hn st hl)
  have hnb : ¬ (p.var.value ≠ [] ∧ nextToken p.var.value = []) := by
    rintro ⟨-, h⟩
    have := nextToken_nil_iff.mp h '#' (by rw [hv]; simp)
    revert this; decide
  have hdef : printDefinition p.name p.var = p.name ++ ' ' :: ['='] ++ ' ' :: p.var.value ++ ['\n'] := by
    rw [printDefinition, if_neg (fun h => hlt.1 h.2), if_neg hnb]
    simp [hrec, happ]
  obtain ⟨cs, c1, c2⟩ := read_text (E := E) ['#' :: cl, p.name ++ ' ' :: ['='] ++ ' ' :: p.var.value]
    (by intro l hl
        simp only [List.mem_cons, List.not_mem_nil, or_false] at hl
        rcases hl with h | h
        · rw [h]; exact hcl
        · rw [h]; exact hlt2)
    (by intro l hl; simp only [List.head?_cons, Option.some.injEq] at hl; rw [← hl]; rfl) st _
    (by rw [atLine_blank _ _ _ (Or.inr (evalText_comment fun h => hcl.1 (by simp [h]))), hstep])
  refine ⟨_, cs, _, ?_, c1, c2, ?_⟩
  · rw [hpr, hdef]; simp
  · have := finish_assigned D st p.name x .file true false false false
    rw [show destination st false = 0 by simp [destination]] at this
    exact this

/-- C114 (deviation): white space at the beginning of a value that is not all white space is lost. -/
theorem C114_leading_blanks (hE : CarriesOut E D) (hx : ExpandsAs D ext (fuel + 2)) (p : PrintedVar) (b x : Str)
    (hn : PrintableName p.name) (ho : p.var.origin ≠ .invalid)
    (hloc : ∀ f n, p.loc = some (f, n) → '\n' ∉ f ∧ '\x00' ∉ f) (hrec : p.var.recursive = false)
    (hv : p.var.value = b ++ x) (hlt : PrintedLine p.var.value) (hb : ∀ c ∈ b, isSpace c = true)
    (h1 : '#' ∉ x) (hx0 : x ≠ []) (h2 : x.head?.all (fun c => !isSpace c) = true) (st : DefState) :
    ∃ text cs st', printVariable [] p = some text ∧ readFile text = some cs ∧
      readMakefile E (some st) (cs.map (·.1)) = .done (some st') ∧
      Assigned D.envOv (st.sets 0 p.name) (st'.sets 0 p.name) x .file false := by
  obtain ⟨cl, hcl, hpr⟩ := comment_line p ho hloc
  have hdb : doubleDollars b = b := doubleDollars_id (space_no_dollar hb (by decide))
  have hnh : '#' ∉ p.var.value := by
    rw [hv]; simp [h1, space_no_dollar hb (show isSpace '#' = false by decide)]
  have hlt' : PrintedLine (doubleDollars p.var.value) :=
    ⟨by rw [doubleDollars_mem]; exact hlt.1, by rw [doubleDollars_mem]; exact hlt.2.1,
      doubleDollars_endsOdd hlt.2.2.1, by rw [doubleDollars_getLast]; exact hlt.2.2.2⟩
  have hdrop : doubleDollars x = (doubleDollars p.var.value).dropWhile isSpace := by
    rw [hv, doubleDollars_append, hdb, List.dropWhile_append_of_pos hb]
    exact dropSpaces_id (by rw [doubleDollars_head]; exact h2)
  obtain ⟨hlt2, hstep⟩ := read_assignment (E := E) hE hn .simple (by decide) hlt'
    (commentRead_none (by rw [doubleDollars_mem]; exact hnh)) hdrop
    (d := st) (d' := finishDefinition D st p.name x .file false false false false)
    (fun l hl => assign_simple hx hn st hl fun x' => expand_doubled (fuel + 1) x' x)
  have hnb : ¬ (p.var.value ≠ [] ∧ nextToken p.var.value = []) := by
    rintro ⟨-, h⟩
    obtain ⟨c, x', rfl⟩ := List.exists_cons_of_ne_nil hx0
    have := nextToken_nil_iff.mp h c (by rw [hv]; simp)
    simp [this] at h2
  have hdef : printDefinition p.name p.var = p.name ++ ' ' :: [':', '='] ++ ' ' :: doubleDollars p.var.value ++ ['\n'] := by
    rw [printDefinition, if_neg (fun h => hlt.1 h.2), if_neg hnb]
    simp [hrec]
  obtain ⟨cs, c1, c2⟩ := read_text (E := E) ['#' :: cl, p.name ++ ' ' :: [':', '='] ++ ' ' :: doubleDollars p.var.value]
    (by intro l hl
        simp only [List.mem_cons, List.not_mem_nil, or_false] at hl
        rcases hl with h | h
        · rw [h]; exact hcl
        · rw [h]; exact hlt2)
    (by intro l hl; simp only [List.head?_cons, Option.some.injEq] at hl; rw [← hl]; rfl) st _
    (by rw [atLine_blank _ _ _ (Or.inr (evalText_comment fun h => hcl.1 (by simp [h]))), hstep])
  refine ⟨_, cs, _, ?_, c1, c2, ?_⟩
  · rw [hpr, hdef]; simp
  · have := finish_assigned D st p.name x .file false false false false
    rw [show destination st false = 0 by simp [destination]] at this
    exact this

/-- C114 (deviation): a simple value with a newline (`define X :=`) is printed as two lines.  If the second line
looks like an assignment, reading the printed text makes that assignment, and the value is cut. -/
theorem C114_newline (hE : CarriesOut E D) (hx : ExpandsAs D ext (fuel + 2)) (p : PrintedVar) (x m y : Str)
    (hn : PrintableName p.name) (ho : p.var.origin ≠ .invalid)
    (hloc : ∀ f n, p.loc = some (f, n) → '\n' ∉ f ∧ '\x00' ∉ f) (hrec : p.var.recursive = false)
    (hm : PrintableName m) (hmn : m ≠ p.name) (hv : p.var.value = x ++ '\n' :: (m ++ " = ".toList ++ y))
    (hlx : PrintedLine x) (hly : PrintedLine y) (h1 : ∀ c ∈ x ++ y, c ≠ '#' ∧ c ≠ '$')
    (h2 : x.head?.all (fun c => !isSpace c) = true) (h3 : y.head?.all (fun c => !isSpace c) = true) (st : DefState) :
    ∃ text cs st', printVariable [] p = some text ∧ readFile text = some cs ∧
      readMakefile E (some st) (cs.map (·.1)) = .done (some st') ∧
      Assigned D.envOv (st.sets 0 p.name) (st'.sets 0 p.name) x .file false ∧
      Assigned D.envOv (st.sets 0 m) (st'.sets 0 m) y .file true := by
  obtain ⟨cl, hcl, hpr⟩ := comment_line p ho hloc
  have hdd : doubleDollars p.var.value = p.var.value := by
    apply doubleDollars_id
    rw [hv]
    have a1 : '$' ∉ x := fun h => (h1 _ (by simp [h])).2 rfl
    have a2 : '$' ∉ y := fun h => (h1 _ (by simp [h])).2 rfl
    simp [a1, a2, (plain_clean hm).2.2.2]
  have hcx : CommentRead x x none := commentRead_none fun h => (h1 _ (by simp [h])).1 rfl
  have hcy : CommentRead y y none := commentRead_none fun h => (h1 _ (by simp [h])).1 rfl
  obtain ⟨hlt2, hstep⟩ := read_assignment (E := E) hE hn .simple (by decide) hlx hcx (dropSpaces_id h2)
    (d := st) (d' := finishDefinition D st p.name x .file false false false false)
    (fun l hl => assign_simple hx hn st hl fun x' => C28_literal ext (fuel + 1) x' x fun h => (h1 _ (by simp [h])).2 rfl)
  have hfa := finish_assigned D st p.name x .file false false false false
  have hfs := finish_same D st p.name x .file false false false false
  generalize finishDefinition D st p.name x .file false false false false = st1 at *
  obtain ⟨hlt3, hstep2⟩ := read_assignment (E := E) hE hm .rec_ (by decide) hly hcy (dropSpaces_id h3)
    (d := st1) (d' := finishDefinition D st1 m y .file true false false false)
    (fun l hl => assign_recursive hx hm st1 hl)
  have hga := finish_assigned D st1 m y .file true false false false
  have hgs := finish_same D st1 m y .file true false false false
  generalize finishDefinition D st1 m y .file true false false false = st2 at *
  have hd0 : ∀ s : DefState, destination s false = 0 := fun s => by simp [destination]
  rw [hd0] at hfa hfs hga hgs
  have hnb : ¬ (p.var.value ≠ [] ∧ nextToken p.var.value = []) := by
    rintro ⟨-, h⟩
    have := nextToken_nil_iff.mp h '=' (by rw [hv]; simp)
    revert this; decide
  have hdef : printDefinition p.name p.var = p.name ++ ' ' :: [':', '='] ++ ' ' :: p.var.value ++ ['\n'] := by
    rw [printDefinition, if_neg (fun h => by rw [hrec] at h; cases h.1), if_neg hnb, hdd]
    simp [hrec]
  obtain ⟨cs, c1, c2⟩ := read_text (E := E) ['#' :: cl, p.name ++ ' ' :: [':', '='] ++ ' ' :: x, m ++ ' ' :: ['='] ++ ' ' :: y]
    (by intro l hl
        simp only [List.mem_cons, List.not_mem_nil, or_false] at hl
        rcases hl with h | h | h
        · rw [h]; exact hcl
        · rw [h]; exact hlt2
        · rw [h]; exact hlt3)
    (by intro l hl; simp only [List.head?_cons, Option.some.injEq] at hl; rw [← hl]; rfl) st st2
    (by rw [atLine_blank _ _ _ (Or.inr (evalText_comment fun h => hcl.1 (by simp [h]))), hstep, hstep2])
  refine ⟨_, cs, _, ?_, c1, c2, ?_, ?_⟩
  · rw [hpr, hdef, hv]; simp
  · rw [hgs.2 0 p.name (fun h => hmn h.2.symm)]; exact hfa
  · rw [hfs.2 0 m (fun h => hmn h.2)] at hga; exact hga

/-- C114: definitions printed with `# ` before them (those of targets and patterns) are comments, if the value has
no newline: reading them changes nothing. -/
theorem C114_commented (p : PrintedVar) (hn : PrintableName p.name) (ho : p.var.origin ≠ .invalid)
    (hloc : ∀ f n, p.loc = some (f, n) → '\n' ∉ f ∧ '\x00' ∉ f) (hlt : PrintedLine p.var.value) (st : DefState) :
    ∃ text cs, printVariable "# ".toList p = some text ∧ readFile text = some cs ∧
      readMakefile E (some st) (cs.map (·.1)) = .done (some st) := by
  obtain ⟨cl, hcl, hpr⟩ := comment_line p ho hloc
  obtain ⟨n1, n2, n3, n4⟩ := plain_clean hn
  obtain ⟨d, hd1, hd2⟩ : ∃ d, printDefinition p.name p.var = d ++ ['\n'] ∧ PrintedLine ('#' :: ' ' :: d) := by
    refine ⟨_, by rw [printDefinition, if_neg (fun h => hlt.1 h.2)], ?_⟩
    generalize hop : (if p.var.recursive = true then (if p.var.append = true then ['+'] else []) else [':'] : Str) = op
    have ho : '\n' ∉ op ∧ '\x00' ∉ op := by
      rw [← hop]; split
      · split <;> decide
      · decide
    rw [show ∀ z : Str, ('#' :: ' ' :: (p.name ++ ' ' :: op ++ "= ".toList ++ z)) = ('#' :: ' ' :: (p.name ++ ' ' :: op ++ "= ".toList)) ++ z by simp]
    refine lineText_append ?_ ?_ ?_
    · constructor <;> simp [n1, n2, ho]
    · rw [show ('#' :: ' ' :: (p.name ++ ' ' :: op ++ "= ".toList)) = ('#' :: ' ' :: (p.name ++ ' ' :: op)) ++ "= ".toList by simp,
        List.getLast?_append, show "= ".toList.getLast? = some ' ' from rfl]
      rfl
    · split
      · refine ⟨?_, ?_, ?_, ?_⟩
        · simp [hlt.1]
        · simp [hlt.2.1]
        · have := trailingBs_append (a := "$(subst ,,".toList ++ p.var.value ++ [')']) (n := 0)
            (by rw [List.getLast?_append]; simp)
          rw [endsOdd_iff]
          simp only [List.replicate_zero, List.append_nil] at this
          rw [this]; decide
        · rw [List.getLast?_append]; simp
      · split
        · exact hlt
        · exact ⟨by rw [doubleDollars_mem]; exact hlt.1, by rw [doubleDollars_mem]; exact hlt.2.1,
            doubleDollars_endsOdd hlt.2.2.1, by rw [doubleDollars_getLast]; exact hlt.2.2.2⟩
  obtain ⟨cs, c1, c2⟩ := read_text (E := E) ['#' :: cl, '#' :: ' ' :: d]
    (by intro l hl
        simp only [List.mem_cons, List.not_mem_nil, or_false] at hl
        rcases hl with h | h
        · rw [h]; exact hcl
        · rw [h]; exact hd2)
    (by intro l hl; simp only [List.head?_cons, Option.some.injEq] at hl; rw [← hl]; rfl) st st
    (by rw [atLine_blank _ _ _ (Or.inr (evalText_comment fun h => hcl.1 (by simp [h]))),
          atLine_blank _ _ _ (Or.inr (evalText_comment fun h => hd2.1 (by simp at h; simp [h])))])
  exact ⟨_, cs, by rw [hpr, hd1]; simp, c1, c2⟩

/-- C114 (deviation): if the value has a newline, only its `define` line is commented; the lines of the value and
`endef` are not. -/
theorem C114_commented_define (p : PrintedVar) (ho : p.var.origin ≠ .invalid)
    (hloc : ∀ f n, p.loc = some (f, n) → '\n' ∉ f ∧ '\x00' ∉ f) (hrec : p.var.recursive = true)
    (hnl : '\n' ∈ p.var.value) :
    ∃ cl, '\n' ∉ cl ∧ printVariable "# ".toList p =
      some ('#' :: cl ++ "\n# define ".toList ++ p.name ++ '\n' :: p.var.value ++ "\nendef\n".toList) := by
  obtain ⟨cl, hcl, hpr⟩ := comment_line p ho hloc
  refine ⟨cl, fun h => hcl.1 (by simp [h]), ?_⟩
  rw [hpr, printDefinition, if_pos ⟨hrec, hnl⟩]
  simp

end

/-! ## A concrete case -/

def prExt : List (VarSet × Bool) → Str → List Str → Option Str
  | _, n, [a, b, t] => if n = "subst".toList then some (funcSubst a b t) else none
  | _, _, _ => none

def prDef : DefEnv where
  envOv := false
  expand st t :=
    match expand prExt 5 ⟨st.scopes, 0, fun _ => false, fun _ => 0⟩ t with
    | .ok out _ => (st, out)
    | _ => (st, [])
  shell st _ := (st, [])

def prRead (fs : FsEnv) : RdEnv (Option DefState) where
  posix := false
  cmdPrefix _ := '\t'
  expand s t := (s, t)
  defined _ _ := false
  fs := fs
  garbage _ := []
  assign s m q := s.bind fun st => assignLine prDef st m q
  define s m q b := s.bind fun st => defineLine prDef st m q b
  targetVar s _ _ _ := s
  directive s _ _ := s
  record s _ _ := s

theorem prDef_expands : ExpandsAs prDef prExt (3 + 2) := by
  intro st t out h
  simp only [prDef]
  rw [show (5 : Nat) = 3 + 2 from rfl, h]

theorem prExt_subst : SubstOk prExt := by
  intro ch t
  simp only [prExt, if_true]
  simp [funcSubst, substExpand]

theorem prRead_carries (fs : FsEnv) : CarriesOut (prRead fs) prDef := ⟨fun _ _ _ => rfl, fun _ _ _ _ => rfl⟩

def prVars : List PrintedVar :=
  [⟨"A".toList, { value := "x $(B) \\y".toList, recursive := true, origin := .file }, some ("Makefile".toList, 3)⟩,
   ⟨"B".toList, { value := " \t".toList, recursive := true, origin := .env }, none⟩,
   ⟨"S+".toList, { value := "1$2".toList, recursive := false, origin := .override, priv := true }, none⟩,
   ⟨"M".toList, { value := "one # 1\n\ttwo\n".toList, recursive := true, origin := .command }, none⟩]

theorem plainVarName_of {n : Str} (h1 : n ≠ []) (h2 : n.all (fun c => decide (c ≠ '$' ∧ c ≠ '#' ∧ c ≠ ':' ∧ c ≠ '=' ∧
    c ≠ '\x00' ∧ isSpace c = false)) = true) : PrintableName n :=
  ⟨h1, fun c hc => by simpa using List.all_eq_true.mp h2 c hc⟩

theorem lineText_of {t : Str} (h1 : '\n' ∉ t) (h2 : '\x00' ∉ t) (h3 : trailingBs t % 2 ≠ 1) (h4 : t.getLast? ≠ some '\r') :
    PrintedLine t := ⟨h1, h2, by rw [endsOdd_iff]; exact h3, h4⟩

theorem prVars_printable : ∀ p ∈ prVars, Printable false '\t' p := by
  intro p hp
  simp only [prVars, List.mem_cons, List.not_mem_nil, or_false] at hp
  rcases hp with h | h | h | h <;> rw [h]
  · refine ⟨plainVarName_of (by decide) (by decide), by decide, rfl, ?_, Or.inr (Or.inl ⟨lineText_of (by decide) (by decide) (by decide) (by decide), by decide, ?_⟩)⟩
    · intro f n h
      simp only [Option.some.injEq, Prod.mk.injEq] at h
      rw [← h.1]; decide
    · exact commentRead_none (by decide)
  · exact ⟨plainVarName_of (by decide) (by decide), by decide, rfl, by simp, Or.inl ⟨⟨by decide, by decide⟩, by decide⟩⟩
  · refine ⟨plainVarName_of (by decide) (by decide), by decide, rfl, by simp, Or.inr (Or.inl ⟨lineText_of (by decide) (by decide) (by decide) (by decide), by decide, ?_⟩)⟩
    rw [if_neg (by decide)]; decide
  · refine ⟨plainVarName_of (by decide) (by decide), by decide, rfl, by simp, Or.inr (Or.inr ⟨⟨rfl, ["one # 1".toList, "\ttwo".toList, []], by decide, by decide, ?_, ?_⟩, ?_⟩)⟩
    · intro l hl
      simp only [List.mem_cons, List.not_mem_nil, or_false] at hl
      rcases hl with h | h | h <;> rw [h]
      · refine ⟨lineText_of (by decide) (by decide) (by decide) (by decide), fun hc => ?_⟩
        rw [← mark_closes, mark_plain _ _ _ (by decide)] at hc
        revert hc; decide
      · exact ⟨lineText_of (by decide) (by decide) (by decide) (by decide), fun _ => by decide⟩
      · exact ⟨lineText_of (by decide) (by decide) (by decide) (by decide), fun _ => by decide⟩
    · refine .text ?_ ?_ (.text ?_ ?_ (.text ?_ ?_ .nil))
      all_goals first | rw [← mark_closes] | rw [← mark_opens]
      all_goals rw [mark_plain _ _ _ (by decide)]; decide
    · rw [endsOdd_iff]; decide

example (fs : FsEnv) : ∃ text cs, printGlobals "Load=4/1024=0%".toList prVars = some text ∧ readFile text = some cs ∧
    ∃ st' : DefState, readMakefile (prRead fs) (some ⟨fun _ => .empty, [(0, false)]⟩) (cs.map (·.1)) = .done (some st') ∧
      (st'.sets 0 "M".toList).map (·.value) = some "one # 1\n\ttwo\n".toList := by
  obtain ⟨text, cs, h1, h2, st', h3, -, h4, -⟩ := C114_read_back_partial (prRead_carries fs) prDef_expands prExt_subst
    (c := '\t') (fun _ => rfl) (by decide) prVars prVars_printable (by decide) "Load=4/1024=0%".toList
    (lineText_of (by decide) (by decide) (by decide) (by decide)) ⟨fun _ => .empty, [(0, false)]⟩
  refine ⟨text, cs, h1, h2, st', h3, ?_⟩
  obtain ⟨t, ht, w, hw, hor⟩ := h4 ⟨"M".toList, { value := "one # 1\n\ttwo\n".toList, recursive := true, origin := .command }, none⟩
    (by simp [prVars])
  have he : t = "one # 1\n\ttwo\n".toList := ht.1 (by rintro ⟨-, -, h⟩; revert h; decide)
  rw [hw]
  rcases hor with ⟨v, hv, -⟩ | ⟨-, hv, -⟩
  · simp [VarSet.empty] at hv
  · rw [Option.map_some, hv, he]

/-- Cases for the deviations. -/
example : PrintedLine "a#b".toList ∧ (∀ c ∈ "a".toList, c ≠ '#' ∧ c ≠ '$' ∧ c ≠ '\\') ∧ PrintableName "X".toList :=
  ⟨lineText_of (by decide) (by decide) (by decide) (by decide), by decide, plainVarName_of (by decide) (by decide)⟩
example : PrintedLine " $x".toList ∧ " $x".toList = " ".toList ++ "$x".toList :=
  ⟨lineText_of (by decide) (by decide) (by decide) (by decide), by decide⟩
example : "a\nY = 1".toList = "a".toList ++ '\n' :: ("Y".toList ++ " = ".toList ++ "1".toList) ∧ PrintedLine "a".toList :=
  ⟨by decide, lineText_of (by decide) (by decide) (by decide) (by decide)⟩

end Remake
