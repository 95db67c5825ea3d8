import Verif.Read.CondLemmas3
import Verif.Quote.Props
set_option linter.unusedVariables false
set_option linter.unusedSimpArgs false
/-!
# C20, C21: conditionals and `define`
-/
namespace Remake
open Spec

variable {σ : Type} {E : EvalEnv σ}

/-- **C20** A makefile made of complete conditionals, `define`s and other lines has exactly
the effect of its tree: of each conditional the first branch whose test holds is
interpreted, nothing else is looked at, and at the end no conditional is open.

Missing: lines starting with the recipe prefix whose text is a conditional directive, and
`define`s inside `define`s (for which, in text that is skipped, the claim is false, see
`C21_ignored_nested`). -/
theorem C20_conditionals_partial (b : Blk) (hb : b.WF E) (s : σ) :
    evalLines E s b.lines = b.run E s := by
  have h := blk_run b hb s [] rfl []
  rw [List.append_nil] at h
  rw [evalLines, h]
  cases b.run E s with
  | done s' => simp only [andThen]; rw [evalLoop.eq_def]; simp
  | fatal => rfl
  | undef => rfl

/-- **C20** The same in the middle of a makefile: what comes after is interpreted as if the
block had been replaced by its effect. -/
theorem C20_compositional_partial (b : Blk) (hb : b.WF E) (s s' : σ) (h : b.run E s = .done s')
    (ls : List Str) : evalLines E s (b.lines ++ ls) = evalLines E s' ls := by
  rw [evalLines, blk_run b hb s [] rfl ls, h]; rfl

/-- **C20** An `endif` without a conditional is a fatal error, whatever came before. -/
theorem C20_extra_endif (b : Blk) (hb : b.WF E) (s s' : σ) (h : b.run E s = .done s') (l : Str)
    (hl : IsEndif E l) (ls : List Str) : evalLines E s (b.lines ++ l :: ls) = .fatal := by
  rw [C20_compositional_partial b hb s s' h, evalLines]
  have hw : condWord (tokenPrefix (evalText E.posix l)) = some .endif := by
    have : tokenPrefix (evalText E.posix l) = "endif".toList := hl.2
    rw [this]; decide
  rw [evalLoop_dir hl.1 hw]
  simp only [conditionalLine, hw]

/-- **C20** An `else` line — alone, or with a further test behind it — outside every
conditional is a fatal error, whatever came before. -/
theorem C20_extra_else (b : Blk) (hb : b.WF E) (s s' : σ) (h : b.run E s = .done s') (l : Str)
    (hd : Directive E l) (hl : firstWord (evalText E.posix l) = "else".toList) (ls : List Str) :
    evalLines E s (b.lines ++ l :: ls) = .fatal := by
  rw [C20_compositional_partial b hb s s' h, evalLines]
  have hw : condWord (tokenPrefix (evalText E.posix l)) = some .else_ := by
    have : tokenPrefix (evalText E.posix l) = "else".toList := hl
    rw [this]; decide
  rw [evalLoop_dir hd hw]
  simp only [conditionalLine, hw]

/-- **C20** A conditional with two `else` parts is a fatal error, wherever the branch that is
taken lies and whatever follows the second `else` on its line or after it — unless the text
before it cannot be read at all. -/
theorem C20_two_elses (h : Str) (k : CondKind) (hh : IsOpen E h k) (b₁ b₂ : Blk)
    (hb₁ : b₁.WF E) (hb₂ : b₂.WF E) (l₁ l₂ : Str) (h₁ : IsElse E l₁) (hd : Directive E l₂)
    (h₂ : firstWord (evalText E.posix l₂) = "else".toList) (s : σ) (ls : List Str) :
    evalLines E s (h :: (b₁.lines ++ l₁ :: (b₂.lines ++ l₂ :: ls))) = .fatal ∨
      evalLines E s (h :: (b₁.lines ++ l₁ :: (b₂.lines ++ l₂ :: ls))) = .undef := by
  rw [evalLines, line_open hh]
  simp only [openCond, show anyIgnoring [] = false from rfl, Bool.false_eq_true, if_false]
  have hw : condWord (tokenPrefix (evalText E.posix l₂)) = some .else_ := by
    have : tokenPrefix (evalText E.posix l₂) = "else".toList := h₂
    rw [this]; decide
  have hend : ∀ (s : σ) (n : Nat) (g : Bool), evalLoop E s [⟨n, true⟩] g false (l₂ :: ls) = .fatal := by
    intro s n g
    rw [evalLoop_dir hd hw]
    simp only [conditionalLine, hw, if_true]
  rcases condTest E s k (afterWord (evalText E.posix h)) with ⟨s1, _ | _ | _⟩
  · exact .inl rfl
  · simp only [Bool.false_eq_true, if_false, show anyIgnoring [⟨1, false⟩] = true from rfl]
    rw [blk_ign b₁ hb₁ s1 [⟨1, false⟩] (by decide), line_else h₁]
    have := blk_run b₂ hb₂ s1 [⟨0, true⟩] (by decide) (l₂ :: ls)
    simp only [flip, show anyIgnoring [⟨0, true⟩] = false from rfl, if_true, Nat.succ_ne_zero, if_false]
    rw [this]
    cases b₂.run E s1 with
    | done s' => exact .inl (hend _ _ _)
    | fatal => exact .inl rfl
    | undef => exact .inr rfl
  · simp only [if_true, show anyIgnoring [⟨0, false⟩] = false from rfl]
    rw [blk_run b₁ hb₁ s1 [⟨0, false⟩] (by decide)]
    cases b₁.run E s1 with
    | done s' =>
      left
      simp only [andThen]
      rw [line_else h₁]
      simp only [flip, if_true, show anyIgnoring [⟨2, true⟩] = true from rfl]
      rw [blk_ign b₂ hb₂ s' [⟨2, true⟩] (by decide)]
      exact hend _ _ _
    | fatal => exact .inl rfl
    | undef => exact .inr rfl

/-- **C20** A conditional that is never closed is a fatal error if its lines can be read at
all. -/
theorem C20_missing_endif (h : Str) (k : CondKind) (hh : IsOpen E h k) (b : Blk) (hb : b.WF E)
    (s : σ) : evalLines E s (h :: b.lines) = .fatal ∨ evalLines E s (h :: b.lines) = .undef := by
  rw [evalLines, line_open hh]
  simp only [openCond, show anyIgnoring [] = false from rfl, Bool.false_eq_true, if_false]
  have hend : ∀ (s : σ) (c : CondLevel) (g : Bool), evalLoop E s [c] g false [] = .fatal := by
    intro s c g; rw [evalLoop.eq_def]; simp
  rcases condTest E s k (afterWord (evalText E.posix h)) with ⟨s1, _ | _ | _⟩
  · exact .inl rfl
  · left
    have := blk_ign b hb s1 [⟨1, false⟩] (by decide) []
    rw [List.append_nil, hend] at this
    exact this
  · have := blk_run b hb s1 [⟨0, false⟩] (by decide) []
    rw [List.append_nil] at this
    simp only [if_true, show anyIgnoring [⟨0, false⟩] = false from rfl]
    rw [this]
    cases b.run E s1 with
    | done s' => exact .inl (hend _ _ _)
    | fatal => exact .inl rfl
    | undef => exact .inr rfl

/-- **C20** `ifdef NAME` and `ifndef NAME` where the argument expands to a single word. -/
theorem C20_ifdef (s s' : σ) (arg w ws : Str) (h : E.expand s arg = (s', w ++ ws))
    (hw : ∀ x ∈ w, isSpace x = false) (hs : ∀ x ∈ ws, isSpace x = true) :
    condTest E s .ifdef arg = (s', some (E.defined s' w)) ∧
    condTest E s .ifndef arg = (s', some (!E.defined s' w)) := by
  have h1 : tokenPrefix (w ++ ws) = w := by
    unfold tokenPrefix
    rw [List.takeWhile_append_of_pos (fun x hx => by simp [hw x hx])]
    cases ws with
    | nil => simp
    | cons y ys => simp [hs y (by simp)]
  have h2 : endOfToken (w ++ ws) = ws := by
    unfold endOfToken
    rw [List.dropWhile_append_of_pos (fun x hx => by simp [hw x hx])]
    cases ws with
    | nil => simp
    | cons y ys => simp [hs y (by simp)]
  have h3 : nextToken ws = [] := by
    have := nextToken_of_split (r := []) hs (by simp)
    rwa [List.append_nil] at this
  have k : (CondKind.ifdef == CondKind.ifndef) = false := by decide
  constructor <;> simp [condTest, h, h1, h2, h3, k]

/-- **C20** An argument of more than one word is an error. -/
theorem C20_ifdef_words (s s' : σ) (arg w ws r : Str) (c d : Char) (k : CondKind)
    (hk : k = .ifdef ∨ k = .ifndef) (h : E.expand s arg = (s', w ++ d :: ws ++ c :: r))
    (hw : ∀ x ∈ w, isSpace x = false) (hd : isSpace d = true) (hs : ∀ x ∈ ws, isSpace x = true)
    (hc : isSpace c = false) : condTest E s k arg = (s', none) := by
  have h2 : endOfToken (w ++ d :: ws ++ c :: r) = d :: ws ++ c :: r := by
    unfold endOfToken
    rw [List.append_assoc, List.dropWhile_append_of_pos (fun x hx => by simp [hw x hx])]
    simp [hd]
  have h3 : nextToken (d :: ws ++ c :: r) = c :: r := by
    apply nextToken_of_split (ws := d :: ws)
    · intro x hx
      rcases List.mem_cons.mp hx with rfl | hx
      · exact hd
      · exact hs x hx
    · intro x hx; cases hx; exact hc
  simp only [condTest, hk, if_true, h, h2, h3]
  simp

/-- **C20** `ifeq (A,B)`: the two texts, `A` without blanks at its end and `B` without white
space at its start, are expanded in this order and compared. -/
theorem C20_ifeq_paren (s : σ) (a bl ws b rest : Str) (hc : NoTopComma (a ++ bl))
    (hbal : (a ++ bl).count '(' ≤ (a ++ bl).count ')')
    (hal : ∀ x, a.getLast? = some x → isBlank x = false) (hbl : ∀ x ∈ bl, isBlank x = true)
    (hws : ∀ x ∈ ws, isSpace x = true) (hb : ∀ x, b.head? = some x → isSpace x = false)
    (hp : NoLooseClose b) (hbb : b.count '(' ≤ b.count ')') :
    let line := '(' :: (a ++ bl) ++ ',' :: (ws ++ b ++ ')' :: rest)
    condTest E s .ifeq line = ((expandEq E s a b).1, some (expandEq E s a b).2) ∧
    condTest E s .ifneq line = ((expandEq E s a b).1, some (!(expandEq E s a b).2)) := by
  intro line
  have e1 : scanComma 0 [] ((a ++ bl) ++ ',' :: (ws ++ b ++ ')' :: rest)) =
      some (a ++ bl, ws ++ b ++ ')' :: rest) := by
    have := scanComma_spec (rest := ws ++ b ++ ')' :: rest) (a ++ bl) []
      (by simpa [NoTopComma] using hc) (by simpa using hbal)
    simpa using this
  have e2 : ((a ++ bl).reverse.dropWhile isBlank).reverse = a := by
    rw [List.reverse_append, List.dropWhile_append_of_pos (fun x hx => hbl x (List.mem_reverse.mp hx))]
    cases hr : a.reverse with
    | nil =>
      have : a = [] := by simpa using hr
      simp [this]
    | cons y ys =>
      have hy : isBlank y = false := hal y (by rw [← List.head?_reverse, hr]; rfl)
      rw [List.dropWhile_cons_of_neg (by simp [hy]), ← hr, List.reverse_reverse]
  have e3 : nextToken (ws ++ b ++ ')' :: rest) = b ++ ')' :: rest := by
    rw [List.append_assoc]
    apply nextToken_of_split hws
    intro x hx
    cases b with
    | nil => cases hx; decide
    | cons y ys => exact hb x (by simpa using hx)
  have e4 : scanParen 0 [] (b ++ ')' :: rest) = some (b, rest) := by
    have := scanParen_spec (rest := rest) b [] (by simpa [NoLooseClose] using hp) (by simpa using hbb)
    simpa using this
  have hf : ifeqFirst line = some (',', a, ws ++ b ++ ')' :: rest) := by
    have : ∀ cs : Str, ifeqFirst ('(' :: cs) = (scanComma 0 [] cs).map fun (a, rest) =>
        (',', (a.reverse.dropWhile isBlank).reverse, rest) := fun cs => rfl
    simp only [line, List.cons_append]
    rw [this, e1]
    simp only [Option.map_some, e2]
  have hsnd : ifeqSecond ',' (ws ++ b ++ ')' :: rest) = some (b, rest) := by
    simp only [ifeqSecond, if_true, e3, e4]
  exact condTest_eq hf hsnd

/-- **C20** `ifeq "A" "B"`, with either kind of quote around each. -/
theorem C20_ifeq_quotes (s : σ) (p q : Char) (hpq : (p = '"' ∨ p = '\'') ∧ (q = '"' ∨ q = '\''))
    (a ws b rest : Str) (ha : p ∉ a) (hws : ∀ x ∈ ws, isSpace x = true) (hb : q ∉ b) :
    let line := p :: a ++ p :: (ws ++ q :: b ++ q :: rest)
    condTest E s .ifeq line = ((expandEq E s a b).1, some (expandEq E s a b).2) ∧
    condTest E s .ifneq line = ((expandEq E s a b).1, some (!(expandEq E s a b).2)) := by
  intro line
  have hp1 : ¬ (p = '(' ∨ p = ',') := by rcases hpq.1 with rfl | rfl <;> decide
  have hp2 : p ≠ ',' := fun h => hp1 (.inr h)
  have e1 := scanQuote_spec (q := p) (rest := ws ++ q :: b ++ q :: rest) a [] ha
  have e2 := scanQuote_spec (q := q) (rest := rest) b [] hb
  have e3 : nextToken (ws ++ q :: b ++ q :: rest) = q :: (b ++ q :: rest) := by
    rw [List.append_assoc]
    apply nextToken_of_split hws
    intro x hx
    cases hx
    rcases hpq.2 with rfl | rfl <;> decide
  have hf : ifeqFirst line = some (p, a, ws ++ q :: b ++ q :: rest) := by
    simp only [line, ifeqFirst, List.cons_append]
    rw [if_neg hp1, if_pos hpq.1]
    have e1' : scanQuote p [] (a ++ p :: (ws ++ q :: (b ++ q :: rest))) =
      some (a, ws ++ q :: (b ++ q :: rest)) := by simpa using e1
    simp [e1']
  have hsnd : ifeqSecond p (ws ++ q :: b ++ q :: rest) = some (b, rest) := by
    simp only [ifeqSecond, if_neg hp2, e3]
    rcases hpq.2 with rfl | rfl <;> simpa using e2
  exact condTest_eq hf hsnd

/-- **C21** The body of a `define` is the lines up to the matching `endef`, counting nested
pairs, and reading goes on after it.  Continuations are joined in each line.

Missing: nested `endef` lines are not kept exactly, see `C21_endef_comment`. -/
theorem C21_define_partial (posix : Bool) (c : Char) (ls body rest : List Str) :
    takeDefine posix c 1 ls = some (body, rest) ↔
      ∃ raw e, ls = raw ++ e :: rest ∧ Nested posix c raw ∧ Closes posix c e ∧
        body = raw.map (defineText posix c) := by
  constructor
  · intro h
    obtain ⟨raw, e, r1, a1, a2, a3, a4⟩ := takeDefine_inv _ ls (Nat.le_refl _) 0 body rest h
    rcases a4 with ⟨-, d2, rfl⟩ | ⟨_, d1, -⟩
    · exact ⟨raw, e, a3, a1, a2, d2⟩
    · omega
  · rintro ⟨raw, e, rfl, h1, h2, rfl⟩
    rw [takeDefine_nested h1 0, take_last ((mark_closes _ _ _).mpr h2)]
    simp

/-- **C21** Every line of the body other than an `endef` line is kept as it is, with its
continuations joined. -/
theorem C21_text (posix : Bool) (c : Char) (l : Str) (h : ¬ Closes posix c l) :
    defineText posix c l = collapseContinuations posix l := defineText_open h

/-- **C21** (deviation): the comment of a nested `endef` is lost from the value. -/
theorem C21_endef_comment :
    (takeDefine false '\t' 1 ["define B".toList, "endef # x".toList, "endef".toList]).map
      (fun r => defineValue r.1) = some "define B\nendef ".toList := by
  have m1 : defineMark false '\t' "define B".toList = 1 := by rw [mark_plain _ _ _ (by decide)]; decide
  have m2 : defineMark false '\t' "endef # x".toList = -1 := by rw [mark_plain _ _ _ (by decide)]; decide
  have m3 : defineMark false '\t' "endef".toList = -1 := by rw [mark_plain _ _ _ (by decide)]; decide
  have rc : removeComments [' ', '#', ' ', 'x'] = [' '] :=
    (C18_comments _ [' '] (some [' ', 'x']) (.char (by decide) (by decide) (by decide)
      (CommentRead.cut (k := 0) (comment := [' ', 'x'])))).1
  have t1 : defineText false '\t' "define B".toList = "define B".toList := by
    rw [defineText, C17_no_newline _ _ (by decide)]; decide
  have t2 : defineText false '\t' "endef # x".toList = "endef ".toList := by
    rw [defineText, C17_no_newline _ _ (by decide)]
    rw [if_pos (by decide)]
    have e : (nextToken "endef # x".toList).drop 5 = [' ', '#', ' ', 'x'] := by decide
    rw [e, rc]; decide
  rw [take_open m1, take_close m2, take_last m3]
  simp only [Option.map_some, t1, t2]
  decide

/-- **C21** Without a matching `endef` there is no value (a fatal error). -/
theorem C21_unterminated (posix : Bool) (c : Char) (ls : List Str)
    (h : ∀ raw e rest, Nested posix c raw → Closes posix c e → ls ≠ raw ++ e :: rest) :
    takeDefine posix c 1 ls = none := by
  cases ht : takeDefine posix c 1 ls with
  | none => rfl
  | some q =>
    obtain ⟨body, rest⟩ := q
    obtain ⟨raw, e, h1, h2, h3, -⟩ := (C21_define_partial posix c ls body rest).mp ht
    exact absurd h1 (h raw e rest h2 h3)

/-! ## A concrete environment -/

/-- Records what was interpreted; `X` is defined exactly if `d`. -/
def exEnv (d : Bool) : EvalEnv (List Str) where
  posix := false
  recipe := fun _ l => l.head? == some '\t'
  cmdPrefix := fun _ => '\t'
  assign := fun p =>
    if "define ".toList.isPrefixOf p then some true
    else if p.contains '=' then some false else none
  addRecipe := fun s l => s ++ [l]
  doAssign := fun s l => s ++ [l]
  doDefine := fun s h b => s ++ [h, b]
  other := fun s _ l => s ++ [l]
  expand := fun s t => (s, t)
  defined := fun _ w => d && w == "X".toList

theorem exText (d : Bool) {l : Str} (h : '\n' ∉ l ∧ '#' ∉ l ∧ '$' ∉ l) :
    evalText (exEnv d).posix l = nextToken l := evalText_plain _ _ h

theorem exDir (d : Bool) {l : Str} (h : ('\n' ∉ l ∧ '#' ∉ l ∧ '$' ∉ l) ∧ l ≠ [] ∧
    l.head? ≠ some '\t' ∧ (exEnv true).assign (nextToken l) = none) : Directive (exEnv d) l :=
  ⟨h.2.1, fun s => by simpa [exEnv] using h.2.2.1, by rw [exText d h.1]; exact h.2.2.2⟩

theorem exOpen (d : Bool) {l : Str} {k : CondKind} (h : ('\n' ∉ l ∧ '#' ∉ l ∧ '$' ∉ l) ∧ l ≠ [] ∧
    l.head? ≠ some '\t' ∧ (exEnv true).assign (nextToken l) = none)
    (hk : firstWord (nextToken l) = keyword k) : IsOpen (exEnv d) l k :=
  ⟨exDir d h, by rw [exText d h.1]; exact hk⟩

theorem exEndif (d : Bool) : IsEndif (exEnv d) "endif".toList :=
  ⟨exDir d (by decide), by rw [exText d (by decide)]; decide⟩

theorem exPlain (d : Bool) {l : Str} (hl : '\n' ∉ l ∧ '#' ∉ l ∧ '$' ∉ l)
    (h : (exEnv true).assign (nextToken l) = some false) : IsPlain (exEnv d) l := by
  intro _ s _
  rw [exText d hl]
  have h' : (exEnv d).assign (nextToken l) = some false := h
  rw [h']; simp

/-- `ifdef X / a=1 / else ifeq (p,q) / b=1 / else / c=1 / endif / d=1`. -/
def exBlk : Blk :=
  .cond "ifdef X".toList .ifdef (.plain "a=1".toList .nil)
    (.elif "else ifeq (p,q)".toList .ifeq (.plain "b=1".toList .nil)
      (.els "else".toList (.plain "c=1".toList .nil) "endif".toList))
    (.plain "d=1".toList .nil)

theorem exBlk_wf (d : Bool) : exBlk.WF (exEnv d) := by
  simp only [exBlk, Blk.WF, Tail.WF, and_true]
  refine ⟨exOpen d (by decide) (by decide), exPlain d (by decide) (by decide),
    ⟨⟨exDir d (by decide), ?_, ?_⟩, exPlain d (by decide) (by decide),
      ⟨exDir d (by decide), ?_, ?_⟩, exPlain d (by decide) (by decide), exEndif d⟩,
    exPlain d (by decide) (by decide)⟩
  all_goals rw [exText d (by decide)]; decide

/-- The hypotheses of C20 are met, and the two runs differ as they should. -/
example : exBlk.WF (exEnv true) ∧ exBlk.run (exEnv true) [] = .done ["a=1".toList, "d=1".toList] := by
  refine ⟨exBlk_wf true, ?_⟩
  have h1 : condTest (exEnv true) [] .ifdef (afterWord (nextToken "ifdef X".toList)) = ([], some true) := by decide
  have p : ∀ s l, '\n' ∉ l ∧ '#' ∉ l ∧ '$' ∉ l → l ≠ [] → l.head? ≠ some '\t' →
      (exEnv true).assign (nextToken l) = some false → runPlain (exEnv true) s l = s ++ [nextToken l] := by
    intro s l h a b c
    have hr : (exEnv true).recipe s l = false := by simpa [exEnv] using b
    rw [runPlain, if_neg a, hr, exText true h, if_pos c]; rfl
  simp only [exBlk, Blk.run, exText true (l := "ifdef X".toList) (by decide), h1, andThen]
  rw [p _ _ (by decide) (by decide) (by decide) (by decide), p _ _ (by decide) (by decide) (by decide) (by decide)]
  rfl
example : exBlk.WF (exEnv false) ∧ exBlk.run (exEnv false) [] = .done ["c=1".toList, "d=1".toList] := by
  refine ⟨exBlk_wf false, ?_⟩
  have h1 : condTest (exEnv false) [] .ifdef (afterWord (nextToken "ifdef X".toList)) = ([], some false) := by decide
  have h2 : condTest (exEnv false) [] .ifeq (afterWord (afterWord (nextToken "else ifeq (p,q)".toList))) =
    ([], some false) := by decide
  have p : ∀ s l, '\n' ∉ l ∧ '#' ∉ l ∧ '$' ∉ l → l ≠ [] → l.head? ≠ some '\t' →
      (exEnv false).assign (nextToken l) = some false → runPlain (exEnv false) s l = s ++ [nextToken l] := by
    intro s l h a b c
    have hr : (exEnv false).recipe s l = false := by simpa [exEnv] using b
    rw [runPlain, if_neg a, hr, exText false h, if_pos c]; rfl
  simp only [exBlk, Blk.run, Tail.run, exText false (l := "ifdef X".toList) (by decide),
    exText false (l := "else ifeq (p,q)".toList) (by decide), h1, h2, andThen]
  rw [p _ _ (by decide) (by decide) (by decide) (by decide), p _ _ (by decide) (by decide) (by decide) (by decide)]
  rfl

/-- The hypotheses of `C20_two_elses` are met by `ifdef X / else / a=1 / else ifeq (p,q)`. -/
example (d : Bool) : IsOpen (exEnv d) "ifdef X".toList .ifdef ∧ Blk.nil.WF (exEnv d) ∧
    (Blk.plain "a=1".toList .nil).WF (exEnv d) ∧ IsElse (exEnv d) "else".toList ∧
    Directive (exEnv d) "else ifeq (p,q)".toList ∧
    firstWord (evalText (exEnv d).posix "else ifeq (p,q)".toList) = "else".toList := by
  simp only [Blk.WF, and_true, true_and]
  refine ⟨exOpen d (by decide) (by decide), exPlain d (by decide) (by decide),
    ⟨exDir d (by decide), ?_, ?_⟩, exDir d (by decide), ?_⟩
  all_goals rw [exText d (by decide)]; decide

/-- Three levels of `define`. -/
example : Nested false '\t' ["define B".toList, "define C".toList, "endef".toList, "x".toList, "endef".toList] := by
  have o : ∀ l : Str, '\n' ∉ l → (if l.head? = some '\t' then 0 else if isDefineLine (nextToken l) then 1
      else if isEndefLine (nextToken l) then -1 else 0 : Int) = 1 → Opens false '\t' l :=
    fun l a b => (mark_opens _ _ _).mp (by rw [mark_plain _ _ _ a]; exact b)
  have c : ∀ l : Str, '\n' ∉ l → (if l.head? = some '\t' then 0 else if isDefineLine (nextToken l) then 1
      else if isEndefLine (nextToken l) then -1 else 0 : Int) = -1 → Closes false '\t' l :=
    fun l a b => (mark_closes _ _ _).mp (by rw [mark_plain _ _ _ a]; exact b)
  refine .pair (b := ["define C".toList, "endef".toList, "x".toList]) (ls := []) (o _ (by decide) (by decide))
    (.pair (b := []) (ls := ["x".toList]) (o _ (by decide) (by decide)) .nil (c _ (by decide) (by decide))
      (.text (fun h => ?_) (fun h => ?_) .nil)) (c _ (by decide) (by decide)) .nil
  · have := (mark_opens _ _ _).mpr h; rw [mark_plain _ _ _ (by decide)] at this; exact absurd this (by decide)
  · have := (mark_closes _ _ _).mpr h; rw [mark_plain _ _ _ (by decide)] at this; exact absurd this (by decide)

/-- `C20_ifeq_paren` applies to `ifeq (f(a,b) , f(a,b))`. -/
example : NoTopComma "f(a,b)".toList := by
  intro x y h
  have hl : x.length = 3 := by
    have h1 : ("f(a,b)".toList)[x.length]? = some ',' := by rw [h]; simp
    have hlt : x.length < 6 := by
      have := congrArg List.length h; simp at this; omega
    have : ∀ n, n < 6 → ("f(a,b)".toList)[n]? = some ',' → n = 3 := by decide
    exact this _ hlt h1
  have : x = "f(a".toList := by
    have := congrArg (List.take 3) h
    rw [← hl, List.take_left, hl] at this
    exact this.symm
  subst this; decide

/-- The makefile of `C21_ignored_nested`. -/
def exNested : List Str :=
  ["ifdef X".toList, "define A".toList, "define B".toList, "endef".toList, "endif".toList,
   "endef".toList, "endif".toList]

/-- **C20/C21** (deviation): in skipped text the first `endef` ends a `define`, nested pairs
not being counted.  This properly nested makefile is read if `X` is defined, and is a
fatal error if it is not. -/
theorem C21_ignored_nested :
    evalLines (exEnv true) [] exNested = .done ["define A".toList, "define B\nendef\nendif".toList] ∧
    evalLines (exEnv false) [] exNested = .fatal := by
  have step : ∀ d, IsOpen (exEnv d) "ifdef X".toList .ifdef := fun d => exOpen d (by decide) (by decide)
  have m : ∀ (l : Str) (z : Int), '\n' ∉ l → (if l.head? = some '\t' then 0
      else if isDefineLine (nextToken l) then 1 else if isEndefLine (nextToken l) then -1 else 0) = z →
      defineMark false '\t' l = z := fun l z a b => by rw [mark_plain _ _ _ a]; exact b
  have mE : defineMark false '\t' "endef".toList = -1 := m _ _ (by decide) (by decide)
  have aD : ∀ d, (exEnv d).assign (nextToken "define A".toList) = some true := fun d => by
    cases d <;> decide
  constructor
  · rw [evalLines, exNested, line_open (step true), exText true (by decide)]
    have : openCond (exEnv true) [] [] .ifdef (afterWord (nextToken "ifdef X".toList)) =
      ([], some [⟨0, false⟩]) := by decide
    rw [this]
    simp only
    rw [evalLoop.eq_def]
    have rc : removeComments [] = [] := (C18_comments _ _ _ .nil).1
    have t1 : defineText false '\t' "define B".toList = "define B".toList := by
      rw [defineText, C17_no_newline _ _ (by decide)]; decide
    have t2 : defineText false '\t' "endef".toList = "endef".toList := by
      rw [defineText, C17_no_newline _ _ (by decide)]
      rw [if_pos (by decide)]
      have e : (nextToken "endef".toList).drop 5 = [] := by decide
      rw [e, rc]; decide
    have t3 : defineText false '\t' "endif".toList = "endif".toList := by
      rw [defineText, C17_no_newline _ _ (by decide)]; decide
    have ht : takeDefine (exEnv true).posix ((exEnv true).cmdPrefix []) 1
        ["define B".toList, "endef".toList, "endif".toList, "endef".toList, "endif".toList] =
        some (["define B".toList, "endef".toList, "endif".toList], ["endif".toList]) := by
      show takeDefine false '\t' 1 _ = _
      rw [take_open (m _ _ (by decide) (by decide)), take_close mE,
        take_text (m _ _ (by decide) (by decide)), take_last mE]
      simp only [Option.map_some, t1, t2, t3]
    have ha : (exEnv true).assign (evalText (exEnv true).posix "define A".toList) = some true := by
      rw [exText true (by decide)]; exact aD true
    have hr : (exEnv true).recipe [] "define A".toList = false := by decide
    have h0 : anyIgnoring [⟨0, false⟩] = false := by decide
    have hne : ¬ ("define A".toList = []) := by decide
    simp only [if_neg hne, hr, ha, Bool.false_eq_true, h0, if_true, if_false]
    split
    · next hn => rw [ht] at hn; cases hn
    · next b r hn =>
      rw [ht] at hn
      cases hn
      rw [line_endif (exEndif true), evalLoop.eq_def, exText true (by decide)]
      simp only [if_true]
      congr 1
  · rw [evalLines, exNested, line_open (step false), exText false (by decide)]
    have : openCond (exEnv false) [] [] .ifdef (afterWord (nextToken "ifdef X".toList)) =
      ([], some [⟨1, false⟩]) := by decide
    rw [this]
    have h1 : anyIgnoring [⟨1, false⟩] = true := by decide
    simp only [h1]
    have def_ : ∀ (l : Str) (i : Bool) (ls : List Str), '\n' ∉ l ∧ '#' ∉ l ∧ '$' ∉ l → l ≠ [] →
        l.head? ≠ some '\t' → (exEnv false).assign (nextToken l) = some true →
        evalLoop (exEnv false) [] [⟨1, false⟩] true i (l :: ls) =
        evalLoop (exEnv false) [] [⟨1, false⟩] true true ls := by
      intro l i ls hp h1 h2 h3
      have hr : (exEnv false).recipe [] l = false := by simpa [exEnv] using h2
      rw [evalLoop.eq_def]
      simp [h1, hr, exText false hp, h3]
    rw [def_ _ _ _ (by decide) (by decide) (by decide) (by decide),
      def_ _ _ _ (by decide) (by decide) (by decide) (by decide)]
    have he : IsEndef (exEnv false) "endef".toList :=
      ⟨exDir false (by decide), fun s => mE, by rw [exText false (by decide)]; decide⟩
    have := skip_body (s := ([] : List Str)) (conds := [⟨1, false⟩])
      (ls := ["endif".toList, "endef".toList, "endif".toList]) he [] (by simp)
    rw [List.nil_append] at this
    rw [this, line_endif (exEndif false)]
    have pl : IsPlain (exEnv false) "endef".toList := by
      intro _ s _
      rw [exText false (by decide)]
      refine ⟨by decide, fun _ => ?_⟩
      rintro (⟨k, hk⟩ | hk | hk)
      · cases k <;> exact absurd hk (by decide)
      · exact absurd hk (by decide)
      · exact absurd hk (by decide)
    have h0 : anyIgnoring [] = false := by decide
    rw [h0, line_plain pl]
    have hw : condWord (tokenPrefix (evalText (exEnv false).posix "endif".toList)) = some .endif := by
      rw [exText false (by decide)]; decide
    rw [evalLoop_dir (exEndif false).1 hw]
    simp only [conditionalLine, hw]

end Remake
