import Verif.Says.Lemmas
set_option linter.unusedVariables false
set_option linter.unusedSimpArgs false
/-!
# C146: what makefiles say, and the places that messages name
-/
namespace Remake
open Spec

/-- A makefile used in the examples. -/
def sayEx : Str := "a:\n\t@echo \\\n x\n# c\n\t$(warning w)\n".toList

theorem sayEx_lines : numberLines 1 [("a:".toList, 1), ("\t@echo \\\n x".toList, 2), ("# c".toList, 1), ("\t$(warning w)".toList, 1)] =
    [("a:".toList, 1)] ++ [] ++ ('\t' :: "@echo \\\n x".toList, 2) :: ([("# c".toList, 4)] ++ ('\t' :: "$(warning w)".toList, 5) :: []) := by
  decide +kernel

theorem sayEx_read : readFile sayEx =
    some [("a:".toList, 1), ("\t@echo \\\n x".toList, 2), ("# c".toList, 1), ("\t$(warning w)".toList, 1)] := by
  obtain ⟨ls, e, c⟩ := C16_file_partial sayEx (by decide +kernel)
  have d : CountedLines (dropCr sayEx) [("a:".toList, 1), ("\t@echo \\\n x".toList, 2), ("# c".toList, 1), ("\t$(warning w)".toList, 1)] := by
    have e0 : dropCr sayEx = "a:".toList ++ '\n' :: ("\t@echo \\\n x".toList ++ '\n' :: ("# c".toList ++ '\n' :: ("\t$(warning w)".toList ++ '\n' :: []))) := by
      decide +kernel
    rw [e0]
    have he : AllEscaped ("\t@echo ".toList ++ ['\\'] ++ ['\n'] ++ " x".toList) :=
      allEscaped_append_no_nl (allEscaped_snoc (allEscaped_no_nl (l := "\t@echo ".toList) (by decide)) (by decide) (by decide)) (by decide)
    refine .line (allEscaped_no_nl (by decide)) (by rw [endsOdd_iff]; decide) ?_
    refine .line (l := "\t@echo \\\n x".toList) he (by rw [endsOdd_iff]; decide) ?_
    refine .line (allEscaped_no_nl (by decide)) (by rw [endsOdd_iff]; decide) ?_
    refine .line (allEscaped_no_nl (by decide)) (by rw [endsOdd_iff]; decide) .nil
  rw [e, c.unique d]

/-- **C146** While a line of a makefile is evaluated, messages name the makefile and the number at which the line stands in it; for a line
with continuations, the number at which it begins. -/
theorem C146_line_partial (file text : Str) (h0 : '\x00' ∉ text) :
    ∃ ls, makefilePlaces file text = some ls ∧ ls.map (·.1) = ((readFile text).getD []).map (·.1) ∧
      ∀ l p, (l, p) ∈ ls → ∃ n, sayLoc (some p) = some (file, n) ∧ StandsAt (dropCr text) l n := by
  obtain ⟨ls, e, c⟩ := C16_file_partial text h0
  refine ⟨_, by rw [makefilePlaces, e]; rfl, ?_, ?_⟩
  · rw [e]
    have : ∀ n, ((numberLines n ls).map fun l => l.1) = ls.map (·.1) := by
      intro n
      clear e c
      induction ls generalizing n with
      | nil => rfl
      | cons l ls ih => obtain ⟨l, k⟩ := l; simp [numberLines, ih]
    rw [List.map_map]; simpa [Function.comp_def] using this 1
  · intro l p hp
    simp only [List.mem_map] at hp
    obtain ⟨⟨l', n⟩, hm, he⟩ := hp
    simp at he
    obtain ⟨rfl, rfl⟩ := he
    obtain ⟨x, y, e'⟩ := List.append_of_mem hm
    obtain ⟨a, b, e1, e2, e3, e4, _⟩ := numberLines_spec c 1 x l' n y e'
    exact ⟨n, rfl, a, b, e1, by omega, e3, e4⟩

example : '\x00' ∉ sayEx ∧ StandsAt sayEx "# c".toList 4 := by
  refine ⟨by decide +kernel, "a:\n\t@echo \\\n x\n".toList, "\n\t$(warning w)\n".toList, ?_, ?_, ?_, ?_⟩
  · decide +kernel
  · decide +kernel
  · right; decide +kernel
  · right; decide +kernel

/-- **C146** `$(warning)` and `$(error)` write the text after the place on standard error; `$(info)` writes the text alone on standard
output; only `$(error)` ends make, with status 2.  Without a place, the program and its level are named. -/
theorem C146_says (program : Str) (level : Nat) (stop : Str) (file : Str) (n o : Nat) (text : Str) :
    funcError program level stop (some ⟨some file, n, o⟩) .warning [text] =
        ⟨[], file ++ ":".toList ++ Nat.toDigits 10 (n + o) ++ ": ".toList ++ text ++ "\n".toList, none⟩ ∧
      funcError program level stop (some ⟨some file, n, o⟩) .error [text] =
        ⟨[], file ++ ":".toList ++ Nat.toDigits 10 (n + o) ++ ": *** ".toList ++ text ++ stop, some 2⟩ ∧
      (∀ p, funcError program level stop p .info [text] = ⟨text ++ "\n".toList, [], none⟩) ∧
      (∀ p, sayLoc p = none →
        funcError program level stop p .warning [text] =
          ⟨[], program ++ (if level = 0 then [] else "[".toList ++ Nat.toDigits 10 level ++ "]".toList) ++ ": ".toList ++ text ++ "\n".toList, none⟩) := by
  refine ⟨?_, ?_, fun p => ?_, fun p h => ?_⟩
  · simp [funcError, errorText, sayLoc, sayJoin, renderFmt, FmtPiece.render, locPrefix]
  · simp [funcError, fatalText, sayLoc, sayJoin, renderFmt, FmtPiece.render, locPrefix]
  · simp [funcError, sayJoin]
  · by_cases hl : level = 0 <;>
      simp [funcError, errorText, h, sayJoin, renderFmt, FmtPiece.render, programPrefix, hl]

example : (funcError "make".toList 0 ".  Stop.\n".toList (some ⟨some "Makefile".toList, 12, 0⟩) .error ["no, not so".toList]).err =
    "Makefile:12: *** no, not so.  Stop.\n".toList := by decide +kernel

/-- The lines of a recipe whose first line is `t0`, and the places at which they are expanded. -/
theorem recipe_at (pre : Char) (hp : pre ≠ '\\') (file : Option Str) (n0 : Nat) (t0 : Str) (m b : List (Str × Nat)) (t : Str) (n : Nat)
    (h0 : AllEscaped t0 ∧ ¬ EndsOdd t0)
    (hm : ∀ l ∈ m, RecipeLine pre l.1 ∨ BlankOrComment pre l.1)
    (hw : ∀ l ∈ m ++ (pre :: t, n) :: b, AllEscaped l.1 ∧ ¬ EndsOdd l.1) (hlen : (m ++ (pre :: t, n) :: b).length + 1 < 2 ^ 16) :
    (recipePlaces pre file n0 (t0 ++ ['\n']) (m ++ (pre :: t, n) :: b))[0]? = some (t0, ⟨file, n0, 0⟩) ∧
    (recipePlaces pre file n0 (t0 ++ ['\n']) (m ++ (pre :: t, n) :: b))[(recipeTexts pre m).length + 1]? =
      some (t, ⟨file, n0, (recipeTexts pre m).length + 1⟩) := by
  obtain ⟨ts, e, s⟩ := takeRecipe_more pre b n0 (t0 ++ ['\n'] ++ (recipeTexts pre m).flatMap (· ++ ['\n']) ++ t ++ ['\n']) (by simp)
  have e1 : takeRecipe pre n0 (t0 ++ ['\n']) (m ++ (pre :: t, n) :: b) =
      (n0, (t0 :: (recipeTexts pre m ++ t :: ts)).flatMap (· ++ ['\n'])) := by
    rw [takeRecipe_append pre m _ n0 _ (by simp) hm]
    simp only [takeRecipe, if_true]
    rw [if_neg (by simp), e]
    simp
  have hs : (t0 :: (recipeTexts pre m ++ t :: ts)).length < 2 ^ 16 := by
    have l1 : (recipeTexts pre m).length ≤ m.length := by
      unfold recipeTexts; rw [List.length_map]; exact List.length_filter_le _ _
    have l2 : (recipeTexts pre b).length ≤ b.length := by
      unfold recipeTexts; rw [List.length_map]; exact List.length_filter_le _ _
    have l3 := s.length_le
    simp at hlen ⊢
    omega
  have wt : ∀ x ls, (∀ l ∈ ls, AllEscaped l.1 ∧ ¬ EndsOdd l.1) → x ∈ recipeTexts pre ls → AllEscaped x ∧ ¬ EndsOdd x := by
    intro x ls hl hx
    unfold recipeTexts at hx
    simp only [List.mem_map, List.mem_filter] at hx
    obtain ⟨⟨l, k⟩, ⟨h1, h2⟩, rfl⟩ := hx
    have := hl _ h1
    cases l with
    | nil => simp at h2
    | cons c l =>
      simp at h2
      subst h2
      exact ⟨allEscaped_tail hp this.1, fun o => this.2 ((endsOdd_cons hp).2 o)⟩
  have hc := chop_join (t0 :: (recipeTexts pre m ++ t :: ts)) (by
    intro x hx
    simp only [List.mem_cons, List.mem_append] at hx
    rcases hx with rfl | hx | rfl | hx
    · exact h0
    · exact wt x m (fun l hl => hw l (by simp [hl])) hx
    · have := hw (pre :: x, n) (by simp)
      exact ⟨allEscaped_tail hp this.1, fun o => this.2 ((endsOdd_cons hp).2 o)⟩
    · exact wt x b (fun l hl => hw l (by simp [hl])) (s.subset hx)) hs
  unfold recipePlaces
  rw [e1]
  simp only [hc]
  constructor
  · simp
  · rw [List.getElem?_mapIdx]
    simp

theorem sum_extra (pre : Char) (m : List (Str × Nat)) (hm : ∀ l ∈ m, RecipeLine pre l.1 ∨ BlankOrComment pre l.1) :
    (recipeTexts pre m).length ≤ (m.map fun z => z.1.count '\n' + 1).sum ∧
    ((recipeTexts pre m).length = (m.map fun z => z.1.count '\n' + 1).sum ↔ ∀ l ∈ m, RecipeLine pre l.1 ∧ '\n' ∉ l.1) := by
  induction m with
  | nil => simp [recipeTexts]
  | cons l m ih =>
    obtain ⟨i1, i2⟩ := ih fun x hx => hm x (by simp [hx])
    by_cases h : l.1.head? = some pre
    · have e : (recipeTexts pre (l :: m)).length = (recipeTexts pre m).length + 1 := by simp [recipeTexts, h]
      rw [e]
      simp only [List.map_cons, List.sum_cons, List.mem_cons, forall_eq_or_imp]
      refine ⟨by omega, ?_⟩
      rw [← i2]
      constructor
      · intro q
        refine ⟨⟨h, ?_⟩, by omega⟩
        rw [← List.count_eq_zero]; omega
      · rintro ⟨⟨_, q⟩, r⟩
        rw [← List.count_eq_zero] at q
        omega
    · have e : (recipeTexts pre (l :: m)).length = (recipeTexts pre m).length := by simp [recipeTexts, h]
      rw [e]
      simp only [List.map_cons, List.sum_cons, List.mem_cons, forall_eq_or_imp]
      refine ⟨by omega, ?_⟩
      constructor
      · intro q; omega
      · rintro ⟨⟨q, _⟩, _⟩; exact absurd q h

/-- **C146** While a line of a recipe is expanded, messages name the number of the recipe's first line and count one for each line of the
recipe.  That number is never too large; it is the number at which the line stands exactly if all lines from the first on to that line are
lines of the recipe without continuations, with nothing in between. -/
theorem C146_recipe_partial (file text : Str) (h0 : '\x00' ∉ text) (he : (dropCr text).getLast? ≠ some '\\') (pre : Char) (hp : pre ≠ '\\')
    (lines : List (Str × Int)) (hr : readFile text = some lines) (hlen : lines.length + 1 < 2 ^ 16) (x a m b : List (Str × Nat))
    (t0 t : Str) (n0 n : Nat) (hn : numberLines 1 lines = x ++ a ++ (pre :: t0, n0) :: (m ++ (pre :: t, n) :: b))
    (ha : ∀ l ∈ a, BlankOrComment pre l.1) (hm : ∀ l ∈ m, RecipeLine pre l.1 ∨ BlankOrComment pre l.1) (start : Nat) :
    ∃ i, (recipePlaces pre (some file) start [] (a ++ (pre :: t0, n0) :: (m ++ (pre :: t, n) :: b)))[i]? = some (t, ⟨some file, n0, i⟩) ∧
      (recipePlaces pre (some file) start [] (a ++ (pre :: t0, n0) :: (m ++ (pre :: t, n) :: b)))[0]? = some (t0, ⟨some file, n0, 0⟩) ∧
      StandsAt (dropCr text) (pre :: t0) n0 ∧ StandsAt (dropCr text) (pre :: t) n ∧
      n0 + i ≤ n ∧ (n0 + i = n ↔ ∀ l ∈ (pre :: t0, n0) :: m, RecipeLine pre l.1 ∧ '\n' ∉ l.1) := by
  obtain ⟨ls, e, c⟩ := C16_file_partial text h0
  rw [hr] at e
  obtain rfl := Option.some.inj e
  have hall : ∀ l ∈ numberLines 1 lines, AllEscaped l.1 ∧ ¬ EndsOdd l.1 ∧ StandsAt (dropCr text) l.1 l.2 := by
    intro l hl
    obtain ⟨u, v, e'⟩ := List.append_of_mem hl
    obtain ⟨a', b', e1, e2, e3, e4, e5, e6⟩ := numberLines_spec c 1 u l.1 l.2 v e'
    exact ⟨e5, fun o => he (e6 o), a', b', e1, by omega, e3, e4⟩
  have hlen' : (numberLines 1 lines).length = lines.length := by
    have : ∀ k, (numberLines k lines).length = lines.length := by
      clear hr hlen hn hall e c
      induction lines with
      | nil => intro k; rfl
      | cons l ls ih => intro k; obtain ⟨l, q⟩ := l; simp [numberLines, ih]
    exact this 1
  have w0 := hall (pre :: t0, n0) (by rw [hn]; simp)
  have w1 := hall (pre :: t, n) (by rw [hn]; simp)
  have sk : recipePlaces pre (some file) start [] (a ++ (pre :: t0, n0) :: (m ++ (pre :: t, n) :: b)) =
      recipePlaces pre (some file) n0 (t0 ++ ['\n']) (m ++ (pre :: t, n) :: b) := by
    unfold recipePlaces
    rw [takeRecipe_skip pre a _ start [] ha]
    simp [takeRecipe]
  rw [sk]
  have R := recipe_at pre hp (some file) n0 t0 m b t n ⟨allEscaped_tail hp w0.1, fun o => w0.2.1 ((endsOdd_cons hp).2 o)⟩ hm
    (fun l hl => by
      have := hall l (by rw [hn]; simp only [List.mem_append, List.mem_cons] at hl ⊢; exact .inr (.inr hl))
      exact ⟨this.1, this.2.1⟩)
    (by
      rw [hn] at hlen'
      simp only [List.length_append, List.length_cons] at hlen' ⊢
      omega)
  have S := numberLines_next c 1 (x ++ a) (pre :: t0) n0 m (pre :: t) n b (by rw [hn])
  obtain ⟨q1, q2⟩ := sum_extra pre m hm
  refine ⟨_, R.2, R.1, w0.2.2, w1.2.2, ?_, ?_⟩
  · rw [S]
    simp only [List.map_cons, List.sum_cons]
    omega
  · rw [S]
    simp only [List.map_cons, List.sum_cons]
    rw [List.forall_mem_cons, ← q2]
    constructor
    · intro h
      refine ⟨⟨rfl, ?_⟩, by omega⟩
      show '\n' ∉ pre :: t0
      rw [← List.count_eq_zero]; omega
    · rintro ⟨⟨_, h⟩, h'⟩
      have h : '\n' ∉ pre :: t0 := h
      rw [← List.count_eq_zero] at h
      omega

/-- **C146** The same for a recipe that begins on the line of the rule, after a semicolon. -/
theorem C146_semicolon_partial (file text : Str) (h0 : '\x00' ∉ text) (he : (dropCr text).getLast? ≠ some '\\') (pre : Char) (hp : pre ≠ '\\')
    (lines : List (Str × Int)) (hr : readFile text = some lines) (hlen : lines.length + 1 < 2 ^ 16) (x m b : List (Str × Nat))
    (r t0 t : Str) (n0 n : Nat) (hn : numberLines 1 lines = x ++ (r ++ ';' :: t0, n0) :: (m ++ (pre :: t, n) :: b))
    (hm : ∀ l ∈ m, RecipeLine pre l.1 ∨ BlankOrComment pre l.1) :
    ∃ i, (recipePlaces pre (some file) n0 (t0 ++ ['\n']) (m ++ (pre :: t, n) :: b))[i]? = some (t, ⟨some file, n0, i⟩) ∧
      (recipePlaces pre (some file) n0 (t0 ++ ['\n']) (m ++ (pre :: t, n) :: b))[0]? = some (t0, ⟨some file, n0, 0⟩) ∧
      StandsAt (dropCr text) (r ++ ';' :: t0) n0 ∧ StandsAt (dropCr text) (pre :: t) n ∧
      n0 + i ≤ n ∧ (n0 + i = n ↔ '\n' ∉ r ++ ';' :: t0 ∧ ∀ l ∈ m, RecipeLine pre l.1 ∧ '\n' ∉ l.1) := by
  obtain ⟨ls, e, c⟩ := C16_file_partial text h0
  rw [hr] at e
  obtain rfl := Option.some.inj e
  have hall : ∀ l ∈ numberLines 1 lines, AllEscaped l.1 ∧ ¬ EndsOdd l.1 ∧ StandsAt (dropCr text) l.1 l.2 := by
    intro l hl
    obtain ⟨u, v, e'⟩ := List.append_of_mem hl
    obtain ⟨a', b', e1, e2, e3, e4, e5, e6⟩ := numberLines_spec c 1 u l.1 l.2 v e'
    exact ⟨e5, fun o => he (e6 o), a', b', e1, by omega, e3, e4⟩
  have hlen' : (numberLines 1 lines).length = lines.length := by
    have : ∀ k, (numberLines k lines).length = lines.length := by
      clear hr hlen hn hall e c
      induction lines with
      | nil => intro k; rfl
      | cons l ls ih => intro k; obtain ⟨l, q⟩ := l; simp [numberLines, ih]
    exact this 1
  have w0 := hall (r ++ ';' :: t0, n0) (by rw [hn]; simp)
  have w1 := hall (pre :: t, n) (by rw [hn]; simp)
  have strip : ∀ u v : Str, EndsOdd (u ++ ';' :: v) ↔ EndsOdd v := by
    intro u v
    rw [endsOdd_iff, endsOdd_iff]
    have : trailingBs (u ++ ';' :: v) = trailingBs v := by
      unfold trailingBs
      rw [List.reverse_append, List.reverse_cons, List.append_assoc]
      generalize v.reverse = w
      induction w with
      | nil => simp
      | cons c w ih =>
        simp only [List.cons_append, List.takeWhile_cons]
        split
        · simp only [List.length_cons, List.cons_append, List.nil_append] at ih ⊢; rw [ih]
        · rfl
    rw [this]
  have wt0 : AllEscaped t0 ∧ ¬ EndsOdd t0 := by
    refine ⟨?_, fun o => w0.2.1 ((strip _ _).2 o)⟩
    intro u v e'
    refine (strip r u).1 (w0.1 (r ++ ';' :: u) v ?_)
    simp [e']
  have R := recipe_at pre hp (some file) n0 t0 m b t n wt0 hm
    (fun l hl => by
      have := hall l (by rw [hn]; simp only [List.mem_append, List.mem_cons] at hl ⊢; exact .inr (.inr hl))
      exact ⟨this.1, this.2.1⟩)
    (by
      rw [hn] at hlen'
      simp only [List.length_append, List.length_cons] at hlen' ⊢
      omega)
  have S := numberLines_next c 1 x (r ++ ';' :: t0) n0 m (pre :: t) n b (by rw [hn])
  obtain ⟨q1, q2⟩ := sum_extra pre m hm
  refine ⟨_, R.2, R.1, w0.2.2, w1.2.2, ?_, ?_⟩
  · rw [S]
    simp only [List.map_cons, List.sum_cons]
    omega
  · rw [S]
    simp only [List.map_cons, List.sum_cons]
    rw [← q2, ← List.count_eq_zero]
    constructor
    · intro h; exact ⟨by omega, by omega⟩
    · rintro ⟨h, h'⟩; omega

/-- **C146** Negation: in this makefile the message of the second recipe line names line 3, though it stands at line 5, after a recipe line with
a continuation and a comment. -/
theorem C146_wrong_line :
    readFile sayEx = some [("a:".toList, 1), ("\t@echo \\\n x".toList, 2), ("# c".toList, 1), ("\t$(warning w)".toList, 1)] ∧
    (recipePlaces '\t' (some "Makefile".toList) 1 []
      ((numberLines 1 [("a:".toList, 1), ("\t@echo \\\n x".toList, 2), ("# c".toList, 1), ("\t$(warning w)".toList, 1)]).drop 1))[1]? =
        some ("$(warning w)".toList, ⟨some "Makefile".toList, 2, 1⟩) ∧
    StandsAt (dropCr sayEx) "\t$(warning w)".toList 5 ∧
    (funcError "make".toList 0 ".  Stop.\n".toList (some ⟨some "Makefile".toList, 2, 1⟩) .warning ["w".toList]).err = "Makefile:3: w\n".toList := by
  have ha : ∀ l ∈ ([] : List (Str × Nat)), BlankOrComment '\t' l.1 := by simp
  have hm : ∀ l ∈ [("# c".toList, 4)], RecipeLine '\t' l.1 ∨ BlankOrComment '\t' l.1 := by
    intro l hl
    simp only [List.mem_singleton] at hl
    subst hl
    exact .inr ⟨by decide, [], "# c".toList, rfl, by simp, .inr rfl⟩
  obtain ⟨i, r1, r2, r3, r4, r5, r6⟩ := C146_recipe_partial "Makefile".toList sayEx (by decide +kernel) (by decide +kernel) '\t' (by decide) _
    sayEx_read (by decide) _ _ _ _ _ _ _ _ sayEx_lines ha hm 1
  have e1 : i = 1 := by
    have : (recipePlaces '\t' (some "Makefile".toList) 1 [] ([] ++ ('\t' :: "@echo \\\n x".toList, 2) :: ([("# c".toList, 4)] ++ ('\t' :: "$(warning w)".toList, 5) :: []))).length = 2 := by
      have := takeRecipe_append '\t' [("# c".toList, 4)] [('\t' :: "$(warning w)".toList, 5)] 2 ("@echo \\\n x".toList ++ ['\n']) (by simp) hm
      unfold recipePlaces
      rw [List.length_mapIdx]
      have e : (takeRecipe '\t' 1 [] ([] ++ ('\t' :: "@echo \\\n x".toList, 2) :: ([("# c".toList, 4)] ++ ('\t' :: "$(warning w)".toList, 5) :: []))).2 =
          (["@echo \\\n x".toList, "$(warning w)".toList] : List Str).flatMap (· ++ ['\n']) := by decide +kernel
      rw [e, chop_join]
      · rfl
      · intro t ht
        simp only [List.mem_cons, List.not_mem_nil, or_false] at ht
        rcases ht with rfl | rfl
        · have he : AllEscaped ("@echo ".toList ++ ['\\'] ++ ['\n'] ++ " x".toList) :=
            allEscaped_append_no_nl (allEscaped_snoc (allEscaped_no_nl (l := "@echo ".toList) (by decide)) (by decide) (by decide)) (by decide)
          exact ⟨he, by rw [endsOdd_iff]; decide⟩
        · exact ⟨allEscaped_no_nl (by decide), by rw [endsOdd_iff]; decide⟩
      · decide
    have l := (List.getElem?_eq_some_iff.1 r1).1
    rw [this] at l
    rcases Nat.lt_or_ge i 1 with h | h
    · have : i = 0 := by omega
      subst this
      rw [r2] at r1
      have := congrArg (fun o => o.map Prod.fst) r1
      simp only [Option.map_some, Option.some.injEq] at this
      exact absurd this (by decide)
    · omega
  subst e1
  refine ⟨sayEx_read, ?_, r4, by decide +kernel⟩
  rw [sayEx_lines]
  exact r1

/-- **C146** All lines of a text that `$(eval)` evaluates have the place of the `$(eval)`. -/
theorem C146_eval (p : SayFloc) (text : Str) :
    (evalPlaces none (some p) text).map (·.1) = readString text ∧ ∀ l q, (l, q) ∈ evalPlaces none (some p) text → q = p := by
  have key : ∀ (ls : List Str) n, numberLines n (ls.map fun l => (l, (0 : Int))) = ls.map fun l => (l, n) := by
    intro ls n
    induction ls with
    | nil => rfl
    | cons l ls ih => simp [numberLines, ih]
  unfold evalPlaces evalNumbered
  simp only [key]
  constructor
  · simp [Function.comp_def]
  · intro l q h
    simp [evalFloc] at h
    obtain ⟨_, _, _, h⟩ := h
    rw [← h]

example : (evalPlaces none (some ⟨some "Makefile".toList, 7, 0⟩) "x = 1\n$(warning w)".toList).map (·.2) =
    [⟨some "Makefile".toList, 7, 0⟩, ⟨some "Makefile".toList, 7, 0⟩] := by decide +kernel

/-- **C146** Negation: the recipe of a rule that comes from `$(eval)` counts on from the line of the `$(eval)`: its second line and those after
it get the numbers of lines that have nothing to do with it. -/
theorem C146_eval_recipe (p : SayFloc) (pre : Char) (hp : pre ≠ '\\') (ts : List Str) (h : ∀ t ∈ ts, AllEscaped t ∧ ¬ EndsOdd t)
    (hn : ts.length < 2 ^ 16) (start i : Nat) (hi : i < ts.length) :
    (recipePlaces pre p.file start [] (ts.map fun t => (pre :: t, p.line)))[i]? = some (ts[i], ⟨p.file, p.line, i⟩) := by
  cases ts with
  | nil => simp at hi
  | cons t0 ts =>
    have e : takeRecipe pre start [] ((t0 :: ts).map fun t => (pre :: t, p.line)) =
        (p.line, (t0 :: ts).flatMap (· ++ ['\n'])) := by
      have a := takeRecipe_append pre (ts.map fun t => (pre :: t, p.line)) [] p.line (t0 ++ ['\n']) (by simp)
        (by intro l hl; left; simp only [List.mem_map] at hl; obtain ⟨t, _, rfl⟩ := hl; rfl)
      have r : recipeTexts pre (ts.map fun t => (pre :: t, p.line)) = ts := by
        unfold recipeTexts
        clear a hn hi h
        induction ts with
        | nil => rfl
        | cons t ts ih => simp at ih ⊢; exact ih
      rw [List.append_nil, r] at a
      simp only [List.map_cons, takeRecipe, if_true, List.nil_append]
      rw [a]
      simp [takeRecipe]
    unfold recipePlaces
    rw [e]
    simp only
    rw [chop_join _ h hn, List.getElem?_mapIdx, List.getElem?_eq_getElem hi]
    rfl

example : (∀ t ∈ ["@echo 1".toList, "$(warning w)".toList], AllEscaped t ∧ ¬ EndsOdd t) := by
  intro t ht
  simp only [List.mem_cons, List.not_mem_nil, or_false] at ht
  rcases ht with rfl | rfl <;> exact ⟨allEscaped_no_nl (by decide), by rw [endsOdd_iff]; decide⟩

/-- **C146** While a variable is expanded for a recipe that has no place (a built-in rule), messages name the place at which the outermost
recursive variable was defined; when a recipe with a place is expanded, or a makefile read, the variable's place does not matter. -/
theorem C146_variable (r v w : SayFloc) :
    (r.file = none → sayLoc (varReading (varReading (fileReading r) v) w) = sayLoc (some v)) ∧
    (∀ f, r.file = some f → sayLoc (varReading (varReading (fileReading r) v) w) = some (f, r.line + r.offset)) := by
  constructor
  · intro h
    simp [fileReading, h, varReading]
  · intro f h
    obtain ⟨rf, rl, ro⟩ := r
    simp at h
    subst h
    simp [fileReading, varReading, sayLoc]

example : sayLoc (varReading (varReading (fileReading ⟨none, 0, 0⟩) ⟨some "Makefile".toList, 3, 0⟩) ⟨some "x.mk".toList, 9, 0⟩) =
    some ("Makefile".toList, 3) := by decide +kernel

end Remake
