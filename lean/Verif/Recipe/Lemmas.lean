import Verif.Recipe.Spec
import Verif.Cmds.Lemmas
/-! The run of a recipe, over its list of commands. -/
set_option linter.unusedSimpArgs false
namespace Remake
open Spec

theorem dropPrefixes_unprefixed (pre : Char) (s : Str) : dropPrefixes pre s = unprefixed pre false s := by
  fun_induction dropPrefixes pre s with
  | case1 => rfl
  | case2 c s h ih =>
    obtain ⟨rfl, h⟩ := h
    cases s with
    | nil => simp at h
    | cons d s =>
      simp only [List.head?_cons, Option.some.injEq] at h
      subst h
      simp [unprefixed] at ih ⊢
      exact ih
  | case3 c s h ih =>
    rw [unprefixed, if_neg (by simp), ih]
    congr 1
    by_cases hc : c = '\n'
    · cases s with
      | nil => rfl
      | cons d s =>
        have : d ≠ pre := by
          intro e; exact h ⟨hc, by rw [e]; rfl⟩
        simp [unprefixed, this]
    · simp [hc]

theorem isColon_noop (a : List Str) : isColon a = noop a := by
  have key : ∀ sh b : Str, b ≠ [] → (∀ c ∈ b, c ≠ '/' ∧ c ≠ '\\') →
      (shellBase sh = b ↔ (sh == b || ('/' :: b).isSuffixOf sh || ('\\' :: b).isSuffixOf sh) = true) := by
    intro sh b hb hc
    have hrev : ∀ d : Char, ('/' = d ∨ '\\' = d) → ∀ r : Str, shellBase (r ++ d :: b) = b := by
      intro d hd r
      unfold shellBase
      rw [List.reverse_append, List.reverse_cons, List.append_assoc]
      have : ∀ l : Str, (∀ c ∈ l, c ≠ '/' ∧ c ≠ '\\') → ∀ t : Str,
          List.takeWhile (fun c => !(c == '/' || c == '\\')) (l ++ ([d] ++ t)) = l := by
        intro l
        induction l with
        | nil =>
          intro _ t
          rcases hd with rfl | rfl <;> simp [List.takeWhile_cons]
        | cons x l ih =>
          intro hl t
          have hx := hl x (by simp)
          rw [List.cons_append, List.takeWhile_cons, if_pos (by simp [hx]), ih fun c hc => hl c (by simp [hc])]
      rw [this _ (fun c h => hc c (by simpa using h)), List.reverse_reverse]
    simp only [Bool.or_eq_true, beq_iff_eq, List.isSuffixOf_iff_suffix]
    constructor
    · intro h
      unfold shellBase at h
      have h1 := List.takeWhile_append_dropWhile (p := fun c => !(c == '/' || c == '\\')) (l := sh.reverse)
      have h2 : sh = (sh.reverse.dropWhile fun c => !(c == '/' || c == '\\')).reverse ++ b := by
        have := congrArg List.reverse h1
        rw [List.reverse_append, List.reverse_reverse, h] at this
        exact this.symm
      have h3 := List.head?_dropWhile_not (fun c => !(c == '/' || c == '\\')) sh.reverse
      generalize (sh.reverse.dropWhile fun c => !(c == '/' || c == '\\')) = d at h2 h3
      cases d with
      | nil => exact .inl (.inl h2)
      | cons x d =>
        simp only [List.head?_cons, Bool.not_eq_eq_eq_not, Bool.not_false, Bool.or_eq_true,
          beq_iff_eq, Bool.not_not] at h3
        have h3 : x = '/' ∨ x = '\\' := by simpa using h3
        rw [List.reverse_cons, List.append_assoc] at h2
        rcases h3 with rfl | rfl
        · exact .inl (.inr ⟨d.reverse, h2.symm⟩)
        · exact .inr ⟨d.reverse, h2.symm⟩
    · rintro ((h | ⟨r, h⟩) | ⟨r, h⟩)
      · subst h
        unfold shellBase
        have : ∀ l : Str, (∀ c ∈ l, c ≠ '/' ∧ c ≠ '\\') →
            List.takeWhile (fun c => !(c == '/' || c == '\\')) l = l := by
          intro l
          induction l with
          | nil => intro _; rfl
          | cons x l ih =>
            intro hl
            have hx := hl x (by simp)
            rw [List.takeWhile_cons, if_pos (by simp [hx]), ih fun c hc => hl c (by simp [hc])]
        rw [this _ (fun c h => hc c (by simpa using h)), List.reverse_reverse]
      · rw [← h]; exact hrev '/' (.inl rfl) r
      · rw [← h]; exact hrev '\\' (.inr rfl) r
  unfold isColon noop
  split
  · rename_i sh f c
    have h1 : isBourne sh = (["sh", "bash", "ksh", "rksh", "zsh", "ash", "dash"].map String.toList).any (fun b =>
      sh == b || ('/' :: b).isSuffixOf sh || ('\\' :: b).isSuffixOf sh) := by
      rw [Bool.eq_iff_iff, List.any_eq_true]
      unfold isBourne
      simp only [decide_eq_true_eq]
      constructor
      · intro h
        have h2 := (show ∀ x ∈ (["sh", "bash", "ksh", "rksh", "zsh", "ash", "dash"].map String.toList),
          x ≠ [] ∧ ∀ c ∈ x, c ≠ '/' ∧ c ≠ '\\' by decide) _ h
        exact ⟨_, h, (key sh _ h2.1 h2.2).1 rfl⟩
      · rintro ⟨b, h, h3⟩
        have h2 := (show ∀ x ∈ (["sh", "bash", "ksh", "rksh", "zsh", "ash", "dash"].map String.toList),
          x ≠ [] ∧ ∀ c ∈ x, c ≠ '/' ∧ c ≠ '\\' by decide) _ h
        rw [(key sh b h2.1 h2.2).2 h3]
        exact h
    rw [h1]
    rfl
  · split
    · rename_i h
      exact absurd rfl (h _ _ _)
    · rfl

/-- The commands that are left. -/
def leftCommands (o : RunOpts) (sp : Splitter) (c : RunChild) : List RecipeCmd :=
  lineCommands sp o.recipePrefix o.file c.flags (c.cur.getD []) ++ recipeCommands o sp c.rest

theorem lineCommands_nil (sp : Splitter) (pre : Char) (file f : LineFlags) : lineCommands sp pre file f [] = [] := by
  rw [lineCommands.eq_def]; simp

theorem lineCommands_ne (sp : Splitter) (pre : Char) (file f : LineFlags) (t : Str) (h : t ≠ []) :
    lineCommands sp pre file f t ≠ [] := by
  rw [lineCommands.eq_def, if_neg h]; simp

theorem nextCommand_left (o : RunOpts) (sp : Splitter) (cur : Option Str) (flags : LineFlags) (rest : List RecipeLine) :
    match nextCommand cur flags rest with
    | none => leftCommands o sp ⟨cur, flags, rest⟩ = []
    | some c => leftCommands o sp c = leftCommands o sp ⟨cur, flags, rest⟩ ∧ leftCommands o sp c ≠ [] := by
  fun_induction nextCommand cur flags rest with
  | case1 a s f r =>
    refine ⟨rfl, ?_⟩
    simp [leftCommands, lineCommands_ne]
  | case2 => simp [leftCommands, lineCommands_nil, recipeCommands]
  | case3 => simp [leftCommands, lineCommands_nil, recipeCommands]
  | case4 f l r ih =>
    have : leftCommands o sp ⟨some l.text, l.flags, r⟩ = leftCommands o sp ⟨some [], f, l :: r⟩ := by
      simp [leftCommands, lineCommands_nil, recipeCommands]
    rw [this] at ih
    exact ih
  | case5 f l r ih =>
    have : leftCommands o sp ⟨some l.text, l.flags, r⟩ = leftCommands o sp ⟨none, f, l :: r⟩ := by
      simp [leftCommands, lineCommands_nil, recipeCommands]
    rw [this] at ih
    exact ih

/-- The run over a list of commands. -/
def play (o : RunOpts) (w : RunWorld) : (k : Nat) → List RecipeCmd → List RunEvent × RunEnd
  | _, [] => ([], ⟨.success, false⟩)
  | k, c :: cs =>
    if asks o c then ([], ⟨.question, k > 0 ∧ w.exit (k - 1) ≠ .notStarted⟩)
    else if !runs o c then
      let r := play o w k cs
      (steps o c ++ r.1, r.2)
    else
      let e := w.exit k
      let st := childFailed o c.recursive e
      if e = .code 77 ∧ o.debugger then (steps o c, ⟨.quit, false⟩)
      else if st ≠ .success ∧ !c.noerror ∧ !o.ignoreErrors then
        (steps o c, ⟨st, (e = .signal ∨ o.deleteOnError) ∧ e ≠ .notStarted⟩)
      else if cs = [] then (steps o c, ⟨.success, false⟩)
      else if w.dying k then (steps o c, ⟨.failed, e ≠ .notStarted⟩)
      else
        let r := play o w (k + 1) cs
        (steps o c ++ r.1, r.2)

theorem prefixFlags_drop (f : LineFlags) (s : Str) : (prefixFlags f s).2 = s.drop (linePrefix s).length := by
  have h := (prefixFlags_spec f s).2
  conv => rhs; rw [← h]
  have : ∀ a b : Str, (a ++ b).drop a.length = b := by simp
  rw [h]
  have h2 := this (linePrefix s) (prefixFlags f s).2
  rw [h] at h2
  exact h2.symm

/-- The commands that are left, first and rest. -/
theorem left_cons (o : RunOpts) (sp : Splitter) (t : Str) (f : LineFlags) (rest : List RecipeLine) (ht : t ≠ []) :
    let fp := prefixFlags (o.file.or f) t
    let a := sp.f (dropPrefixes o.recipePrefix fp.2)
    leftCommands o sp ⟨some t, f, rest⟩ =
      ⟨a.1, a.2.1, fp.1.silent, fp.1.noerror, fp.1.recurse⟩ ::
        leftCommands o sp ⟨a.2.2, { f with recurse := f.recurse || fp.1.recurse }, rest⟩ := by
  intro fp a
  have h1 := (prefixFlags_spec (o.file.or f) t).1
  have h2 : fp.2 = t.drop (linePrefix t).length := prefixFlags_drop _ _
  have ha : a = sp.f (unprefixed o.recipePrefix false (t.drop (linePrefix t).length)) := by
    show sp.f (dropPrefixes o.recipePrefix fp.2) = _
    rw [dropPrefixes_unprefixed, h2]
  have hf : fp.1 = _ := h1
  unfold leftCommands
  rw [Option.getD_some, lineCommands.eq_def, if_neg ht]
  simp only [List.cons_append, ← ha, hf, LineFlags.or]
  congr 2
  have hr : (f.recurse || (o.file.recurse || f.recurse || (linePrefix t).contains '+')) =
      (o.file.recurse || f.recurse || (linePrefix t).contains '+') := by
    cases f.recurse <;> simp
  rw [hr]
  split
  · rename_i h; rw [← ha] at h; rw [h]; simp [lineCommands_nil]
  · rename_i r h; rw [← ha] at h; rw [h]; rfl

/-- From a command line to the end. -/
theorem start_play (o : RunOpts) (sp : Splitter) (w : RunWorld) (n : Nat) : ∀ (c : RunChild), c.weight ≤ n →
    ∀ k, ((startCommand o sp c).1 ++ (finishRun o sp w k (startCommand o sp c).2).1,
      (finishRun o sp w k (startCommand o sp c).2).2) = play o w k (leftCommands o sp c) := by
  induction n using Nat.strongRecOn with
  | ind n ih =>
    intro c hn k
    have next : ∀ (cur : Option Str) (fl : LineFlags) (rest : List RecipeLine) (c' : RunChild),
        nextCommand cur fl rest = some c' → c'.weight < n → ∀ k,
        ((startCommand o sp c').1 ++ (finishRun o sp w k (startCommand o sp c').2).1,
          (finishRun o sp w k (startCommand o sp c').2).2) = play o w k (leftCommands o sp ⟨cur, fl, rest⟩) := by
      intro cur fl rest c' h hw k
      have h2 := nextCommand_left o sp cur fl rest
      rw [h] at h2
      rw [← h2.1]
      exact ih c'.weight hw c' (Nat.le_refl _) k
    rw [startCommand.eq_def]
    obtain ⟨cur, fl, rest⟩ := c
    cases cur with
    | none =>
      simp only
      split
      · rename_i h
        have h2 := nextCommand_left o sp none fl rest
        rw [h] at h2
        rw [h2, finishRun.eq_def]
        rfl
      · rename_i c' h
        refine next none fl rest c' h ?_ k
        have := (nextCommand_weight _ _ _ _ h).2.1 rfl
        omega
    | some t =>
      simp only
      by_cases ht : t = []
      · subst ht
        have e1 : prefixFlags (o.file.or fl) [] = (o.file.or fl, []) := rfl
        have e2 : dropPrefixes o.recipePrefix [] = [] := by rw [dropPrefixes]
        have hl : leftCommands o sp ⟨some [], fl, rest⟩ = leftCommands o sp
          ⟨none, { fl with recurse := fl.recurse || (o.file.or fl).recurse }, rest⟩ := by
          simp [leftCommands, lineCommands_nil]
        rw [e1]
        simp only [e2, sp.empty, Option.isSome_none, Bool.false_eq_true, false_and, if_false, ite_self,
          Option.isNone_none, true_or, if_true, List.nil_append]
        split
        · rename_i h
          simp only [e2, sp.empty] at h
          have h2 := nextCommand_left o sp none { fl with recurse := fl.recurse || (o.file.or fl).recurse } rest
          rw [h] at h2
          rw [hl, h2, finishRun.eq_def]
          rfl
        · rename_i c' h
          simp only [e2, sp.empty] at h
          rw [hl]
          refine next _ _ _ c' h ?_ k
          have := (nextCommand_weight _ _ _ _ h).2.1 rfl
          simp only [RunChild.weight, Option.getD_none, Option.getD_some] at this hn ⊢
          omega
      · have hc := left_cons o sp t fl rest ht
        simp only at hc
        have hsw := split_weight sp o t (o.file.or fl)
        rw [hc]
        generalize prefixFlags (o.file.or fl) t = fp at *
        generalize sp.f (dropPrefixes o.recipePrefix fp.2) = a at *
        obtain ⟨argv, text, r⟩ := a
        simp only at hsw
        have hlt : ∀ c' f', nextCommand r f' rest = some c' → c'.weight < n := by
          intro c' f' h
          have h1 := nextCommand_weight _ _ _ _ h
          simp only [RunChild.weight, Option.getD_some] at h1 hn ⊢
          have := List.length_pos_iff.2 ht
          rcases hsw with h2 | h2
          · omega
          · rw [h2] at h1
            simp at h1
            omega
        rw [play]
        simp only
        by_cases hq : argv.isSome = true ∧ o.question = true ∧ (!fp.1.recurse) = true
        · have hq2 : asks o ⟨argv, text, fp.1.silent, fp.1.noerror, fp.1.recurse⟩ = true := by
            simpa [asks, and_assoc] using hq
          rw [if_pos hq, if_pos hq2]
          rw [finishRun.eq_def]
          rfl
        · have hq2 : ¬ asks o ⟨argv, text, fp.1.silent, fp.1.noerror, fp.1.recurse⟩ = true := by
            simpa [asks, and_assoc] using hq
          rw [if_neg hq, if_neg hq2]
          have hout : (if ((if o.touch = true ∧ (!fp.1.recurse) = true then none else argv).isSome &&
              (o.justPrint || (!fp.1.silent && !o.runSilent) || o.trace)) = true
                then [RunEvent.print text] else []) =
              if isShown o ⟨argv, text, fp.1.silent, fp.1.noerror, fp.1.recurse⟩ then [.print text] else [] := by
            unfold isShown considered
            cases argv <;> cases o.touch <;> cases fp.1.recurse <;> cases o.justPrint <;> cases o.trace <;>
              cases fp.1.silent <;> cases o.runSilent <;> rfl
          rw [hout]
          have hruns : ((if o.touch = true ∧ (!fp.1.recurse) = true then none else argv).isNone = true ∨
              isColon ((if o.touch = true ∧ (!fp.1.recurse) = true then none else argv).getD []) = true ∨
              o.justPrint = true ∧ (!fp.1.recurse) = true) ↔
              (!runs o ⟨argv, text, fp.1.silent, fp.1.noerror, fp.1.recurse⟩) = true := by
            unfold runs considered
            simp only [isColon_noop]
            cases argv <;> cases o.touch <;> cases fp.1.recurse <;> cases o.justPrint <;> simp
          by_cases hr : (!runs o ⟨argv, text, fp.1.silent, fp.1.noerror, fp.1.recurse⟩) = true
          · rw [if_pos (hruns.2 hr), if_pos hr]
            have hst : steps o ⟨argv, text, fp.1.silent, fp.1.noerror, fp.1.recurse⟩ =
                if isShown o ⟨argv, text, fp.1.silent, fp.1.noerror, fp.1.recurse⟩ then [.print text] else [] := by
              have : runs o ⟨argv, text, fp.1.silent, fp.1.noerror, fp.1.recurse⟩ = false := by simpa using hr
              simp [steps, this]
            rw [hst]
            split
            · rename_i h
              have h2 := nextCommand_left o sp r { fl with recurse := fl.recurse || fp.1.recurse } rest
              rw [h] at h2
              rw [h2, finishRun.eq_def]
              simp [play]
            · rename_i c' h
              have h3 := next _ _ _ c' h (hlt _ _ h) k
              rw [← h3]
              simp
          · rw [if_neg (fun h => hr (hruns.1 h)), if_neg hr]
            have hst : steps o ⟨argv, text, fp.1.silent, fp.1.noerror, fp.1.recurse⟩ =
                (if isShown o ⟨argv, text, fp.1.silent, fp.1.noerror, fp.1.recurse⟩ then [.print text] else []) ++
                  [.exec ((if o.touch = true ∧ (!fp.1.recurse) = true then none else argv).getD [])] := by
              have h1 : runs o ⟨argv, text, fp.1.silent, fp.1.noerror, fp.1.recurse⟩ = true := by simpa using hr
              have h2 : ¬ (o.touch = true ∧ (!fp.1.recurse) = true) := by
                intro h
                simp [runs, considered, h.1] at h1
                have := h.2
                simp [h1] at this
              rw [if_neg h2]
              simp only [steps, h1, if_true]
            rw [hst]
            generalize ((if isShown o ⟨argv, text, fp.1.silent, fp.1.noerror, fp.1.recurse⟩ then
              [RunEvent.print text] else []) ++
                  [.exec ((if o.touch = true ∧ (!fp.1.recurse) = true then none else argv).getD [])]) = out
            rw [finishRun.eq_def]
            simp only
            by_cases h77 : w.exit k = .code 77 ∧ o.debugger = true
            · rw [if_pos h77, if_pos h77]; simp
            rw [if_neg h77, if_neg h77]
            by_cases hfail : childFailed o fp.1.recurse (w.exit k) ≠ .success ∧ (!fp.1.noerror) = true ∧
                (!o.ignoreErrors) = true
            · rw [if_pos hfail, if_pos hfail]; simp
            rw [if_neg hfail, if_neg hfail]
            have h2 := nextCommand_left o sp r { fl with recurse := fl.recurse || fp.1.recurse } rest
            split
            · rename_i h
              rw [h] at h2
              rw [if_pos h2]
              simp
            · rename_i c' h
              rw [h] at h2
              have h5 : leftCommands o sp ⟨r, { fl with recurse := fl.recurse || fp.1.recurse }, rest⟩ ≠ [] := by
                rw [← h2.1]; exact h2.2
              rw [if_neg h5]
              by_cases hd : w.dying k = true
              · rw [if_pos hd, if_pos hd]; simp
              · rw [if_neg hd, if_neg hd]
                have h3 := next _ _ _ c' h (hlt _ _ h) (k + 1)
                rw [← h3]

theorem run_play (o : RunOpts) (sp : Splitter) (w : RunWorld) (lines : List RecipeLine) :
    runRecipe o sp w lines = play o w 0 (recipeCommands o sp lines) := by
  unfold runRecipe
  have h := nextCommand_left o sp none {} lines
  have h0 : leftCommands o sp ⟨none, {}, lines⟩ = recipeCommands o sp lines := by
    simp [leftCommands, lineCommands_nil]
  rw [h0] at h
  cases hn : nextCommand none {} lines with
  | none =>
    rw [hn] at h
    have := start_play o sp w _ ⟨none, {}, []⟩ (Nat.le_refl _) 0
    simp only [Option.getD_none]
    rw [this, h]
    simp [leftCommands, lineCommands_nil, recipeCommands]
  | some c =>
    rw [hn] at h
    have := start_play o sp w _ c (Nat.le_refl _) 0
    simp only [Option.getD_some]
    rw [this, h.1]

end Remake
