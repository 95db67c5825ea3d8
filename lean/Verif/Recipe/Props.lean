import Verif.Recipe.Lemmas
import Verif.Shell.Props
/-!
# Properties of running recipes (C71, C72)
-/
set_option linter.unusedSimpArgs false
namespace Remake
open Spec

theorem childFailed_success (o : RunOpts) (r : Bool) (e : CmdExit) :
    childFailed o r e = .success ↔ e = .code 0 := by
  unfold childFailed
  cases e with
  | code n =>
    simp only [CmdExit.code.injEq]
    split
    · simp_all
    · split <;> simp_all
  | signal => simp
  | notStarted => simp

theorem play_ended (o : RunOpts) (w : RunWorld) (cmds : List RecipeCmd) : ∀ k, ∃ pre suf, cmds = pre ++ suf ∧
    (play o w k cmds).1 = pre.flatMap (steps o) ∧ RunEnded o w k pre suf (play o w k cmds).2 := by
  induction cmds with
  | nil =>
    intro k
    refine ⟨[], [], rfl, rfl, ?_⟩
    rw [play]
    exact { passed := by simp, noAsk := by simp, success := by simp, failed := by simp, question := by simp,
            quit := by simp }
  | cons c cs ih =>
    intro k
    rw [play]
    by_cases h1 : asks o c = true
    · rw [if_pos h1]
      refine ⟨[], c :: cs, rfl, rfl, ?_⟩
      have : o.question = true := by simp [asks] at h1; exact h1.1.2
      exact { passed := by simp, noAsk := by simp, success := by simp, failed := by simp,
              question := fun _ => ⟨this, .inl ⟨c, cs, rfl, h1⟩⟩, quit := by simp }
    rw [if_neg h1]
    have h1' : asks o c = false := by simpa using h1
    by_cases h2 : (!runs o c) = true
    · rw [if_pos h2]
      have h2' : runs o c = false := by simpa using h2
      obtain ⟨pre, suf, e1, e2, e3⟩ := ih k
      refine ⟨c :: pre, suf, by rw [e1]; rfl, by simp [e2], ?_⟩
      have hf : ∀ p : List RecipeCmd, (c :: p).filter (runs o) = p.filter (runs o) := by simp [h2']
      exact {
        passed := by rw [hf]; exact e3.passed
        noAsk := by
          intro d hd
          simp only [List.mem_cons] at hd
          rcases hd with rfl | hd
          · exact h1'
          · exact e3.noAsk d hd
        success := by rw [hf]; exact e3.success
        failed := fun h => by
          obtain ⟨d, p, q1, q2, q3⟩ := e3.failed h
          exact ⟨d, c :: p, by rw [q1]; rfl, q2, by rw [hf]; exact q3⟩
        question := fun h => by
          obtain ⟨q0, q⟩ := e3.question h
          refine ⟨q0, ?_⟩
          rcases q with q | ⟨d, p, q1, q2, q3⟩
          · exact .inl q
          · exact .inr ⟨d, c :: p, by rw [q1]; rfl, by rw [hf]; exact ⟨q2, q3⟩⟩
        quit := fun h => by
          obtain ⟨q0, d, p, q1, q2, q3⟩ := e3.quit h
          exact ⟨q0, d, c :: p, by rw [q1]; rfl, q2, by rw [hf]; exact q3⟩ }
    rw [if_neg h2]
    have h2' : runs o c = true := by simpa using h2
    have one : ∀ (suf : List RecipeCmd) (e : RunEnd), (e.status = .success → suf = [] ∧ passes o c (w.exit k)) →
        (e.status = .failed → ¬ passes o c (w.exit k) ∨ suf ≠ [] ∧ w.dying k = true) →
        (e.status = .question → o.question = true ∧ c.recursive = true ∧ w.exit k = .code 1 ∧ ¬ passes o c (.code 1)) →
        (e.status = .quit → o.debugger = true ∧ w.exit k = .code 77) → RunEnded o w k [c] suf e := by
      intro suf e q1 q2 q3 q4
      have hf : [c].filter (runs o) = [c] := by simp [h2']
      exact {
        passed := by rw [hf]; intro i d _ hl; simp at hl
        noAsk := by simp [h1']
        success := fun h => ⟨(q1 h).1, by
          rw [hf]
          intro i d hd
          cases i with
          | zero =>
            simp only [List.getElem?_cons_zero, Option.some.injEq] at hd
            subst hd
            exact (q1 h).2
          | succ i => simp at hd⟩
        failed := fun h => ⟨c, [], rfl, h2', by simpa using q2 h⟩
        question := fun h => by
          obtain ⟨a, b, d, e⟩ := q3 h
          exact ⟨a, .inr ⟨c, [], rfl, h2', b, by simpa using d, e⟩⟩
        quit := fun h => ⟨(q4 h).1, c, [], rfl, h2', by simpa using (q4 h).2⟩ }
    simp only
    by_cases h3 : w.exit k = .code 77 ∧ o.debugger = true
    · rw [if_pos h3]
      exact ⟨[c], cs, rfl, by simp, one _ _ (by simp) (by simp) (by simp) (fun _ => ⟨h3.2, h3.1⟩)⟩
    rw [if_neg h3]
    by_cases h4 : childFailed o c.recursive (w.exit k) ≠ .success ∧ (!c.noerror) = true ∧ (!o.ignoreErrors) = true
    · rw [if_pos h4]
      have hp : ¬ passes o c (w.exit k) := by
        rintro (h | h | h)
        · exact h4.1 ((childFailed_success _ _ _).2 h)
        · simp [h] at h4
        · simp [h] at h4
      refine ⟨[c], cs, rfl, by simp, one _ _ (fun h => absurd h h4.1) (fun _ => .inl hp) ?_ ?_⟩
      · intro h
        simp only [childFailed] at h
        split at h
        · rename_i n hn
          split at h
          · cases h
          · split at h
            · rename_i h5
              rw [hn, h5.1] at hp
              exact ⟨h5.2.1, h5.2.2, by rw [hn, h5.1], hp⟩
            · cases h
        · cases h
        · cases h
      · intro h
        simp only [childFailed] at h
        split at h
        · split at h
          · cases h
          · split at h <;> cases h
        · cases h
        · cases h
    rw [if_neg h4]
    have hp : passes o c (w.exit k) := by
      by_cases a : w.exit k = .code 0
      · exact .inl a
      by_cases b : c.noerror = true
      · exact .inr (.inl b)
      by_cases d : o.ignoreErrors = true
      · exact .inr (.inr d)
      · exact absurd ⟨fun h => a ((childFailed_success _ _ _).1 h), by simpa using b, by simpa using d⟩ h4
    by_cases h5 : cs = []
    · rw [if_pos h5]
      exact ⟨[c], cs, rfl, by simp, one _ _ (fun _ => ⟨h5, hp⟩) (by simp) (by simp) (by simp)⟩
    rw [if_neg h5]
    by_cases h6 : w.dying k = true
    · rw [if_pos h6]
      exact ⟨[c], cs, rfl, by simp, one _ _ (by simp) (fun _ => .inr ⟨h5, h6⟩) (by simp) (by simp)⟩
    rw [if_neg h6]
    have h6' : w.dying k = false := by simpa using h6
    obtain ⟨pre, suf, e1, e2, e3⟩ := ih (k + 1)
    refine ⟨c :: pre, suf, by rw [e1]; rfl, by simp [e2], ?_⟩
    have hf : ∀ p : List RecipeCmd, (c :: p).filter (runs o) = c :: p.filter (runs o) := by simp [h2']
    have hl : ∀ p : List RecipeCmd, k + ((c :: p).filter (runs o)).length =
        k + 1 + (p.filter (runs o)).length := by
      intro p; rw [hf]; simp; omega
    exact {
      passed := by
        rw [hf]
        intro i d hd hi
        cases i with
        | zero =>
          simp only [List.getElem?_cons_zero, Option.some.injEq] at hd
          subst hd
          exact ⟨hp, h6'⟩
        | succ i =>
          have := e3.passed i d (by simpa using hd) (by simpa using hi)
          rw [show k + (i + 1) = k + 1 + i by omega]
          exact this
      noAsk := by
        intro d hd
        simp only [List.mem_cons] at hd
        rcases hd with rfl | hd
        · exact h1'
        · exact e3.noAsk d hd
      success := fun h => by
        obtain ⟨q1, q2⟩ := e3.success h
        refine ⟨q1, ?_⟩
        rw [hf]
        intro i d hd
        cases i with
        | zero =>
          simp only [List.getElem?_cons_zero, Option.some.injEq] at hd
          subst hd
          exact hp
        | succ i =>
          rw [show k + (i + 1) = k + 1 + i by omega]
          exact q2 i d (by simpa using hd)
      failed := fun h => by
        obtain ⟨d, p, q1, q2, q3⟩ := e3.failed h
        exact ⟨d, c :: p, by rw [q1]; rfl, q2, by rw [hl]; exact q3⟩
      question := fun h => by
        obtain ⟨q0, q⟩ := e3.question h
        refine ⟨q0, ?_⟩
        rcases q with q | ⟨d, p, q1, q2, q3⟩
        · exact .inl q
        · exact .inr ⟨d, c :: p, by rw [q1]; rfl, by rw [hl]; exact ⟨q2, q3⟩⟩
      quit := fun h => by
        obtain ⟨q0, d, p, q1, q2, q3⟩ := e3.quit h
        exact ⟨q0, d, c :: p, by rw [q1]; rfl, q2, by rw [hl]; exact q3⟩ }


/-! ### The splitter of the code -/

/-- `*restp`. -/
def Fast.restOf : Fast → Option Str
  | .slow r => r
  | .args _ r => r

theorem fast_rest (o : Bool) (n : Nat) : ∀ (s : Str), s.length ≤ n → ∀ (st : FastState) (r : Str),
    (fastLine true o st s).restOf = some r → r <:+ s ∧ r ≠ [] := by
  have stop : ∀ (st : FastState) (x : Option Str) (r : Str),
      (endOfLine st x).restOf = some r → x = some r := by
    intro st x r h
    unfold endOfLine at h
    split at h
    · exact h
    · dsimp only at h
      generalize (if (!st.cur.isEmpty || st.lastEmpty) = true then st.args ++ [st.cur.reverse]
        else st.args) = l' at h
      split at h <;> exact h
  induction n with
  | zero =>
    intro s hs st r h
    have : s = [] := List.eq_nil_of_length_eq_zero (by omega)
    subst this
    rw [fast_end] at h
    exact absurd (stop _ _ _ h) (by simp)
  | succ n ih =>
    intro s hs st r h
    cases s with
    | nil =>
      rw [fast_end] at h
      exact absurd (stop _ _ _ h) (by simp)
    | cons c s =>
      simp only [List.length_cons] at hs
      have here : ∀ (st' : FastState), (endOfLine st' (some (c :: s))).restOf = some r → r <:+ c :: s ∧ r ≠ [] := by
        intro st' h
        have := stop _ _ _ h
        simp only [Option.some.injEq] at this
        rw [← this]
        exact ⟨List.suffix_refl _, by simp⟩
      have on : ∀ (st' : FastState) (s' : Str), s' <:+ s → (fastLine true o st' s').restOf = some r → r <:+ c :: s ∧ r ≠ [] := by
        intro st' s' h1 h2
        have h3 := h1.length_le
        obtain ⟨h4, h5⟩ := ih s' (by omega) st' r h2
        exact ⟨(h4.trans h1).trans (List.suffix_cons c s), h5⟩
      rw [fastLine.eq_def] at h
      simp only at h
      split at h
      · split at h
        · exact on _ s (List.suffix_refl _) h
        · split at h
          · exact on _ s.tail (List.tail_suffix s) h
          · split at h
            · exact here _ h
            · exact on _ s (List.suffix_refl _) h
      · split at h
        · cases h
        split at h
        · cases h
        split at h
        · split at h
          · cases h
          · exact on _ s (List.suffix_refl _) h
        split at h
        · cases s with
          | nil =>
            simp only at h
            exact on _ [] (List.suffix_refl _) h
          | cons d s =>
            simp only at h
            split at h
            · split at h
              · exact on _ (s.dropWhile isBlank) ((List.dropWhile_suffix _).trans (List.suffix_cons d s)) h
              · exact on _ s (List.suffix_cons d s) h
            · exact on _ s (List.suffix_cons d s) h
        split at h
        · exact on _ s (List.suffix_refl _) h
        split at h
        · split at h
          · exact here _ h
          · exact on _ s (List.suffix_refl _) h
        split at h
        · split at h
          · cases h
          split at h
          · cases h
          exact on _ (s.dropWhile isBlank) (List.dropWhile_suffix _) h
        · exact on _ s (List.suffix_refl _) h

theorem argv_rest (posix : Bool) (n : Nat) (line : Str) (shell flags ifs : Option Str)
    (a : Option (List Str)) (r : Str) (h : argvInternal false posix n line true shell flags ifs = some (a, some r)) :
    r <:+ line ∧ r ≠ [] := by
  cases n with
  | zero => cases h
  | succ n =>
    rw [argvInternal] at h
    simp only [Bool.false_eq_true, if_false] at h
    have hs := List.dropWhile_suffix isBlank (l := line)
    generalize line.dropWhile isBlank = s at *
    split at h
    · simp at h
    · generalize hf : (if quickOk shell (flags.getD (if posix = true then "-ec".toList else "-c".toList)) ifs = true
        then fastLine true false {} s else Fast.slow none) = f at h
      have hfr : ∀ x, f.restOf = some x → x <:+ s ∧ x ≠ [] := by
        intro x hx
        rw [← hf] at hx
        by_cases hq : quickOk shell (flags.getD (if posix = true then "-ec".toList else "-c".toList)) ifs = true
        · rw [if_pos hq] at hx
          exact fast_rest false _ s (Nat.le_refl _) {} x hx
        · rw [if_neg hq] at hx
          cases hx
      have hslow : ∀ rest, f = .slow rest → ∀ x, (match (escLine true s).2 with | some r => some r | none => rest) = some x →
          x <:+ s ∧ x ≠ [] := by
        intro rest hr x hx
        rcases escLine_rest s with ⟨y, h1, h2, h3⟩ | ⟨h1, h2⟩
        · rw [h1] at hx
          simp only [Option.some.injEq] at hx
          subst hx
          exact ⟨⟨_, h2.symm⟩, by intro e; rw [e] at h3; simp at h3⟩
        · rw [h1] at hx
          simp only at hx
          subst hx
          exact hfr x (by rw [hr]; rfl)
      have fin : ∀ x, (x <:+ s ∧ x ≠ []) → x = r → r <:+ line ∧ r ≠ [] := by
        rintro x hx rfl
        exact ⟨hx.1.trans hs, hx.2⟩
      split at h
      · rename_i rest
        simp only [Option.some.injEq, Prod.mk.injEq] at h
        exact fin r (hfr r h.2) rfl
      · rename_i l rest _
        simp only [Option.some.injEq, Prod.mk.injEq] at h
        exact fin r (hfr r h.2) rfl
      · rename_i rest
        split at h
        · simp only [Option.some.injEq, Prod.mk.injEq] at h
          exact fin r (hslow rest rfl r h.2) rfl
        · split at h
          · cases h
          · simp only [Option.some.injEq, Prod.mk.injEq] at h
            exact fin r (hslow rest rfl r h.2) rfl

/-- `construct_command_argv` (job.c 3121-3157) without `.ONESHELL`, for fixed values of SHELL, `.SHELLFLAGS` and IFS. -/
def shellSplitter (posix : Bool) (shell flags ifs : Option Str) : Splitter where
  f s :=
    match argvInternal false posix 3 s true shell flags ifs with
    | none => (none, s, none)
    | some (a, none) => (a, s, none)
    | some (a, some r) => (a, s.take (s.length - r.length), some r.tail)
  empty := by
    rw [argvInternal]; rfl
  shorter s a t r h := by
    split at h
    · simp at h
    · simp at h
    · rename_i a' r' h1
      simp only [Prod.mk.injEq, Option.some.injEq] at h
      obtain ⟨h2, h3⟩ := argv_rest _ _ _ _ _ _ _ _ h1
      have := h2.length_le
      have := List.length_pos_iff.2 h3
      rw [← h.2.2]
      simp
      omega
  part s a t r h := by
    split at h
    · simp at h
    · simp at h
    · rename_i a' r' h1
      simp only [Prod.mk.injEq, Option.some.injEq] at h
      obtain ⟨h2, -⟩ := argv_rest _ _ _ _ _ _ _ _ h1
      rw [← h.2.2]
      intro c hc
      exact h2.subset (List.mem_of_mem_tail hc)

/-! ### C71: order, and what stops a recipe -/

/-- C71.  The commands of a recipe are shown and run in order, from the first one to some command: after it the
recipe ends as `RunEnded` says (all have run; one failed and that is not ignored; `-q` found one; the
debugger quit; make is dying). -/
theorem C71_trace (o : RunOpts) (sp : Splitter) (w : RunWorld) (lines : List RecipeLine) :
    ∃ pre suf, recipeCommands o sp lines = pre ++ suf ∧
      (runRecipe o sp w lines).1 = pre.flatMap (steps o) ∧
      RunEnded o w 0 pre suf (runRecipe o sp w lines).2 := by
  rw [run_play]
  exact play_ended o w _ 0

theorem executed_steps (o : RunOpts) (l : List RecipeCmd) :
    executed (l.flatMap (steps o)) = (l.filter (runs o)).map fun c => c.argv.getD [] := by
  induction l with
  | nil => rfl
  | cons c l ih =>
    rw [List.flatMap_cons]
    have : executed (steps o c ++ l.flatMap (steps o)) = executed (steps o c) ++ executed (l.flatMap (steps o)) := by
      simp [executed]
    rw [this, ih]
    unfold steps
    cases h1 : runs o c <;> cases h2 : isShown o c <;> simp [executed, h1]

/-- C71.  The commands that were executed are the first ones of those to be run, each once. -/
theorem C71_order (o : RunOpts) (sp : Splitter) (w : RunWorld) (lines : List RecipeLine) :
    executed (runRecipe o sp w lines).1 <+:
      ((recipeCommands o sp lines).filter (runs o)).map fun c => c.argv.getD [] := by
  obtain ⟨pre, suf, h1, h2, -⟩ := C71_trace o sp w lines
  rw [h2, executed_steps, h1]
  simp

/-- C71.  A recipe succeeds only after all its commands: every one to be run has been executed and has succeeded or its
failure is ignored, and every one to be shown has been shown. -/
theorem C71_success (o : RunOpts) (sp : Splitter) (w : RunWorld) (lines : List RecipeLine)
    (h : (runRecipe o sp w lines).2.status = .success) :
    (runRecipe o sp w lines).1 = (recipeCommands o sp lines).flatMap (steps o) ∧
    executed (runRecipe o sp w lines).1 =
      ((recipeCommands o sp lines).filter (runs o)).map (fun c => c.argv.getD []) ∧
    ∀ i c, (((recipeCommands o sp lines).filter (runs o))[i]?) = some c → passes o c (w.exit i) := by
  obtain ⟨pre, suf, h1, h2, h3⟩ := C71_trace o sp w lines
  obtain ⟨h4, h5⟩ := h3.success h
  subst h4
  rw [List.append_nil] at h1
  rw [h2, executed_steps, h1]
  refine ⟨rfl, rfl, fun i c hi => ?_⟩
  have := h5 i c hi
  simpa using this

/-- C71.  Nothing is executed after a command that failed without its failure being ignored. -/
theorem C71_stop (o : RunOpts) (sp : Splitter) (w : RunWorld) (lines : List RecipeLine) (i : Nat) (c : RecipeCmd)
    (hc : (((recipeCommands o sp lines).filter (runs o))[i]?) = some c) (hf : ¬ passes o c (w.exit i)) :
    (executed (runRecipe o sp w lines).1).length ≤ i + 1 ∧
      (runRecipe o sp w lines).2.status ≠ .success := by
  constructor
  · obtain ⟨pre, suf, h1, h2, h3⟩ := C71_trace o sp w lines
    rw [h2, executed_steps, List.length_map]
    apply Nat.le_of_not_lt
    intro hlt
    have hpre : ((pre.filter (runs o))[i]?) = some c := by
      rw [h1, List.filter_append, List.getElem?_append_left (by omega)] at hc
      exact hc
    have := (h3.passed i c hpre (by omega)).1
    rw [Nat.zero_add] at this
    exact hf this
  · intro h
    exact hf ((C71_success o sp w lines h).2.2 i c hc)

/-- C71.  If no command fails (or failures are ignored), nobody asks, quits or dies, the recipe succeeds. -/
theorem C71_success_if (o : RunOpts) (sp : Splitter) (w : RunWorld) (lines : List RecipeLine)
    (hq : o.question = false) (hd : o.debugger = false) (hw : ∀ k, w.dying k = false)
    (hp : ∀ i c, (((recipeCommands o sp lines).filter (runs o))[i]?) = some c → passes o c (w.exit i)) :
    (runRecipe o sp w lines).2.status = .success := by
  obtain ⟨pre, suf, h1, h2, h3⟩ := C71_trace o sp w lines
  cases hs : (runRecipe o sp w lines).2.status with
  | success => rfl
  | failed =>
    exfalso
    obtain ⟨c, p, q1, q2, q3⟩ := h3.failed hs
    rcases q3 with q3 | q3
    · apply q3
      rw [Nat.zero_add]
      apply hp
      rw [h1, q1, List.append_assoc, List.filter_append, List.getElem?_append_right (Nat.le_refl _)]
      simp [q2]
    · rw [hw] at q3; cases q3.2
  | question => have := (h3.question hs).1; rw [hq] at this; cases this
  | quit => have := (h3.quit hs).1; rw [hd] at this; cases this

/-! ### C72: `-n`, `-t` and `-q` -/

/-- C72.  Under `-n`, `-t` and `-q` only commands marked as recursive are executed.

Missing: targets that share a recipe share the marks found in it, so a `+` that comes from the expansion for one
target marks the line for the others (job.c 1060); here every run starts with the marks of the text. -/
theorem C72_marked_partial (o : RunOpts) (sp : Splitter) (w : RunWorld) (lines : List RecipeLine)
    (ho : o.justPrint = true ∨ o.touch = true ∨ o.question = true) (a : List Str)
    (ha : a ∈ executed (runRecipe o sp w lines).1) :
    ∃ c ∈ recipeCommands o sp lines, c.argv = some a ∧ c.recursive = true := by
  obtain ⟨pre, suf, h1, h2, h3⟩ := C71_trace o sp w lines
  rw [h2, executed_steps, List.mem_map] at ha
  obtain ⟨c, hc, hca⟩ := ha
  rw [List.mem_filter] at hc
  have h4 := h3.noAsk c hc.1
  have h5 := hc.2
  simp only [runs, considered, Bool.and_eq_true, Bool.or_eq_true] at h5
  refine ⟨c, by rw [h1]; simp [hc.1], ?_, ?_⟩
  · cases hv : c.argv with
    | none => rw [hv] at h5; simp at h5
    | some b => rw [hv] at hca; simpa using hca
  · cases hr : c.recursive with
    | true => rfl
    | false =>
      exfalso
      rw [hr] at h5
      rcases ho with ho | ho | ho
      · simp [ho] at h5
      · simp [ho] at h5
      · simp [asks, ho, hr] at h4
        simp [h4] at h5

theorem lineCommands_unmarked (sp : Splitter) (pre : Char) (file f : LineFlags) (t : Str)
    (h1 : file.recurse = false) (h2 : f.recurse = false) (h3 : '+' ∉ t) :
    ∀ c ∈ lineCommands sp pre file f t, c.recursive = false := by
  have hun : ∀ (nl : Bool) (s : Str), ∀ c ∈ unprefixed pre nl s, c ∈ s := by
    intro nl s
    induction s generalizing nl with
    | nil => simp [unprefixed]
    | cons d s ih =>
      intro c hc
      rw [unprefixed] at hc
      split at hc
      · exact List.mem_cons_of_mem _ (ih _ c hc)
      · simp only [List.mem_cons] at hc ⊢
        rcases hc with hc | hc
        · exact .inl hc
        · exact .inr (ih _ c hc)
  fun_induction lineCommands sp pre file f t with
  | case1 => simp
  | case2 f t ht marks a recursive ih =>
    have hm : marks.contains '+' = false := by
      have : '+' ∉ marks := fun h => h3 ((List.takeWhile_subset _) h)
      simpa using this
    have hr : recursive = false := by
      show (file.recurse || f.recurse || marks.contains '+') = false
      rw [h1, h2, hm]; rfl
    intro c hc
    simp only [List.mem_cons] at hc
    rcases hc with rfl | hc
    · exact hr
    · split at hc
      · simp at hc
      · rename_i r h
        refine ih r h (by simp [hr]) ?_ c hc
        intro hp
        have := sp.part _ _ _ r (show sp.f (unprefixed pre false (t.drop (linePrefix t).length)) =
          (a.1, a.2.1, some r) by rw [← h]) _ hp
        exact h3 (List.mem_of_mem_drop (hun _ _ _ this))

/-- C72.  Without a `+` anywhere and without `$(MAKE)` in the recipe (which sets the flag of the line), `-n`, `-t` and `-q` execute nothing. -/
theorem C72_unmarked (o : RunOpts) (sp : Splitter) (w : RunWorld) (lines : List RecipeLine)
    (ho : o.justPrint = true ∨ o.touch = true ∨ o.question = true) (hf : o.file.recurse = false)
    (hl : ∀ l ∈ lines, l.flags.recurse = false ∧ '+' ∉ l.text) :
    executed (runRecipe o sp w lines).1 = [] := by
  cases h : executed (runRecipe o sp w lines).1 with
  | nil => rfl
  | cons a as =>
    exfalso
    obtain ⟨c, hc, -, hr⟩ := C72_marked_partial o sp w lines ho a (by rw [h]; simp)
    simp only [recipeCommands, List.mem_flatMap] at hc
    obtain ⟨l, hl1, hl2⟩ := hc
    obtain ⟨q1, q2⟩ := hl l hl1
    have := lineCommands_unmarked sp _ _ _ _ hf q1 q2 c hl2
    rw [hr] at this
    cases this

/-- C72.  With `-n` (and nothing else) every command of the recipe is shown, silent or not, if the recursive ones succeed. -/
theorem C72_show (o : RunOpts) (sp : Splitter) (w : RunWorld) (lines : List RecipeLine)
    (hn : o.justPrint = true) (ht : o.touch = false)
    (h : (runRecipe o sp w lines).2.status = .success) :
    (runRecipe o sp w lines).1.filterMap (fun e => match e with | .print t => some t | _ => none) =
      ((recipeCommands o sp lines).filter fun c => c.argv.isSome).map (·.text) := by
  rw [(C71_success o sp w lines h).1]
  induction recipeCommands o sp lines with
  | nil => rfl
  | cons c cs ih =>
    rw [List.flatMap_cons, List.filterMap_append, ih]
    unfold steps
    have hs : isShown o c = c.argv.isSome := by simp [isShown, considered, hn, ht]
    rw [hs]
    cases h1 : c.argv <;> cases h2 : runs o c <;> simp [h1]

/-- C72.  Without `-n` and tracing, commands marked with `@` are not shown. -/
theorem C72_silent (o : RunOpts) (sp : Splitter) (w : RunWorld) (lines : List RecipeLine)
    (hn : o.justPrint = false) (ht : o.trace = false) (t : Str)
    (h : RunEvent.print t ∈ (runRecipe o sp w lines).1) :
    o.runSilent = false ∧ ∃ c ∈ recipeCommands o sp lines, c.text = t ∧ c.silent = false := by
  obtain ⟨pre, suf, h1, h2, -⟩ := C71_trace o sp w lines
  rw [h2, List.mem_flatMap] at h
  obtain ⟨c, hc, hs⟩ := h
  unfold steps at hs
  rw [List.mem_append] at hs
  rcases hs with hs | hs
  · split at hs
    · rename_i hsh
      simp only [List.mem_singleton, RunEvent.print.injEq] at hs
      simp [isShown, hn, ht] at hsh
      exact ⟨hsh.2.2, c, by rw [h1]; simp [hc], hs.symm, hsh.2.1⟩
    · simp at hs
  · split at hs <;> simp at hs

/-! ### C71: what is deleted -/

theorem play_deleted (o : RunOpts) (w : RunWorld) (cmds : List RecipeCmd) : ∀ k,
    (play o w k cmds).2.deleted = true →
    ∃ n, n + 1 = k + (executed (play o w k cmds).1).length ∧ w.exit n ≠ .notStarted ∧
      ((play o w k cmds).2.status = .failed ∧ (w.exit n = .signal ∨ o.deleteOnError = true ∨ w.dying n = true) ∨
       (play o w k cmds).2.status = .question ∧ o.question = true) := by
  have ex : ∀ c, runs o c = true → (executed (steps o c)).length = 1 := by
    intro c h
    unfold steps
    cases h2 : isShown o c <;> simp [h, executed]
  have ex0 : ∀ c, runs o c = false → executed (steps o c) = [] := by
    intro c h
    unfold steps
    cases h2 : isShown o c <;> simp [h, executed]
  have app : ∀ a b, executed (a ++ b) = executed a ++ executed b := by intro a b; simp [executed]
  induction cmds with
  | nil => intro k h; simp [play] at h
  | cons c cs ih =>
    intro k
    rw [play]
    by_cases h1 : asks o c = true
    · rw [if_pos h1]
      intro h
      simp only [decide_eq_true_eq] at h
      have : o.question = true := by simp [asks] at h1; exact h1.1.2
      exact ⟨k - 1, by simp [executed]; omega, h.2, .inr ⟨rfl, this⟩⟩
    rw [if_neg h1]
    by_cases h2 : (!runs o c) = true
    · rw [if_pos h2]
      simp only
      intro h
      rw [app, ex0 c (by simpa using h2), List.nil_append]
      exact ih k h
    rw [if_neg h2]
    have h2' : runs o c = true := by simpa using h2
    simp only
    by_cases h3 : w.exit k = .code 77 ∧ o.debugger = true
    · rw [if_pos h3]; intro h; cases h
    rw [if_neg h3]
    by_cases h4 : childFailed o c.recursive (w.exit k) ≠ .success ∧ (!c.noerror) = true ∧ (!o.ignoreErrors) = true
    · rw [if_pos h4]
      simp only [decide_eq_true_eq]
      intro h
      refine ⟨k, by rw [ex c h2'], h.2, ?_⟩
      have h5 := h4.1
      generalize he : w.exit k = e at *
      unfold childFailed at h5 ⊢
      cases e with
      | code n =>
        simp only at h5 ⊢
        by_cases hn : n = 0
        · simp [hn] at h5
        · rw [if_neg hn]
          split
          · rename_i h6; exact .inr ⟨rfl, h6.2.1⟩
          · refine .inl ⟨rfl, ?_⟩
            rcases h.1 with h | h
            · exact .inl h
            · exact .inr (.inl h)
      | signal => exact .inl ⟨rfl, .inl rfl⟩
      | notStarted => exact absurd rfl h.2
    rw [if_neg h4]
    by_cases h5 : cs = []
    · rw [if_pos h5]; intro h; cases h
    rw [if_neg h5]
    by_cases h6 : w.dying k = true
    · rw [if_pos h6]
      simp only [decide_eq_true_eq]
      intro h
      exact ⟨k, by rw [ex c h2'], h, .inl ⟨by simp, .inr (.inr h6)⟩⟩
    rw [if_neg h6]
    simp only
    intro h
    obtain ⟨n, q1, q2⟩ := ih (k + 1) h
    refine ⟨n, ?_, q2⟩
    rw [app, List.length_append, ex c h2']
    omega

/-- C71.  The targets of a recipe are only deleted when it did not succeed, after the last command that was
executed has ended: because of a signal, `.DELETE_ON_ERROR`, because make is dying, or under `-q`. -/
theorem C71_deleted (o : RunOpts) (sp : Splitter) (w : RunWorld) (lines : List RecipeLine)
    (h : (runRecipe o sp w lines).2.deleted = true) :
    ∃ n, n + 1 = (executed (runRecipe o sp w lines).1).length ∧ w.exit n ≠ .notStarted ∧
      ((runRecipe o sp w lines).2.status = .failed ∧
          (w.exit n = .signal ∨ o.deleteOnError = true ∨ w.dying n = true) ∨
       (runRecipe o sp w lines).2.status = .question ∧ o.question = true) := by
  rw [run_play] at h ⊢
  obtain ⟨n, h1, h2⟩ := play_deleted o w _ 0 h
  exact ⟨n, by omega, h2⟩

/-- A recipe used in the examples. -/
def demoRecipe : List RecipeLine :=
  [⟨{}, "@echo one".toList⟩, ⟨{ noerror := true }, "-false x\n\techo two".toList⟩, ⟨{}, "  ".toList⟩,
   ⟨{ recurse := true }, "+sub all".toList⟩, ⟨{}, ":".toList⟩, ⟨{}, "cp a >b".toList⟩]

/-- The splitter of the default shell. -/
def demoSplit : Splitter := shellSplitter false none (some "-c".toList) none

/-- Non-vacuity: a run that stops at a failure, one that succeeds, and `-n`. -/
theorem C71_demo :
    runRecipe {} demoSplit ⟨fun k => if k = 3 then .code 2 else if k = 1 then .code 1 else .code 0, fun _ => false⟩
      demoRecipe =
      ([.exec ["echo".toList, "one".toList], .print "false x".toList, .exec ["false".toList, "x".toList],
        .print "echo two".toList, .exec ["echo".toList, "two".toList],
        .print "sub all".toList, .exec ["sub".toList, "all".toList]], ⟨.failed, false⟩) ∧
    runRecipe { justPrint := true } demoSplit ⟨fun _ => .code 0, fun _ => false⟩ demoRecipe =
      ([.print "echo one".toList, .print "false x".toList, .print "echo two".toList, .print "sub all".toList,
        .exec ["sub".toList, "all".toList], .print ":".toList, .print "cp a >b".toList], ⟨.success, false⟩) := by
  decide +kernel

/-- C52 and C71: with `-q`, a recipe with a recursive line that succeeded and another line has its targets
deleted (if they changed), though no command failed. -/
theorem C71_question_deletes :
    runRecipe { question := true } demoSplit ⟨fun _ => .code 0, fun _ => false⟩
      [⟨{ recurse := true }, "+sub x".toList⟩, ⟨{}, "echo".toList⟩] =
      ([.print "sub x".toList, .exec ["sub".toList, "x".toList]], ⟨.question, true⟩) := by
  decide +kernel

end Remake
