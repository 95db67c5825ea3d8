import Verif.Start.Spec
import Verif.Files.Names
import Verif.Reader.TargetLemmas
/-!
# Properties of the start of make

C93: goals on the command line; C94: variables from the environment; C95: the level of recursion; C96: the number of jobs.
-/
set_option linter.unusedVariables false
set_option linter.unusedSimpArgs false
namespace Remake
open Remake.Spec

/-! ## C93 -/

theorem stripDotSlash_eq (s : Str) : stripDotSlash s = stripCommand s := by
  fun_induction stripDotSlash s with
  | case1 r ih =>
    rw [ih, stripCommand.eq_def ('.' :: '/' :: r)]
    rfl
  | case2 s h =>
    rw [stripCommand.eq_def]
    split
    · rename_i t
      exact absurd rfl (h t)
    · rfl

theorem stripped_strip (s : Str) : Stripped s (if stripDotSlash s = [] then ['.', '/'] else stripDotSlash s) := by
  rw [stripDotSlash_eq, commandStrip_eq]
  exact lookupName_stripped s

theorem expandFile_goal (tilde : Str → Option Str) (w : Str) : GoalName tilde w (expandFile tilde w) := by
  unfold expandFile GoalName
  by_cases h : w.head? = some '~'
  · rw [if_pos h]
    right
    refine ⟨h, ?_⟩
    cases ht : tilde w with
    | none => exact Or.inr ⟨Or.inl rfl, stripped_strip w⟩
    | some e =>
      by_cases he : e = []
      · subst he
        exact Or.inr ⟨Or.inr rfl, stripped_strip w⟩
      · left
        refine ⟨e, rfl, he, ?_⟩
        simp only [ne_eq, he, not_false_eq_true, if_true]
        exact stripped_strip e
  · rw [if_neg h]
    exact Or.inl ⟨h, stripped_strip w⟩

theorem goalWord_iff (w : Str) : IsGoalWord w ↔ w ≠ ['-'] ∧ parseVariableDefinition w = none := by
  unfold IsGoalWord
  refine and_congr_right fun _ => ?_
  constructor
  · intro h
    cases hp : parseVariableDefinition w with
    | none => rfl
    | some a =>
      obtain ⟨n, f, v⟩ := a
      exact absurd ((C27_recognised w n f v).mp hp) (h n f v)
  · intro h n f v ha
    rw [(C27_recognised w n f v).mpr ha] at h
    cases h

/-- One word: either it is a goal, or goals stay. -/
theorem handleArg_goals {E : DefEnv} {tilde : Str → Option Str} {env : Bool} {c c' : CmdLine} {w : Str}
    (h : handleArg E tilde env c w = .done c') :
    (IsGoalWord w ∧ env = false ∧ c'.goals = c.goals ++ [expandFile tilde w] ∧ c'.vars = c.vars ∧
      c'.defs = addGoalName E c.defs (expandFile tilde w)) ∨
    ((¬ IsGoalWord w ∨ env = true) ∧ c'.goals = c.goals) := by
  unfold handleArg at h
  by_cases h1 : w = ['-']
  · rw [if_pos h1] at h
    cases h
    exact Or.inr ⟨Or.inl fun hg => hg.1 h1, rfl⟩
  · rw [if_neg h1] at h
    cases hp : parseVariableDefinition w with
    | none =>
      rw [hp] at h
      simp only at h
      cases env with
      | true =>
        simp only [if_true] at h
        cases h
        exact Or.inr ⟨Or.inr rfl, rfl⟩
      | false =>
        simp only [Bool.false_eq_true, if_false] at h
        by_cases hw : w = []
        · rw [if_pos hw] at h; cases h
        · rw [if_neg hw] at h
          cases h
          exact Or.inl ⟨(goalWord_iff w).mpr ⟨h1, hp⟩, rfl, rfl, rfl, rfl⟩
    | some a =>
      rw [hp] at h
      simp only at h
      right
      refine ⟨Or.inl fun hg => ?_, ?_⟩
      · rw [((goalWord_iff w).mp hg).2] at hp; cases hp
      · by_cases hn : (E.expand c.defs a.name).2 = []
        · rw [if_pos hn] at h; cases h
        · rw [if_neg hn] at h
          split at h
          · cases h
          · cases h; rfl

/-- **C93** The goals are the words that are neither `-` nor assignments, in the order given. -/
theorem C93_goals {E : DefEnv} {tilde : Str → Option Str} {c c' : CmdLine} {ws : List Str}
    (h : handleArgs E tilde false c ws = .done c') : ∃ gs, GoalsOf tilde ws gs ∧ c'.goals = c.goals ++ gs := by
  induction ws generalizing c with
  | nil =>
    simp only [handleArgs, ArgRes.done.injEq] at h
    subst h
    exact ⟨[], .nil, by simp⟩
  | cons w ws ih =>
    simp only [handleArgs] at h
    cases h1 : handleArg E tilde false c w with
    | fatal => rw [h1] at h; simp at h
    | undef => rw [h1] at h; simp at h
    | done c1 =>
      rw [h1] at h
      obtain ⟨gs, h2, h3⟩ := ih h
      rcases handleArg_goals h1 with ⟨a1, _, a2, _⟩ | ⟨a1, a2⟩
      · exact ⟨_ :: gs, .goal a1 (expandFile_goal tilde w) h2, by rw [h3, a2]; simp⟩
      · refine ⟨gs, .skip ?_ h2, by rw [h3, a2]⟩
        rcases a1 with a1 | a1
        · exact a1
        · cases a1

/-- **C93** Words of `MAKEFLAGS` add no goals. -/
theorem C93_environment {E : DefEnv} {tilde : Str → Option Str} {c c' : CmdLine} {ws : List Str}
    (h : handleArgs E tilde true c ws = .done c') : c'.goals = c.goals := by
  induction ws generalizing c with
  | nil =>
    simp only [handleArgs, ArgRes.done.injEq] at h
    subst h
    rfl
  | cons w ws ih =>
    simp only [handleArgs] at h
    cases h1 : handleArg E tilde true c w with
    | fatal => rw [h1] at h; simp at h
    | undef => rw [h1] at h; simp at h
    | done c1 =>
      rw [h1] at h
      rcases handleArg_goals h1 with ⟨_, a1, _⟩ | ⟨_, a2⟩
      · cases a1
      · rw [ih h, a2]

/-- Defining another variable leaves `m` as it is. -/
theorem define_elsewhere {E : DefEnv} (hE : PureEnv E) {st st' : DefState} {n m value : Str} {o : Origin} {fl : Flavor}
    (h : doVariableDefinition E st n value o fl false = some st') (hm : m ≠ n) :
    st'.chain = st.chain ∧ ∀ j, st'.sets j m = st.sets j m := by
  have hx := pure_expand hE st value
  have key : ∀ (p : Str) (r a c : Bool), (finishDefinition E st n p o r false a c).chain = st.chain ∧
      ∀ j, (finishDefinition E st n p o r false a c).sets j m = st.sets j m := by
    intro p r a c
    obtain ⟨h1, h2⟩ := finish_same E st n p o r false a c
    exact ⟨h1, fun j => h2 j m fun h => hm h.2⟩
  have e1 := congrArg Prod.fst hx
  simp only at e1
  cases fl with
  | bogus => simp [doVariableDefinition] at h
  | recursive =>
    simp only [doVariableDefinition, Option.some.injEq] at h
    subst h; exact key ..
  | simple =>
    simp only [doVariableDefinition, Option.some.injEq] at h
    rw [e1] at h
    subst h; exact key ..
  | shell =>
    simp only [doVariableDefinition, Option.some.injEq] at h
    have e2 := congrArg Prod.fst (pure_shell hE st (E.expand st value).2)
    simp only at e2
    rw [e1, e2] at h
    subst h; exact key ..
  | conditional =>
    simp only [doVariableDefinition] at h
    split at h
    · cases h; exact ⟨rfl, fun _ => rfl⟩
    · cases h; exact key ..
  | append =>
    simp only [doVariableDefinition, Bool.false_eq_true, if_false] at h
    split at h
    · cases h; exact key ..
    · split at h
      · cases h
      · rename_i v hv
        have : ∃ x, (if v.recursive = true then (st, value) else if Flavor.append ≠ Flavor.appendValue then E.expand st value
            else (st, value)) = (st, x) := by
          split
          · exact ⟨_, rfl⟩
          · exact ⟨(E.expand st value).2, by rw [if_pos (by decide)]; exact hx⟩
        obtain ⟨x, hx'⟩ := this
        rw [hx'] at h
        simp only at h
        split at h
        · cases h
        · split at h
          · cases h; exact ⟨rfl, fun _ => rfl⟩
          · cases h; exact key ..
  | appendValue =>
    simp only [doVariableDefinition, Bool.false_eq_true, if_false] at h
    split at h
    · cases h; exact key ..
    · split at h
      · cases h
      · rename_i v hv
        have : (if v.recursive = true then (st, value) else if Flavor.appendValue ≠ Flavor.appendValue then E.expand st value
            else (st, value)) = (st, value) := by
          split
          · rfl
          · simp
        rw [this] at h
        simp only at h
        split at h
        · cases h
        · split at h
          · cases h; exact ⟨rfl, fun _ => rfl⟩
          · cases h; exact key ..

theorem handleArg_goalsVar {E : DefEnv} (hE : PureEnv E) {tilde : Str → Option Str} {c c' : CmdLine} {w : Str}
    (hw : ∀ n f v, IsAssignment w n f v → (E.expand c.defs n).2 ≠ goalsName) (h : handleArg E tilde false c w = .done c')
    (hg : ¬ IsGoalWord w) : c'.defs.chain = c.defs.chain ∧ ∀ j, c'.defs.sets j goalsName = c.defs.sets j goalsName := by
  unfold handleArg at h
  by_cases h1 : w = ['-']
  · rw [if_pos h1] at h
    cases h
    exact ⟨rfl, fun _ => rfl⟩
  · rw [if_neg h1] at h
    cases hp : parseVariableDefinition w with
    | none => exact absurd ((goalWord_iff w).mpr ⟨h1, hp⟩) hg
    | some a =>
      rw [hp] at h
      simp only at h
      by_cases hn : (E.expand c.defs a.name).2 = []
      · rw [if_pos hn] at h; cases h
      · rw [if_neg hn, (hE c.defs a.name).1] at h
        split at h
        · cases h
        · rename_i st hd
          cases h
          exact define_elsewhere hE hd (hw a.name a.flavor a.value ((C27_recognised _ _ _ _).mp hp)).symm

/-- The value of `MAKECMDGOALS` when `gs` were the goals so far. -/
def GoalsVar (st : DefState) (gs : List Str) : Prop :=
  (∃ b, st.chain = [(0, b)]) ∧
    match gs with
    | [] => st.sets 0 goalsName = none
    | _ => ∃ v, st.sets 0 goalsName = some v ∧ v.origin = .default ∧ v.value = unwords gs

theorem unwords_snoc (g : Str) (gs : List Str) (n : Str) : unwords (g :: gs ++ [n]) = unwords (g :: gs) ++ ' ' :: n := by
  induction gs generalizing g with
  | nil => simp [unwords]
  | cons h gs ih =>
    have := ih h
    rw [List.cons_append, unwords_cons g, unwords_cons g (h :: gs), this]
    simp

theorem addGoal_at {E : DefEnv} {st : DefState} {b : Bool} (hb : st.chain = [(0, b)]) (n : Str) :
    (addGoalName E st n).sets 0 goalsName = some (defineVar E.envOv (st.sets 0 goalsName) goalsName []
      (match st.sets 0 goalsName with
        | none => n
        | some gv => gv.value ++ ' ' :: n) .default false) := by
  have hl : lookupVariable st.scopes goalsName = st.sets 0 goalsName := by
    simp only [lookupVariable, lookupGo, DefState.scopes, hb, List.map_cons, List.map_nil]
    cases st.sets 0 goalsName <;> rfl
  simp only [addGoalName, hl, hb, List.head?_cons, Option.map_some, Option.getD_some, if_true, VarSet.define, put_same]
  cases st.sets 0 goalsName <;> rfl

theorem goalsVar_snoc {E : DefEnv} {st : DefState} {gs : List Str} (h : GoalsVar st gs) (n : Str) :
    GoalsVar (addGoalName E st n) (gs ++ [n]) := by
  obtain ⟨⟨b, hb⟩, h⟩ := h
  refine ⟨⟨b, hb⟩, ?_⟩
  have ha := addGoal_at (E := E) hb n
  cases gs with
  | nil =>
    simp only at h
    rw [h] at ha
    exact ⟨_, ha, by simp [defineVar, promote], by simp [defineVar, unwords]⟩
  | cons g gs =>
    simp only at h
    obtain ⟨v, h1, h2, h3⟩ := h
    rw [h1] at ha
    refine ⟨_, ha, ?_, ?_⟩
    · simp [defineVar, h2, promote]
    · rw [unwords_snoc, ← h3]
      simp [defineVar, h2]

/-- **C93** (partial: `MAKECMDGOALS` has no definition before, and no word assigns to it; expansions have no side effects)
`MAKECMDGOALS` has the goals, separated by blanks. -/
theorem C93_variable_partial {E : DefEnv} (hE : PureEnv E) {tilde : Str → Option Str} {c c' : CmdLine} {ws : List Str}
    (hc : ∃ b, c.defs.chain = [(0, b)]) (h0 : c.defs.sets 0 goalsName = none) (hg : c.goals = [])
    (hw : ∀ w ∈ ws, ∀ n f v st, IsAssignment w n f v → (E.expand st n).2 ≠ goalsName)
    (h : handleArgs E tilde false c ws = .done c') :
    (c'.goals = [] → c'.defs.sets 0 goalsName = none) ∧
      (c'.goals ≠ [] → ∃ v, c'.defs.sets 0 goalsName = some v ∧ v.origin = .default ∧ v.value = unwords c'.goals) := by
  have key : ∀ (ws : List Str) (c : CmdLine), GoalsVar c.defs c.goals →
      (∀ w ∈ ws, ∀ n f v st, IsAssignment w n f v → (E.expand st n).2 ≠ goalsName) →
      handleArgs E tilde false c ws = .done c' → GoalsVar c'.defs c'.goals := by
    intro ws
    induction ws with
    | nil =>
      intro c hc _ h
      simp only [handleArgs, ArgRes.done.injEq] at h
      subst h; exact hc
    | cons w ws ih =>
      intro c hc hw h
      simp only [handleArgs] at h
      cases h1 : handleArg E tilde false c w with
      | fatal => rw [h1] at h; simp at h
      | undef => rw [h1] at h; simp at h
      | done c1 =>
        rw [h1] at h
        refine ih c1 ?_ (fun w' hw' => hw w' (List.mem_cons_of_mem _ hw')) h
        rcases handleArg_goals h1 with ⟨_, _, a1, _, a2⟩ | ⟨a1, a2⟩
        · rw [a1, a2]; exact goalsVar_snoc hc _
        · rcases a1 with a1 | a1
          · obtain ⟨b1, b2⟩ := handleArg_goalsVar hE (fun n f v => hw w List.mem_cons_self n f v c.defs) h1 a1
            rw [a2]
            obtain ⟨d1, d2⟩ := hc
            refine ⟨by rw [b1]; exact d1, ?_⟩
            rw [b2]
            exact d2
          · cases a1
  obtain ⟨_, h2⟩ := key ws c ⟨hc, by rw [hg]; exact h0⟩ hw h
  cases hx : c'.goals with
  | nil =>
    rw [hx] at h2
    exact ⟨fun _ => h2, fun h => absurd rfl h⟩
  | cons g gs =>
    rw [hx] at h2
    exact ⟨fun h => (List.cons_ne_nil _ _ h).elim, fun _ => h2⟩

/-- The state before the command line is read: no variables. -/
def bareLine : CmdLine := { defs := ⟨fun _ => VarSet.empty, [(0, false)]⟩ }

/-- `make CC=gcc ./all - test`. -/
example : (match handleArgs plainEnv (fun _ => none) false bareLine ["CC=gcc".toList, "./all".toList, "-".toList, "test".toList] with
    | .done c => some (c.goals, c.vars, (c.defs.sets 0 goalsName).map (·.value))
    | _ => none) = some (["all".toList, "test".toList], ["CC".toList], some "all test".toList) := by decide +kernel

example : PureEnv plainEnv := fun _ _ => ⟨rfl, rfl⟩

/-- C93 fails for `MAKECMDGOALS` when it is in the environment (or is set on the command line): the goals are not stored
there. -/
theorem C93_overridden (E : DefEnv) {st : DefState} {b : Bool} (hb : st.chain = [(0, b)]) {v : Var}
    (h : st.sets 0 goalsName = some v) (ho : v.origin = .env ∨ v.origin = .command) (n : Str) :
    ∃ v', (addGoalName E st n).sets 0 goalsName = some v' ∧ v'.value = v.value := by
  refine ⟨_, addGoal_at hb n, ?_⟩
  rw [h]
  cases he : E.envOv <;> rcases ho with ho | ho <;> simp [defineVar, ho, promote, Origin.rank]

/-! ## C81: the variables of the command line -/

/-- The names words assign to are those recorded, without repetition. -/
theorem C81_recorded {E : DefEnv} {tilde : Str → Option Str} {env : Bool} {c c' : CmdLine} {ws : List Str} (hc : c.vars.Nodup)
    (hE : ∀ st st' x, (E.expand st x).2 = (E.expand st' x).2)
    (h : handleArgs E tilde env c ws = .done c') :
    c'.vars.Nodup ∧ ∀ st n, n ∈ c'.vars ↔ n ∈ c.vars ∨ ∃ w ∈ ws, w ≠ ['-'] ∧ ∃ m f v, IsAssignment w m f v ∧ (E.expand st m).2 = n := by
  induction ws generalizing c with
  | nil =>
    simp only [handleArgs, ArgRes.done.injEq] at h
    subst h
    exact ⟨hc, by simp⟩
  | cons w ws ih =>
    simp only [handleArgs] at h
    cases h1 : handleArg E tilde env c w with
    | fatal => rw [h1] at h; simp at h
    | undef => rw [h1] at h; simp at h
    | done c1 =>
      rw [h1] at h
      have step : c1.vars.Nodup ∧ ∀ st n, n ∈ c1.vars ↔ n ∈ c.vars ∨ (w ≠ ['-'] ∧ ∃ m f v, IsAssignment w m f v ∧ (E.expand st m).2 = n) := by
        unfold handleArg at h1
        by_cases hw : w = ['-']
        · rw [if_pos hw] at h1; cases h1
          exact ⟨hc, by simp [hw]⟩
        · rw [if_neg hw] at h1
          cases hp : parseVariableDefinition w with
          | none =>
            rw [hp] at h1
            have hno : ∀ m f v, ¬ IsAssignment w m f v := ((goalWord_iff w).mpr ⟨hw, hp⟩).2
            have : c1.vars = c.vars := by
              simp only at h1
              split at h1
              · cases h1; rfl
              · split at h1
                · cases h1
                · cases h1; rfl
            rw [this]
            refine ⟨hc, fun st n => ⟨Or.inl, ?_⟩⟩
            rintro (h | ⟨_, m, f, v, h, _⟩)
            · exact h
            · exact absurd h (hno m f v)
          | some a =>
            rw [hp] at h1
            simp only at h1
            have ha : IsAssignment w a.name a.flavor a.value := (C27_recognised _ _ _ _).mp hp
            have hset : ∀ st n, (∃ m f v, IsAssignment w m f v ∧ (E.expand st m).2 = n) ↔ n = (E.expand c.defs a.name).2 := by
              intro st n
              constructor
              · rintro ⟨m, f, v, h1, rfl⟩
                rw [(C27_unique _ _ _ _ _ _ _ h1 ha).1]
                exact hE _ _ _
              · rintro rfl
                exact ⟨_, _, _, ha, hE _ _ _⟩
            by_cases hn : (E.expand c.defs a.name).2 = []
            · rw [if_pos hn] at h1; cases h1
            · rw [if_neg hn] at h1
              split at h1
              · cases h1
              · cases h1
                simp only [hset]
                by_cases hin : (E.expand c.defs a.name).2 ∈ c.vars
                · rw [if_pos hin]
                  refine ⟨hc, fun _ n => ⟨Or.inl, ?_⟩⟩
                  rintro (h | ⟨_, rfl⟩)
                  · exact h
                  · exact hin
                · rw [if_neg hin]
                  refine ⟨List.nodup_cons.mpr ⟨hin, hc⟩, fun _ n => ?_⟩
                  simp [hw, or_comm]
      obtain ⟨i1, i2⟩ := ih step.1 h
      refine ⟨i1, fun st n => ?_⟩
      rw [i2 st n, step.2 st n]
      constructor
      · rintro ((h | ⟨h1, h2⟩) | ⟨w', h1, h2⟩)
        · exact Or.inl h
        · exact Or.inr ⟨w, List.mem_cons_self, h1, h2⟩
        · exact Or.inr ⟨w', List.mem_cons_of_mem _ h1, h2⟩
      · rintro (h | ⟨w', h1, h2⟩)
        · exact Or.inl (Or.inl h)
        · rcases List.mem_cons.mp h1 with rfl | h1
          · exact Or.inl (Or.inr h2)
          · exact Or.inr ⟨w', h1, h2⟩

/-! ## C94 -/

theorem entry_split {e : Str} (h : IsEntry e) : ∃ n v, e = n ++ '=' :: v ∧ '=' ∉ n ∧ nulChar ∉ n ∧ nulChar ∉ v := by
  obtain ⟨h1, h2⟩ := h
  obtain ⟨n, v, rfl, hn⟩ := List.eq_append_cons_of_mem h2
  exact ⟨n, v, rfl, hn, fun h => h1 (by simp [h]), fun h => h1 (by simp [h])⟩

theorem take_until {p : Char → Bool} {a b : Str} {x : Char} (ha : ∀ c ∈ a, p c = true) (hx : p x = false) :
    (a ++ x :: b).takeWhile p = a ∧ (a ++ x :: b).dropWhile p = x :: b := by
  rw [List.takeWhile_append_of_pos ha, List.dropWhile_append_of_pos ha]
  simp [hx]

theorem importEntry_entry (n v rest : Str) (s : EnvVars) (hn : '=' ∉ n) (hn0 : nulChar ∉ n) (hv : nulChar ∉ v) :
    ∃ s', importEntry (n ++ '=' :: v ++ nulChar :: rest) s = some s' ∧
      (∀ m, m ≠ n → s'.set m = s.set m) ∧
      (∃ x, s'.set n = some x ∧
        ((∀ y, s.set n = some y → y.origin = .default ∨ y.origin = .env) → FromEntry n v x)) ∧
      s'.shell = (if n = "SHELL".toList then some v else s.shell) ∧
      s'.restarts = (if n = "MAKE_RESTARTS".toList then toUnsigned (atoiSigned (if v.head? = some '-' then v.tail else v)) else s.restarts) ∧
      s'.traced = (s.traced || (n == "MAKE_RESTARTS".toList && v.head? == some '-')) := by
  have e1 := take_until (p := fun c => decide (c ≠ '=')) (a := n) (b := v ++ nulChar :: rest) (x := '=')
    (fun c hc => by simp; rintro rfl; exact hn hc) (by simp)
  have e2 := (take_until (p := fun c => decide (c ≠ nulChar)) (a := v) (b := rest) (x := nulChar)
    (fun c hc => by simp; rintro rfl; exact hv hc) (by simp)).1
  have e3 : n.takeWhile (fun c => decide (c ≠ nulChar)) = n := by
    have := List.takeWhile_append_of_pos (p := fun c => decide (c ≠ nulChar)) (l₁ := n) (l₂ := [])
      (fun c hc => by simp; rintro rfl; exact hn0 hc)
    simpa using this
  have hassoc : n ++ '=' :: v ++ nulChar :: rest = n ++ '=' :: (v ++ nulChar :: rest) := by simp
  rw [hassoc]
  have hRS : "SHELL".toList ≠ "MAKE_RESTARTS".toList := by decide
  unfold importEntry FromEntry keptBack
  generalize "MAKE_RESTARTS".toList = R at *
  generalize "SHELL".toList = S at *
  simp only [e1.1, e1.2, e2, e3]
  refine ⟨_, rfl, ?_, ⟨_, put_same _ _ _, ?_⟩, ?_, ?_, ?_⟩
  · intro m hm
    exact put_other _ _ hm
  · intro hold
    have hval : ∀ old : Option Var, (∀ y, old = some y → y.origin = .default ∨ y.origin = .env) → ∀ nm val,
        (defineVar false old nm [] val .env true).value = val ∧ (defineVar false old nm [] val .env true).origin = .env ∧
        (defineVar false old nm [] val .env true).recursive = true := by
      intro old ho nm val
      cases old with
      | none => simp [defineVar, promote]
      | some y => rcases ho y rfl with h | h <;> simp [defineVar, promote, h, Origin.rank]
    obtain ⟨h1, h2, h3⟩ := hval (s.set n) hold ((n ++ '=' :: (v ++ nulChar :: rest)).takeWhile (fun c => decide (c ≠ nulChar)))
      (if (decide (n = R) && decide (v.head? = some '-')) = true then v.tail else v)
    refine ⟨h2, h3, ?_, ?_, ?_⟩
    · intro hk
      simp only [List.mem_cons, List.not_mem_nil, or_false] at hk
      rcases hk with hk | hk <;> simp [hk]
    · intro hk
      simp only [List.mem_cons, List.not_mem_nil, or_false, not_or] at hk
      simp [hk.1, hk.2]
    · simp only [h1]
      by_cases hn' : n = R
      · by_cases hm : v.head? = some '-'
        · left
          refine ⟨hn', ?_⟩
          cases v with
          | nil => cases hm
          | cons c cs =>
            simp only [List.head?_cons, Option.some.injEq] at hm
            subst hm
            simp [hn']
        · right
          exact ⟨fun _ => hm, by simp [hm]⟩
      · right
        exact ⟨fun h => absurd h hn', by simp [hn']⟩
  · by_cases h : n = S
    · simp [h, hRS]
    · simp [h]
  · by_cases h : n = R
    · simp [h]
    · simp [h]
  · by_cases h : n = R <;> by_cases hm : v.head? = some '-' <;> simp [h, hm]

theorem toUnsigned_numeral {k : Nat} (hk : k < 2 ^ 32) : toUnsigned (atoiSigned (numeral k)) = k := by
  have hnum : IsNumeral (numeral k) k := ⟨[], 0, [], by simp, by simp, by simp⟩
  have ha : atoiSigned (numeral k) = atoi (numeral k) := by
    have hd : ∀ c ∈ numeral k, isDigitC c = true := by rw [numeral_eq]; exact toDigits_all_digit k
    cases hn : numeral k with
    | nil => rw [numeral_eq] at hn; exact absurd hn (toDigits_ne_nil k)
    | cons c cs =>
      have hc := hd c (by rw [hn]; simp)
      have h1 : (c :: cs).dropWhile isSpace = c :: cs := by
        rw [List.dropWhile_cons_of_neg (by simp [isDigit_not_space hc])]
      unfold atoiSigned
      rw [h1]
      split
      · rename_i heq
        rw [(List.cons.inj heq).1] at hc; cases hc
      · rename_i heq
        rw [(List.cons.inj heq).1] at hc; cases hc
      · rfl
  rw [ha, atoi_numeral_gen hnum, toUnsigned, Nat.min_eq_left (by omega)]
  rw [show ((2 : Int) ^ 32) = ((2 ^ 32 : Nat) : Int) by decide, Int.bmod_emod]
  omega

theorem entry_name {n v m : Str} (hn : '=' ∉ n) (hm : '=' ∉ m) (h : (m ++ ['=']) <+: n ++ '=' :: v) : m = n := by
  obtain ⟨t, ht⟩ := h
  have h1 := (take_until (p := fun c => decide (c ≠ '=')) (a := n) (b := v) (x := '=')
    (fun c hc => by simp; rintro rfl; exact hn hc) (by simp)).1
  have h2 := (take_until (p := fun c => decide (c ≠ '=')) (a := m) (b := t) (x := '=')
    (fun c hc => by simp; rintro rfl; exact hm hc) (by simp)).1
  rw [← ht, List.append_assoc, List.singleton_append, h2] at h1
  exact h1

theorem entry_inj {n v m u : Str} (hn : '=' ∉ n) (hm : '=' ∉ m) (h : n ++ '=' :: v = m ++ '=' :: u) : n = m ∧ v = u := by
  have h1 : n = m := by
    refine (entry_name (v := u) hm hn ?_)
    rw [← h]
    exact ⟨v, by simp⟩
  subst h1
  simpa using h

/-- The value of an entry is the last for its name, or a later one is. -/
theorem lastEntry_cons {e : Str} {es : List Str} {n v : Str} (h : LastEntry (e :: es) n v) :
    LastEntry es n v ∨ (e = n ++ '=' :: v ∧ '=' ∉ n ∧ ∀ e ∈ es, ¬ (n ++ ['=']) <+: e) := by
  obtain ⟨pre, post, h1, h2, h3⟩ := h
  cases pre with
  | nil =>
    simp only [List.nil_append, List.cons.injEq] at h1
    obtain ⟨rfl, rfl⟩ := h1
    exact Or.inr ⟨rfl, h2, h3⟩
  | cons p pre =>
    simp only [List.cons_append, List.cons.injEq] at h1
    exact Or.inl ⟨pre, post, h1.2, h2, h3⟩

/-- **C94** (partial: every entry has an equals sign, see `C94_no_equals`) The environment is read: the last entry for a name
makes the variable; names without an entry stay as they are.  The variables make has defined itself before are defaults. -/
theorem C94_import_partial {es : List Str} (hes : ∀ e ∈ es, IsEntry e) (beyond : Str) (s : EnvVars)
    (hs : ∀ n x, s.set n = some x → x.origin = .default ∨ x.origin = .env) :
    ∃ s', importEnv es beyond s = some s' ∧
      (∀ n v, LastEntry es n v → ∃ x, s'.set n = some x ∧ FromEntry n v x) ∧
      (∀ n, (∀ e ∈ es, ¬ (n ++ ['=']) <+: e) → '=' ∉ n → s'.set n = s.set n) ∧
      (∀ v, LastEntry es "SHELL".toList v → s'.shell = some v) ∧
      ((∀ e ∈ es, ¬ ("SHELL".toList ++ ['=']) <+: e) → s'.shell = s.shell) ∧
      (∀ k < 2 ^ 32, ∀ sign, sign = [] ∨ sign = ['-'] → LastEntry es "MAKE_RESTARTS".toList (sign ++ numeral k) → s'.restarts = k) ∧
      ((∀ e ∈ es, ¬ ("MAKE_RESTARTS".toList ++ ['=']) <+: e) → s'.restarts = s.restarts) := by
  induction es generalizing s with
  | nil =>
    refine ⟨s, rfl, ?_, fun _ _ _ => rfl, ?_, fun _ => rfl, ?_, fun _ => rfl⟩
    · rintro n v ⟨pre, post, h, _⟩; simp at h
    · rintro v ⟨pre, post, h, _⟩; simp at h
    · rintro k _ sign _ ⟨pre, post, h, _⟩; simp at h
  | cons e es ih =>
    obtain ⟨n, v, rfl, hn, hn0, hv⟩ := entry_split (hes e List.mem_cons_self)
    obtain ⟨s1, h1, h2, ⟨x, h3, h4⟩, h5, h6, _⟩ := importEntry_entry n v (envMemory es ++ beyond) s hn hn0 hv
    have h4 := h4 (hs n)
    obtain ⟨s', i1, i2, i3, i4, i5, i6, i7⟩ := ih (fun e he => hes e (List.mem_cons_of_mem _ he)) s1 (by
      intro m y hm
      by_cases hmn : m = n
      · subst hmn
        rw [h3] at hm
        rw [← Option.some.inj hm]
        exact Or.inr h4.1
      · rw [h2 m hmn] at hm
        exact hs m y hm)
    have hS : '=' ∉ "SHELL".toList := by decide
    have hR : '=' ∉ "MAKE_RESTARTS".toList := by decide
    refine ⟨s', ?_, ?_, ?_, ?_, ?_, ?_, ?_⟩
    · simp only [importEnv]
      have : envMemory ((n ++ '=' :: v) :: es) ++ beyond = n ++ '=' :: v ++ nulChar :: (envMemory es ++ beyond) := by
        simp [envMemory]
      rw [this, h1]
      exact i1
    · intro m u hu
      rcases lastEntry_cons hu with hu | ⟨he, hm, hl⟩
      · exact i2 m u hu
      · obtain ⟨rfl, rfl⟩ := entry_inj hn hm he
        exact ⟨x, by rw [i3 _ hl hm, h3], h4⟩
    · intro m hm hm0
      rw [i3 m (fun e he => hm e (List.mem_cons_of_mem _ he)) hm0]
      apply h2
      rintro rfl
      exact hm _ List.mem_cons_self ⟨v, by simp⟩
    · intro u hu
      rcases lastEntry_cons hu with hu | ⟨he, hm, hl⟩
      · exact i4 u hu
      · obtain ⟨h8, rfl⟩ := entry_inj hn hm he
        rw [i5 hl, h5, if_pos h8]
    · intro hm
      rw [i5 (fun e he => hm e (List.mem_cons_of_mem _ he)), h5, if_neg]
      intro h8
      exact hm _ List.mem_cons_self ⟨v, by rw [h8]; simp⟩
    · intro k hk sign hsign hu
      rcases lastEntry_cons hu with hu | ⟨he, hm, hl⟩
      · exact i6 k hk sign hsign hu
      · obtain ⟨h8, rfl⟩ := entry_inj hn hm he
        rw [i7 hl, h6, if_pos h8]
        have : (if (sign ++ numeral k).head? = some '-' then (sign ++ numeral k).tail else sign ++ numeral k) = numeral k := by
          rcases hsign with rfl | rfl
          · rw [List.nil_append, if_neg]
            intro hc
            have hd : ∀ c ∈ numeral k, isDigitC c = true := by rw [numeral_eq]; exact toDigits_all_digit k
            have := hd '-' (List.mem_of_mem_head? hc)
            cases this
          · simp
        rw [this]
        exact toUnsigned_numeral hk
    · intro hm
      rw [i7 (fun e he => hm e (List.mem_cons_of_mem _ he)), h6, if_neg]
      intro h8
      exact hm _ List.mem_cons_self ⟨v, by rw [h8]; simp⟩

/-- No variables. -/
def bareVars : EnvVars := { set := VarSet.empty }

example : (∀ e ∈ ["A=1".toList, "SHELL=/bin/zsh".toList, "A=b=2".toList, "MAKE_RESTARTS=-3".toList], IsEntry e) ∧
    LastEntry ["A=1".toList, "SHELL=/bin/zsh".toList, "A=b=2".toList, "MAKE_RESTARTS=-3".toList] "A".toList "b=2".toList := by
  refine ⟨by unfold IsEntry; decide, ["A=1".toList, "SHELL=/bin/zsh".toList], ["MAKE_RESTARTS=-3".toList], by decide, by decide, by decide⟩

/-- C94 fails for an entry without an equals sign, which make means to ignore: the scan for the equals sign runs on into the next
entry, whose text becomes part of a name (with a NUL inside), and beyond the environment if there is none. -/
theorem C94_no_equals :
    ((importEnv ["X".toList, "Y=1".toList] [] bareVars).bind (fun s => s.set ('X' :: nulChar :: ['Y']))).map (·.value) = some ['1'] ∧
    importEnv ["X".toList] [] bareVars = none := by
  refine ⟨by decide +kernel, ?_⟩
  simp only [importEnv]
  rfl

/-! ## C95 -/

/-- **C95** The make that a recipe starts is one level deeper. -/
theorem C95_level {n : Nat} (h : n + 1 < 2 ^ 32) : readLevel (some (childLevel n)) = n + 1 := by
  rw [childLevel, Nat.mod_eq_of_lt h, ← numeral_eq]
  have hd : ∀ c ∈ numeral (n + 1), isDigitC c = true := by rw [numeral_eq]; exact toDigits_all_digit _
  have := toUnsigned_numeral h
  unfold readLevel
  split
  · rename_i heq; cases heq
  · rename_i heq
    have heq := Option.some.inj heq
    rw [numeral_eq] at heq
    exact absurd heq (toDigits_ne_nil _)
  · rename_i heq
    have heq := Option.some.inj heq
    rw [heq] at hd
    have := hd '-' List.mem_cons_self
    cases this
  · rename_i x _ _ heq
    rw [← Option.some.inj heq]
    exact this

/-- **C95** A make that is not started by another one, or is given no sensible level, is at level 0. -/
theorem C95_top (v : Option Str) (h : v = none ∨ v = some [] ∨ ∃ r, v = some ('-' :: r)) : readLevel v = 0 := by
  rcases h with rfl | rfl | ⟨r, rfl⟩ <;> rfl

example : readLevel (some (childLevel 41)) = 42 := C95_level (by decide)

/-! ## C96 -/

/-- **C96** How jobs are limited. -/
theorem C96_limit (a : SlotArgs) (l : JobLimit) : jobLimit a = l ↔ Limits a l := by
  have h1 : Limits a (jobLimit a) := by
    obtain ⟨env, argv, makefile, auth, usable⟩ := a
    cases argv with
    | some n =>
      have : jobLimit ⟨env, some n, makefile, auth, usable⟩ = ownLimit n := by
        cases makefile <;> cases auth <;> rfl
      rw [this]; exact .argv rfl
    | none =>
      cases makefile with
      | some n =>
        have : jobLimit ⟨env, none, some n, auth, usable⟩ = ownLimit n := by
          cases auth <;> cases usable <;> rfl
        rw [this]; exact .makefile rfl rfl
      | none =>
        cases auth with
        | true =>
          cases usable with
          | true => exact .client rfl rfl rfl rfl
          | false => exact .broken rfl rfl rfl rfl
        | false =>
          cases env with
          | none => exact .none rfl rfl rfl rfl
          | some n =>
            have : jobLimit ⟨some n, none, none, false, usable⟩ = ownLimit n := rfl
            rw [this]; exact .env rfl rfl rfl rfl
  constructor
  · rintro rfl; exact h1
  · intro h2
    generalize jobLimit a = l' at h1
    cases h1 <;> cases h2 <;> simp_all

/-- A make under a jobserver does not set up one of its own, unless it is told a number. -/
example : Limits ⟨some 4, none, none, true, true⟩ .client ∧ Limits ⟨some 4, some 2, none, true, true⟩ (.master 2) :=
  ⟨.client rfl rfl rfl rfl, .argv (n := 2) rfl⟩

end Remake
