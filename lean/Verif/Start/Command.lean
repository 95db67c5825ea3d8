import Verif.Start.Props

/-!
# What an assignment on the command line leaves (C81)
-/

set_option linter.unusedVariables false
set_option linter.unusedSimpArgs false

namespace Remake
open Spec

/-- What `n` is in the global set, if anything, is not stronger than the command line. -/
def NotStronger (E : DefEnv) (st : DefState) (n : Str) : Prop :=
  ∀ v, st.sets 0 n = some v → strength E.envOv v.origin ≤ strength E.envOv .command

theorem assigned_notStronger {e : Bool} {old new : Option Var} {value : Str} {r : Bool}
    (ho : ∀ v, old = some v → strength e v.origin ≤ strength e .command) (h : Assigned e old new value .command r) :
    ∀ v, new = some v → strength e v.origin ≤ strength e .command := by
  obtain ⟨w, rfl, h | h⟩ := h
  · obtain ⟨v, h1, h2, _⟩ := h
    have := ho v h1
    omega
  · intro v hv
    cases hv
    rw [h.2.2.2]
    simp [reported]

/-- A definition from the command line is not stronger than the command line. -/
theorem define_notStronger {E : DefEnv} (hE : PureEnv E) {st st' : DefState} {n value : Str} {fl : Flavor}
    (h : doVariableDefinition E st n value .command fl false = some st') (hn : NotStronger E st n) :
    NotStronger E st' n := by
  have hx := pure_expand hE st value
  have key : ∀ (p : Str) (r a c : Bool), NotStronger E (finishDefinition E st n p .command r false a c) n := by
    intro p r a c
    exact assigned_notStronger hn (finish_assigned E st n p .command r false a c)
  have e1 := congrArg Prod.fst hx
  simp only at e1
  cases fl with
  | bogus => simp [doVariableDefinition] at h
  | recursive =>
    simp only [doVariableDefinition, Option.some.injEq] at h
    subst h; exact key _ _ _ _
  | simple =>
    simp only [doVariableDefinition, Option.some.injEq] at h
    rw [e1] at h
    subst h; exact key _ _ _ _
  | shell =>
    simp only [doVariableDefinition, Option.some.injEq] at h
    have e2 := congrArg Prod.fst (pure_shell hE st (E.expand st value).2)
    simp only at e2
    rw [e1, e2] at h
    subst h; exact key _ _ _ _
  | conditional =>
    simp only [doVariableDefinition] at h
    split at h
    · cases h; exact hn
    · cases h; exact key _ _ _ _
  | append =>
    simp only [doVariableDefinition, Bool.false_eq_true, if_false] at h
    split at h
    · cases h; exact key _ _ _ _
    · split at h
      · cases h
      · rename_i v hv
        have : ∃ x, (if v.recursive = true then (st, value) else if Flavor.append ≠ Flavor.appendValue then E.expand st value
            else (st, value)) = (st, x) := by
          split
          · exact ⟨_, rfl⟩
          · exact ⟨(E.expand st value).2, by rw [if_pos (by decide)]; exact hx⟩
        obtain ⟨x, hx'⟩ := this
        rw [hx'] at h
        simp only at h
        split at h
        · cases h
        · split at h
          · cases h; exact hn
          · cases h; exact key _ _ _ _
  | appendValue =>
    simp only [doVariableDefinition, Bool.false_eq_true, if_false] at h
    split at h
    · cases h; exact key _ _ _ _
    · split at h
      · cases h
      · rename_i v hv
        have : (if v.recursive = true then (st, value) else if Flavor.appendValue ≠ Flavor.appendValue then E.expand st value
            else (st, value)) = (st, value) := by
          split
          · rfl
          · simp
        rw [this] at h
        simp only at h
        split at h
        · cases h
        · split at h
          · cases h; exact hn
          · cases h; exact key _ _ _ _

/-- The name a word assigns to, if it is an assignment. -/
def AssignsTo (E : DefEnv) (w n : Str) : Prop :=
  w ≠ ['-'] ∧ ∃ m f v st, IsAssignment w m f v ∧ (E.expand st m).2 = n

/-- One word: the invariant is kept, and a variable the word does not assign to is as before. -/
theorem handleArg_kept {E : DefEnv} (hE : PureEnv E) {tilde : Str → Option Str} {env : Bool} {c c' : CmdLine} {w n : Str} {b : Bool}
    (hb : c.defs.chain = [(0, b)]) (hg : n ≠ goalsName) (h : handleArg E tilde env c w = .done c') :
    c'.defs.chain = c.defs.chain ∧ (NotStronger E c.defs n → NotStronger E c'.defs n) ∧
      (¬ AssignsTo E w n → c'.defs.sets 0 n = c.defs.sets 0 n) := by
  unfold handleArg at h
  by_cases h1 : w = ['-']
  · rw [if_pos h1] at h
    cases h
    exact ⟨rfl, id, fun _ => rfl⟩
  · rw [if_neg h1] at h
    cases hp : parseVariableDefinition w with
    | none =>
      rw [hp] at h
      simp only at h
      cases env with
      | true => cases h; exact ⟨rfl, id, fun _ => rfl⟩
      | false =>
        simp only [Bool.false_eq_true, if_false] at h
        split at h
        · cases h
        · cases h
          have hs : (addGoalName E c.defs (expandFile tilde w)).sets 0 n = c.defs.sets 0 n := by
            simp only [addGoalName, hb, List.head?_cons, Option.map_some, Option.getD_some, if_true]
            exact put_other _ _ hg
          exact ⟨rfl, fun h v hv => h v (by rw [← hs]; exact hv), fun _ => hs⟩
    | some a =>
      rw [hp] at h
      simp only at h
      by_cases hn : (E.expand c.defs a.name).2 = []
      · rw [if_pos hn] at h; cases h
      · rw [if_neg hn, (hE c.defs a.name).1] at h
        split at h
        · cases h
        · rename_i st hd
          cases h
          have hia := (C27_recognised _ _ _ _).mp hp
          by_cases hm : n = (E.expand c.defs a.name).2
          · refine ⟨(define_elsewhere hE hd (m := (E.expand c.defs a.name).2 ++ ['x']) (by simp)).1, ?_, ?_⟩
            · rw [hm]; exact define_notStronger hE hd
            · intro hno
              exact absurd ⟨h1, a.name, a.flavor, a.value, c.defs, hia, hm.symm⟩ hno
          · obtain ⟨x1, x2⟩ := define_elsewhere hE hd hm
            exact ⟨x1, fun h v hv => h v (by rw [← x2 0]; exact hv), fun _ => x2 0⟩

theorem handleArgs_kept {E : DefEnv} (hE : PureEnv E) {tilde : Str → Option Str} {env : Bool} {c c' : CmdLine} {ws : List Str}
    {n : Str} {b : Bool} (hb : c.defs.chain = [(0, b)]) (hg : n ≠ goalsName) (h : handleArgs E tilde env c ws = .done c') :
    c'.defs.chain = c.defs.chain ∧ (NotStronger E c.defs n → NotStronger E c'.defs n) ∧
      ((∀ w ∈ ws, ¬ AssignsTo E w n) → c'.defs.sets 0 n = c.defs.sets 0 n) := by
  induction ws generalizing c with
  | nil =>
    simp only [handleArgs, ArgRes.done.injEq] at h
    subst h
    exact ⟨rfl, id, fun _ => rfl⟩
  | cons w ws ih =>
    simp only [handleArgs] at h
    cases h1 : handleArg E tilde env c w with
    | fatal => rw [h1] at h; simp at h
    | undef => rw [h1] at h; simp at h
    | done c1 =>
      rw [h1] at h
      obtain ⟨a1, a2, a3⟩ := handleArg_kept hE hb hg h1
      obtain ⟨b1, b2, b3⟩ := ih (a1.trans hb) h
      exact ⟨b1.trans a1, b2 ∘ a2, fun hn => (b3 fun w' hw' => hn w' (List.mem_cons_of_mem _ hw')).trans
        (a3 (hn w List.mem_cons_self))⟩

theorem handleArgs_append {E : DefEnv} {tilde : Str → Option Str} {env : Bool} {c c' : CmdLine} {xs ys : List Str}
    (h : handleArgs E tilde env c (xs ++ ys) = .done c') :
    ∃ c1, handleArgs E tilde env c xs = .done c1 ∧ handleArgs E tilde env c1 ys = .done c' := by
  induction xs generalizing c with
  | nil => exact ⟨c, rfl, h⟩
  | cons x xs ih =>
    simp only [List.cons_append, handleArgs] at h ⊢
    cases h1 : handleArg E tilde env c x with
    | fatal => rw [h1] at h; simp at h
    | undef => rw [h1] at h; simp at h
    | done c1 =>
      rw [h1] at h
      exact ih h

/-- What an assignment with `=` or `:=` gives: the text as it stands, or its expansion. -/
def givenValue (E : DefEnv) (st : DefState) (f : Flavor) (v : Str) : Str :=
  match f with
  | .simple => (E.expand st v).2
  | _ => v

/-- **C81** (partial: expansions have no side effects, the assignment is with `=` or `:=`, the variable is not
`MAKECMDGOALS`, and before it is not stronger than the command line, as is so when the command line is read) The last of the
words that assign to a variable gives its value, and the variable has the origin `command line`, so that makefiles do not
change it (C22). -/
theorem C81_command_partial {E : DefEnv} (hE : PureEnv E) {tilde : Str → Option Str} {env : Bool} {c c' : CmdLine}
    {pre post : List Str} {w m v : Str} {f : Flavor} {n : Str} {b : Bool} (hb : c.defs.chain = [(0, b)])
    (hw : w ≠ ['-']) (ha : IsAssignment w m f v) (hf : f = .recursive ∨ f = .simple)
    (hm : ∀ st, (E.expand st m).2 = n) (hg : n ≠ goalsName) (hs : NotStronger E c.defs n)
    (hp : ∀ w ∈ post, ¬ AssignsTo E w n) (h : handleArgs E tilde env c (pre ++ w :: post) = .done c') :
    ∃ c1 x, handleArgs E tilde env c pre = .done c1 ∧ c'.defs.sets 0 n = some x ∧ x.origin = .command ∧
      x.value = givenValue E c1.defs f v ∧ (x.recursive = true ↔ f = .recursive) ∧ n ∈ c'.vars := by
  obtain ⟨c1, h1, h2⟩ := handleArgs_append h
  obtain ⟨a1, a2, _⟩ := handleArgs_kept hE hb hg h1
  have hs1 := a2 hs
  simp only [handleArgs] at h2
  cases h3 : handleArg E tilde env c1 w with
  | fatal => rw [h3] at h2; simp at h2
  | undef => rw [h3] at h2; simp at h2
  | done c2 =>
    rw [h3] at h2
    simp only at h2
    have b0 := (handleArg_kept hE (a1.trans hb) hg h3).1
    have b3 := (handleArgs_kept hE (b0.trans (a1.trans hb)) hg h2).2.2 hp
    have hvars : ∀ (ws : List Str) (d d' : CmdLine), handleArgs E tilde env d ws = .done d' → n ∈ d.vars → n ∈ d'.vars := by
      intro ws
      induction ws with
      | nil =>
        intro d d' h hd
        simp only [handleArgs, ArgRes.done.injEq] at h
        subst h; exact hd
      | cons y ys ih =>
        intro d d' h hd
        simp only [handleArgs] at h
        cases h1 : handleArg E tilde env d y with
        | fatal => rw [h1] at h; simp at h
        | undef => rw [h1] at h; simp at h
        | done d1 =>
          rw [h1] at h
          refine ih d1 d' h ?_
          unfold handleArg at h1
          split at h1
          · cases h1; exact hd
          · split at h1
            · simp only at h1
              split at h1
              · cases h1
              · split at h1
                · cases h1
                · cases h1
                  show n ∈ (if _ then _ else _)
                  split
                  · exact hd
                  · exact List.mem_cons_of_mem _ hd
            · split at h1
              · cases h1; exact hd
              · split at h1
                · cases h1
                · cases h1; exact hd
    have hpar : parseVariableDefinition w = some ⟨m, f, v⟩ := (C27_recognised _ _ _ _).mpr ha
    unfold handleArg at h3
    rw [if_neg hw, hpar] at h3
    simp only [hm, (hE c1.defs m).1] at h3
    split at h3
    · cases h3
    · split at h3
      · cases h3
      · rename_i st hd
        have hasg : Assigned E.envOv (c1.defs.sets 0 n) (st.sets 0 n) (givenValue E c1.defs f v) .command
            (decide (f = .recursive)) := by
          rcases hf with rfl | rfl
          · obtain ⟨st', y1, y2, _⟩ := C26_recursive E c1.defs n v .command false
            rw [y1] at hd
            cases hd
            exact y2
          · obtain ⟨st', y1, y2, _⟩ := C26_simple E c1.defs c1.defs n v (E.expand c1.defs v).2 .command false (pure_expand hE c1.defs v)
            rw [y1] at hd
            cases hd
            exact y2
        obtain ⟨x, z1, z2⟩ := hasg
        refine ⟨c1, x, h1, ?_, ?_⟩
        · rw [b3]
          cases h3
          exact z1
        · have hv : n ∈ c'.vars := by
            refine hvars post c2 c' h2 ?_
            cases h3
            show n ∈ (if _ then _ else _)
            split
            · assumption
            · exact List.mem_cons_self
          rcases z2 with ⟨o, p1, p2, _⟩ | ⟨_, q1, q2, q3⟩
          · have := hs1 o p1
            omega
          · exact ⟨q3, q1, by rw [q2]; simp, hv⟩

/-- `make CC=gcc all CC:=cc -` after the environment has `CC=tcc`: the last assignment counts, and the origin is the
command line. -/
example : (match handleArgs plainEnv (fun _ => none) false
      { bareLine with defs := ⟨fun _ => VarSet.empty.define false "CC".toList "tcc".toList .env true, [(0, false)]⟩ }
      (["CC=gcc".toList, "all".toList] ++ "CC:=cc".toList :: ["-".toList]) with
    | .done c => (c.defs.sets 0 "CC".toList).map fun x => (x.value, x.origin, x.recursive)
    | _ => none) = some ("cc".toList, .command, false) := by decide +kernel

end Remake
