import Verif.Print.Lemmas
set_option linter.unusedVariables false
set_option linter.unusedSimpArgs false
/-! Reading the lines of a printed variable (C114). -/
namespace Remake
open Spec

section
variable {σ : Type} {E : RdEnv σ}

/-- The state of the reader between two definitions. -/
def atLine {σ : Type} (s : σ) : RdState σ := { env := s }

theorem recipe_atLine (s : σ) (l : Str) : (readerEnv E).recipe (atLine s) l = false := by
  simp [readerEnv, atLine]

theorem atLine_blank (s : σ) (l : Str) (rest : List Str) (h : l = [] ∨ evalText E.posix l = []) :
    evalLoop (readerEnv E) (atLine s) [] false false (l :: rest) =
      evalLoop (readerEnv E) (atLine s) [] false false rest := by
  rw [evalLoop]
  by_cases hl : l = []
  · rw [if_pos hl]
  · have h := h.resolve_left hl
    rw [if_neg hl, if_neg (by rw [recipe_atLine]; simp)]
    have he : (readerEnv E).posix = E.posix := rfl
    have ha : (readerEnv E).assign [] = none := rfl
    simp only [he, h, ha, if_true]

theorem atLine_assign (s : σ) (l : Str) (rest : List Str) (m : VMods) (q : Str) (hl : l ≠ [])
    (hp : parseVarAssignment (evalText E.posix l) = some (m, q)) (hm : m.defineV = false) :
    evalLoop (readerEnv E) (atLine s) [] false false (l :: rest) =
      evalLoop (readerEnv E) (atLine (E.assign s m q)) [] false false rest := by
  rw [evalLoop, if_neg hl, if_neg (by rw [recipe_atLine]; simp)]
  have he : (readerEnv E).posix = E.posix := rfl
  have ha : (readerEnv E).assign (evalText E.posix l) = some false := by simp [readerEnv, hp, hm]
  have hd : (readerEnv E).doAssign (atLine s) (evalText E.posix l) = atLine (E.assign s m q) := by
    simp [readerEnv, hp, unlessFailed, atLine, flush]
  simp only [he, ha, hd, Bool.false_eq_true, if_false]

theorem atLine_define (s : σ) (l : Str) (rest rest' body : List Str) (m : VMods) (q : Str) (hl : l ≠ [])
    (hp : parseVarAssignment (evalText E.posix l) = some (m, q)) (hm : m.defineV = true)
    (ht : takeDefine E.posix (E.cmdPrefix s) 1 rest = some (body, rest')) :
    evalLoop (readerEnv E) (atLine s) [] false false (l :: rest) =
      evalLoop (readerEnv E) (atLine (E.define s m q (defineValue body))) [] false false rest' := by
  rw [evalLoop, if_neg hl, if_neg (by rw [recipe_atLine]; simp)]
  have he : (readerEnv E).posix = E.posix := rfl
  have hc : (readerEnv E).cmdPrefix (atLine s) = E.cmdPrefix s := rfl
  have ha : (readerEnv E).assign (evalText E.posix l) = some true := by simp [readerEnv, hp, hm]
  have hd : (readerEnv E).doDefine (atLine s) (evalText E.posix l) (defineValue body) =
      atLine (E.define s m q (defineValue body)) := by
    simp [readerEnv, hp, unlessFailed, atLine, flush]
  simp only [he, hc, ha, Bool.false_eq_true, if_false, if_true]
  split
  · rename_i h; rw [he, hc, ht] at h; cases h
  · rename_i b r h
    rw [he, hc, ht] at h
    simp only [Option.some.injEq, Prod.mk.injEq] at h
    obtain ⟨rfl, rfl⟩ := h
    rw [hd]

end

section
variable {D : DefEnv} {E : RdEnv (Option DefState)}

/-! ## Names -/

theorem plainName_nameText {n : Str} (h : ∀ c ∈ n, c ≠ '$' ∧ c ≠ '#' ∧ c ≠ ':' ∧ c ≠ '=' ∧ c ≠ '\x00' ∧ isSpace c = false)
    (r : Str) : NameText n (' ' :: r) := by
  induction n with
  | nil => exact .nil
  | cons c n ih =>
    obtain ⟨h1, h2, h3, h4, h5, h6⟩ := h c (by simp)
    refine .char h1 h2 h3 (by simp only [isSpace, Bool.or_eq_false_iff] at h6; exact h6.1) ?_
      (ih fun d hd => h d (by simp [hd]))
    rintro ⟨op, f, t, ho, he⟩
    have hn : ∀ d u, n ++ ' ' :: r = d :: u → d ≠ '=' ∧ d ≠ ':' := by
      intro d u hu
      cases n with
      | nil =>
        simp only [List.nil_append, List.cons.injEq] at hu
        rw [← hu.1]; decide
      | cons e n =>
        simp only [List.cons_append, List.cons.injEq] at hu
        rw [← hu.1]
        exact ⟨(h e (by simp)).2.2.2.1, (h e (by simp)).2.2.1⟩
    cases ho with
    | rec_ => simp only [List.cons_append, List.nil_append, List.cons.injEq] at he; exact h4 he.1
    | simple => simp only [List.cons_append, List.nil_append, List.cons.injEq] at he; exact h3 he.1
    | posix => simp only [List.cons_append, List.nil_append, List.cons.injEq] at he; exact h3 he.1
    | append => simp only [List.cons_append, List.nil_append, List.cons.injEq] at he; exact (hn _ _ he.2).1 rfl
    | cond => simp only [List.cons_append, List.nil_append, List.cons.injEq] at he; exact (hn _ _ he.2).1 rfl
    | shell => simp only [List.cons_append, List.nil_append, List.cons.injEq] at he; exact (hn _ _ he.2).1 rfl

theorem plainName_head {n : Str} (h : PrintableName n) (r : Str) :
    (n ++ r).head?.all (fun c => !isSpace c) = true := by
  obtain ⟨h1, h2⟩ := h
  cases n with
  | nil => exact absurd rfl h1
  | cons c n => simp [(h2 c (by simp)).2.2.2.2.2]

/-- The line of a printed assignment. -/
theorem printed_assignment {n op t v : Str} {f : Flavor} (h : PrintableName n) (ho : Op op f)
    (ht : v = (' ' :: t).dropWhile isSpace) : IsAssignment (n ++ ' ' :: op ++ ' ' :: t) n f v := by
  refine ⟨[], [' '], op, ' ' :: t, by simp, by simp, ?_, ?_, ?_, ho, ht⟩
  · have := plainName_head h ([' '] ++ op); simpa using this
  · exact Or.inr ⟨' ', [], rfl, by decide, by simp⟩
  · have := plainName_nameText h.2 (op ++ ' ' :: t); simpa using this

theorem parse_printed {l n v : Str} {f : Flavor} (h : IsAssignment l n f v)
    (hh : l.head?.all (fun c => !isSpace c) = true) (hl : l ≠ []) : parseVarAssignment l = some ({}, l) := by
  have hn : nextToken l = l := by
    cases l with
    | nil => rfl
    | cons c l => simp only [List.head?_cons, Option.all_some, Bool.not_eq_true'] at hh; simp [nextToken, hh]
  have hp := (C27_recognised l n f v).mpr h
  rw [parseVarAssignment, hn, if_neg hl, varAssignGo, if_pos (by rw [hp]; rfl)]

theorem op_eq {op : Str} {f : Flavor} (h : Op op f) : '=' ∈ op := by cases h <;> simp

theorem not_assigns {l : Str} (h : '=' ∉ l) : parseVariableDefinition l = none := by
  cases hp : parseVariableDefinition l with
  | none => rfl
  | some a =>
    obtain ⟨lead, gap, op, rest, he, -, -, -, -, ho, -⟩ := (C27_recognised l a.name a.flavor a.value).mp hp
    exact absurd (by rw [he]; simp [op_eq ho]) h

theorem parse_define {n : Str} (h : PrintableName n) :
    parseVarAssignment ("define ".toList ++ n) = some ({ defineV := true }, n) := by
  obtain ⟨c, n', hn⟩ := List.exists_cons_of_ne_nil h.1
  have hc : isSpace c = false := (h.2 c (by simp [hn])).2.2.2.2.2
  have e1 : nextToken ("define ".toList ++ n) = "define ".toList ++ n := by simp [nextToken, isSpace, isBlank, isNewlineClass]
  have hno : parseVariableDefinition ("define ".toList ++ n) = none := by
    apply not_assigns
    intro hm
    rcases List.mem_append.mp hm with hm | hm
    · revert hm; decide
    · exact (h.2 _ hm).2.2.2.1 rfl
  have e2 : tokenPrefix ("define ".toList ++ n) = "define".toList := by
    simp [tokenPrefix, isSpace, isBlank, isNewlineClass]
  have e3 : nextToken (endOfToken ("define ".toList ++ n)) = n := by
    rw [hn]; simp [endOfToken, nextToken, isSpace, isBlank, isNewlineClass]
    rw [List.dropWhile_cons, if_neg (by simp [hc])]
  rw [parseVarAssignment, e1, if_neg (by simp), varAssignGo]
  simp only [hno, e2, e3, Option.isSome_none, Bool.false_eq_true, if_false, if_true]

/-! ## Carrying out -/

theorem applyMods_none (v : Var) : applyMods {} v = v := rfl

theorem applyModsIn_none (st : DefState) (i : Nat) (n : Str) (m : VMods) (h1 : m.exportV = false) (h2 : m.privateV = false) :
    applyModsIn st m i n = st := by
  cases st with
  | mk sets chain =>
    simp only [applyModsIn, DefState.mk.injEq, and_true]
    funext j
    split
    · rename_i h
      funext k
      simp only [VarSet.put]
      split
      · rename_i hk
        subst hk
        have : applyMods m = id := by funext v; simp [applyMods, h1, h2]
        rw [this, h]; simp
      · rw [h]
    · rfl

theorem nextToken_plain {n : Str} (h : PrintableName n) : nextToken n = n := by
  obtain ⟨c, n', rfl⟩ := List.exists_cons_of_ne_nil h.1
  simp [nextToken, (h.2 c (by simp)).2.2.2.2.2]

theorem chopBlanks_plain {n : Str} (h : PrintableName n) : chopBlanks n = n := by
  obtain ⟨c, n', rfl⟩ := List.exists_cons_of_ne_nil h.1
  rw [chopBlanks]
  congr 1
  have : n'.reverse.dropWhile isBlank = n'.reverse := by
    cases hr : n'.reverse with
    | nil => rfl
    | cons d r =>
      have hd : d ∈ n' := by rw [← List.mem_reverse, hr]; simp
      have := (h.2 d (by simp [hd])).2.2.2.2.2
      simp only [isSpace, Bool.or_eq_false_iff] at this
      simp [this.1]
  rw [this, List.reverse_reverse]

end
end Remake
