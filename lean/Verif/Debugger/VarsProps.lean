import Verif.Debugger.VarsSpec
import Verif.Debugger.Props
import Verif.Var.Props
set_option linter.unusedVariables false
set_option linter.unusedSimpArgs false
/-!
# C137-C140: variables and settings in the debugger, command files, scripts
-/
namespace Remake
open Spec

/-! ## C137: variables -/

theorem defineVar_debugger (e : Bool) (old : Option Var) (n value : Str) (h : ∀ v, old = some v → v.origin ≠ .invalid) :
    ∃ v, defineVar e old n [] value .debugger false = v ∧ v.value = value ∧ v.origin = .debugger ∧ v.recursive = false := by
  have hp : promote e Origin.debugger = .debugger := by cases e <;> rfl
  cases old with
  | none => exact ⟨_, rfl, rfl, by simp only [defineVar, hp], rfl⟩
  | some w =>
    have hw := h w rfl
    have hr : (promote e w.origin).rank ≤ Origin.debugger.rank := by
      revert hw
      cases w.origin <;> cases e <;> simp [promote, Origin.rank]
    refine ⟨_, rfl, ?_⟩
    simp only [defineVar, hp, hr, if_true, and_self]

/-- The name and the value that a `setq` line gives. -/
theorem setq_words {name value args : Str} (hn : WhiteFree name) (hv : ∀ c ∈ value.head?, isWhite c = false)
    (ha : args = name ++ ' ' :: value ∨ args = name ∧ value = []) :
    args ≠ [] ∧ (getWord args).1 = name ∧ bumpValue (getWord args).2 = value := by
  have hb : bumpValue value = value := by
    cases value with
    | nil => rfl
    | cons c cs => simp only [bumpValue, bumpBlank]; rw [if_neg (by simpa using hv)]
  rcases ha with ha | ⟨ha, hz⟩
  · have := getWord_split (t := ' ' :: value) hn (by simp [isWhite])
    rw [ha, this]
    refine ⟨?_, rfl, by simpa using hb⟩
    cases name with
    | nil => exact absurd rfl hn.1
    | cons c cs => simp
  · have := getWord_split (t := []) hn (by simp)
    rw [List.append_nil] at this
    rw [ha, this, hz]
    exact ⟨hn.1, rfl, rfl⟩

/-- C137: `setq NAME VALUE` gives the global variable `NAME` the value `VALUE`, to be used as it is,
whatever was defined before and however strongly, and changes no other variable.  Partial: one
blank before the value (`C137_blanks`), a name that does not begin with a dollar sign
(`C137_dollar`). -/
theorem C137_setq_partial (e : Bool) (ex : VarSet → Str → Str) (g : VarSet) (hg : ∀ m v, g m = some v → v.origin ≠ .invalid)
    {name value args : Str} (hn : WhiteFree name) (hd : name.head? ≠ some '$')
    (hv : ∀ c ∈ value.head?, isWhite c = false) (ha : args = name ++ ' ' :: value ∨ args = name ∧ value = []) :
    (∃ v, dbgSetVar e false ex g args name = some v ∧ v.value = value ∧ v.recursive = false ∧ v.origin = .debugger) ∧
    OnlyAt g (dbgSetVar e false ex g args) name := by
  obtain ⟨h0, h1, h2⟩ := setq_words hn hv ha
  have ht : tryWithoutDollar e g name = (g.define e name [] .debugger false, true) := by
    cases name with
    | nil => rfl
    | cons c cs =>
      have hc : c ≠ '$' := fun h => hd (by rw [h]; rfl)
      unfold tryWithoutDollar
      split
      · rename_i heq; cases heq; exact absurd rfl hc
      · rfl
  have key : ∀ g' : VarSet, (∀ m v, g' m = some v → v.origin ≠ .invalid) → OnlyAt g g' name →
      (∃ v, g'.define e name value .debugger false name = some v ∧ v.value = value ∧ v.recursive = false ∧
        v.origin = .debugger) ∧ OnlyAt g (g'.define e name value .debugger false) name := by
    intro g' hg' ho
    obtain ⟨v, q1, q2, q3, q4⟩ := defineVar_debugger e (g' name) name value (hg' name)
    refine ⟨⟨v, by rw [define_same, q1], q2, q4, q3⟩, fun m hm => ?_⟩
    rw [define_other e g' value .debugger false hm, ho m hm]
  have hs : dbgSetVar e false ex g args =
      match dbgLookup g name with
      | some _ => g.define e name value .debugger false
      | none => (g.define e name [] .debugger false).define e name value .debugger false := by
    unfold dbgSetVar
    rw [if_neg h0]
    simp only [h1, h2, ht, Bool.false_eq_true, if_false]
    cases dbgLookup g name <;> rfl
  rw [hs]
  cases hl : dbgLookup g name with
  | some w => exact key g hg (fun m hm => rfl)
  | none =>
    refine key _ ?_ (fun m hm => define_other e g [] .debugger false hm)
    intro m v hm
    by_cases hmn : m = name
    · subst hmn
      rw [define_same] at hm
      cases hm
      obtain ⟨v, q1, q2, q3, q4⟩ := defineVar_debugger e (g m) m [] (hg m)
      rw [q1, q3]; simp
    · rw [define_other e g [] .debugger false hmn] at hm
      exact hg m v hm

example : (dbgSetVar false false (fun _ s => s) (VarSet.empty.define false ['X'] ['1'] .command true)
    "X a b".toList ['X']).map (·.value) = some "a b".toList := by decide
example : (dbgSetVar false false (fun _ s => s) VarSet.empty "X a b".toList ['X']).map (·.value) = some "a b".toList := by decide

/-- C137: a value set in the debugger stays, whatever makefiles define afterwards. -/
theorem C137_stays (e : Bool) (s : VarSet) (n : Str) (v : Var) (hs : s n = some v) (hv : v.origin = .debugger)
    (ops : List VarOp)
    (h : ∀ op ∈ ops, (∃ e m x o r, op = .define e m x o r ∧ o.rank < Origin.debugger.rank) ∨
      (∃ e m o, op = .undefine e m o ∧ o.rank < Origin.debugger.rank)) :
    ops.foldl VarOp.run s n = some v := by
  induction ops generalizing s with
  | nil => exact hs
  | cons op ops ih =>
    rw [List.foldl_cons]
    apply ih _ _ (fun o ho => h o (List.mem_cons_of_mem _ ho))
    have hpd : ∀ e, promote e Origin.debugger = .debugger := by intro e; cases e <;> rfl
    have hlt : ∀ e o, o.rank < Origin.debugger.rank → ¬ Origin.debugger.rank ≤ (promote e o).rank := by
      intro e o ho
      revert ho
      cases o <;> cases e <;> simp [promote, Origin.rank]
    rcases h op (List.mem_cons_self ..) with ⟨e', m, x, o, r, rfl, ho⟩ | ⟨e', m, o, rfl, ho⟩
    · simp only [VarOp.run]
      by_cases hm : n = m
      · subst hm
        rw [define_same, hs]
        simp only [defineVar, hv, hpd, hlt e' o ho, if_false]
        rw [← hv]
      · rw [define_other e' s x o r hm, hs]
    · simp only [VarOp.run, VarSet.undefine]
      by_cases hm : n = m
      · subst hm
        rw [put_same, hs]
        simp only [undefineVar, hv, hpd, hlt e' o ho, if_false]
        rw [← hv]
      · rw [put_other _ _ hm, hs]

/-- C137: looking at a variable that is shown changes nothing. -/
theorem C137_look (e : Bool) (g : VarSet) (own : Option VarSet) (n : Str) (v : Var)
    (h : (dbgShowExp e g own n).2.1 = some v) : (dbgShowExp e g own n).1 = g := by
  unfold dbgShowExp at h ⊢
  by_cases hn : n = []
  · rw [if_pos hn]
  · rw [if_neg hn] at h ⊢
    cases hs : dbgShown g own n with
    | some w => rfl
    | none => rw [hs] at h; cases h

/-- C137: stopped in a target, `print` shows the definition that a reference in the recipe sees.
Partial: if the target itself defines the variable, or if no set between the target's own and the
global one does and the global one is not private (`C137_print_inherited`, `C137_print_private`). -/
theorem C137_print_partial (g : VarSet) (f : FileScope) (own : VarSet) (n : Str)
    (ho : (ownSets f).head? = some own)
    (h : (own n).isSome ∨ ((∀ s ∈ (ownSets f).drop 1, s n = none) ∧
      (∃ mid, outerSets [g] f = mid ++ [g] ∧ ∀ s ∈ mid, s n = none) ∧ ∀ v, g n = some v → v.priv = false)) :
    dbgShown g (some own) n = visible [g] f n := by
  have hf : ∀ l : List VarSet, (∀ s ∈ l, s n = none) → firstDef l n = none := by
    intro l hl
    induction l with
    | nil => rfl
    | cons s l ih => rw [firstDef, hl s (List.mem_cons_self ..)]; exact ih fun s hs => hl s (List.mem_cons_of_mem _ hs)
  obtain ⟨rest, hr⟩ : ∃ rest, ownSets f = own :: rest := by
    cases hz : ownSets f with
    | nil => rw [hz] at ho; cases ho
    | cons a b => rw [hz] at ho; cases ho; exact ⟨b, rfl⟩
  simp only [dbgShown, visible, hr, firstDef]
  cases hq : own n with
  | some v => rfl
  | none =>
    simp only []
    rcases h with h | ⟨h1, ⟨mid, h2, h3⟩, h4⟩
    · rw [hq] at h; cases h
    · rw [hr] at h1
      rw [hf rest h1, h2]
      simp only [dbgLookup, lookupVariable, lookupGo]
      have : ∀ mid : List VarSet, (∀ s ∈ mid, s n = none) → firstPublic (mid ++ [g]) n = firstPublic [g] n := by
        intro mid hm
        induction mid with
        | nil => rfl
        | cons s l ih =>
          rw [List.cons_append, firstPublic, hm s (List.mem_cons_self ..)]
          exact ih fun s hs => hm s (List.mem_cons_of_mem _ hs)
      rw [this mid h3, firstPublic]
      cases hgn : g n with
      | none => simp [firstPublic]
      | some v => simp [h4 v hgn]

example : dbgShown (VarSet.empty.define false ['X'] ['1'] .file true) (some VarSet.empty) ['X'] =
    visible [VarSet.empty.define false ['X'] ['1'] .file true] (.top VarSet.empty none) ['X'] :=
  C137_print_partial _ _ _ _ rfl (Or.inr ⟨by simp [ownSets], ⟨[], rfl, by simp⟩, by
    intro v hv; rw [define_same] at hv; cases hv; rfl⟩)

/-- C137 is violated here: a variable that the target inherits from the target that asked for it is
not shown by `print`, which shows the global one. -/
theorem C137_print_inherited (a b : Str) (hab : a ≠ b) : ∃ (g : VarSet) (f : FileScope) (own : VarSet),
    (ownSets f).head? = some own ∧
    ((dbgShown g (some own) ['X']).map (·.value)) = some a ∧ (visible [g] f ['X']).map (·.value) = some b :=
  ⟨VarSet.empty.define false ['X'] a .file true,
   .child VarSet.empty none (.top (VarSet.empty.define false ['X'] b .file true) none), VarSet.empty, rfl,
   by simp [dbgShown, dbgLookup, lookupVariable, lookupGo, define_same, VarSet.empty, defineVar, promote],
   by simp [visible, ownSets, outerSets, firstDef, firstPublic, define_same, VarSet.empty, defineVar, promote]⟩

/-- C137 is violated here: `print` shows a private global variable, which the recipe does not see. -/
theorem C137_print_private (v : Var) (hv : v.priv = true) :
    dbgShown (VarSet.empty.put ['X'] (some v)) (some VarSet.empty) ['X'] = some v ∧
    visible [VarSet.empty.put ['X'] (some v)] (.top VarSet.empty none) ['X'] = none := by
  constructor
  · simp [dbgShown, dbgLookup, lookupVariable, lookupGo, put_same, VarSet.empty]
  · simp [visible, ownSets, outerSets, firstDef, firstPublic, put_same, VarSet.empty, hv]

/-- C137 is violated here: `print` of a variable that is not defined defines it, and no makefile can
define it afterwards: stopped while makefiles are read, asking for `X` makes all later
assignments to `X` void. -/
theorem C137_print_defines (e : Bool) (g : VarSet) (n : Str) (hn : WhiteFree n) (hd : n.head? ≠ some '$') (hg : g n = none)
    (last : Option Str) (ops : List VarOp)
    (h : ∀ op ∈ ops, (∃ e m x o r, op = .define e m x o r ∧ o.rank < Origin.debugger.rank) ∨
      (∃ e m o, op = .undefine e m o ∧ o.rank < Origin.debugger.rank)) :
    ∃ g', dbgPrint e g none last n = .ok g' last none ∧
      ∃ v, ops.foldl VarOp.run g' n = some v ∧ v.value = [] := by
  have hw := getWord_split (t := []) hn (by simp)
  rw [List.append_nil] at hw
  have hsh : dbgShown g none n = none := by simp [dbgShown, dbgLookup, lookupVariable, lookupGo, hg]
  have ht : tryWithoutDollar e g n = (g.define e n [] .debugger false, true) := by
    cases n with
    | nil => rfl
    | cons c cs =>
      have hc : c ≠ '$' := fun h => hd (by rw [h]; rfl)
      unfold tryWithoutDollar
      split
      · rename_i heq; cases heq; exact absurd rfl hc
      · rfl
  refine ⟨g.define e n [] .debugger false, ?_, defineVar e (g n) n [] [] .debugger false, ?_, ?_⟩
  · unfold dbgPrint dbgShowExp
    simp only [hn.1, if_false, hw, hsh, ht]
  · refine C137_stays e _ n _ (define_same ..) ?_ ops h
    rw [hg]; cases e <;> rfl
  · rw [hg]; rfl

example : ∃ g', dbgPrint false VarSet.empty none none ['X'] = .ok g' none none ∧
    ∃ v, [VarOp.define false ['X'] ['1'] .file true].foldl VarOp.run g' ['X'] = some v ∧ v.value = [] :=
  C137_print_defines false VarSet.empty ['X'] ⟨by simp, by simp [isWhite]⟩ (by simp) rfl none _ (by
    intro op hop
    rw [List.mem_singleton.1 hop]
    exact Or.inl ⟨_, _, _, _, _, rfl, by decide⟩)

/-- C137 is violated here: with a second blank before the value, the value begins with an
exclamation mark. -/
theorem C137_blanks (e : Bool) (ex : VarSet → Str → Str) (name value : Str) (hn : WhiteFree name)
    (hd : name.head? ≠ some '$') :
    ∃ v, dbgSetVar e false ex VarSet.empty (name ++ ' ' :: ' ' :: value) name = some v ∧ v.value = '!' :: value := by
  have hw := getWord_split (t := ' ' :: ' ' :: value) hn (by simp [isWhite])
  simp only [List.drop_succ_cons, List.drop_zero] at hw
  have hb : bumpValue (' ' :: value) = '!' :: value := by
    simp only [bumpValue, bumpBlank]; rw [if_pos (by decide)]; rfl
  have h0 : name ++ ' ' :: ' ' :: value ≠ [] := by simp
  have ht : tryWithoutDollar e VarSet.empty name = (VarSet.empty.define e name [] .debugger false, true) := by
    cases name with
    | nil => rfl
    | cons c cs =>
      have hc : c ≠ '$' := fun h => hd (by rw [h]; rfl)
      unfold tryWithoutDollar
      split
      · rename_i heq; cases heq; exact absurd rfl hc
      · rfl
  have hs : dbgSetVar e false ex VarSet.empty (name ++ ' ' :: ' ' :: value) =
      (VarSet.empty.define e name [] .debugger false).define e name ('!' :: value) .debugger false := by
    unfold dbgSetVar
    rw [if_neg h0]
    simp only [hw, hb, ht, Bool.false_eq_true, if_false]
    rfl
  rw [hs]
  refine ⟨_, define_same .., ?_⟩
  rw [define_same]
  cases e <;> rfl

/-- C137 is violated here: `setq $X …` sets nothing if no variable has that very name. -/
theorem C137_dollar (e expand : Bool) (ex : VarSet → Str → Str) (g : VarSet) (name value : Str)
    (hn : WhiteFree ('$' :: name)) (hg : g ('$' :: name) = none) :
    dbgSetVar e expand ex g ('$' :: name ++ ' ' :: value) = g := by
  have hw := getWord_split (t := ' ' :: value) hn (by simp [isWhite])
  have hl : dbgLookup g ('$' :: name) = none := by simp [dbgLookup, lookupVariable, lookupGo, hg]
  unfold dbgSetVar
  rw [if_neg (by simp), hw]
  simp only [hl, tryWithoutDollar]

/-- C137 is violated here: `print` without argument, after a `print` that showed something, copies
the remembered name from memory it has just freed. -/
theorem C137_again (e : Bool) (g : VarSet) (own : Option VarSet) (last : Option Str) (n : Str) (v : Var) (hn : WhiteFree n)
    (h : dbgShown g own n = some v) :
    dbgPrint e g own last n = .ok g (some n) (some v) ∧ dbgPrint e g own (some n) [] = .undef := by
  have hw := getWord_split (t := []) hn (by simp)
  rw [List.append_nil] at hw
  unfold dbgPrint dbgShowExp
  simp [hn.1, h, hw]

example : dbgPrint false (VarSet.empty.define false ['X'] ['1'] .file true) none (some ['X']) [] = .undef :=
  (C137_again _ _ _ none _ _ ⟨by simp, by decide⟩ (by simp [dbgShown, dbgLookup, lookupVariable, lookupGo, define_same]; rfl)).2

/-- C137: `setqx NAME TEXT` gives the global variable `NAME` the text expanded at that moment, to be used as it is, and changes
no other variable.  Partial as `C137_setq_partial`; a variable that was not defined is already defined, and empty, while the
text is expanded. -/
theorem C137_setqx_partial (e : Bool) (ex : VarSet → Str → Str) (g : VarSet) (hg : ∀ m v, g m = some v → v.origin ≠ .invalid)
    {name text args : Str} (hn : WhiteFree name) (hd : name.head? ≠ some '$')
    (hv : ∀ c ∈ text.head?, isWhite c = false) (ha : args = name ++ ' ' :: text ∨ args = name ∧ text = []) :
    ∃ g', OnlyAt g g' name ∧ (dbgLookup g name ≠ none → g' = g) ∧
      (∃ v, dbgSetVar e true ex g args name = some v ∧ v.value = ex g' text ∧ v.recursive = false ∧ v.origin = .debugger) ∧
      OnlyAt g (dbgSetVar e true ex g args) name := by
  obtain ⟨h0, h1, h2⟩ := setq_words hn hv ha
  have ht : tryWithoutDollar e g name = (g.define e name [] .debugger false, true) := by
    cases name with
    | nil => rfl
    | cons c cs =>
      have hc : c ≠ '$' := fun h => hd (by rw [h]; rfl)
      unfold tryWithoutDollar
      split
      · rename_i heq; cases heq; exact absurd rfl hc
      · rfl
  have key : ∀ g' : VarSet, ∀ value, (∀ m v, g' m = some v → v.origin ≠ .invalid) → OnlyAt g g' name →
      (∃ v, g'.define e name value .debugger false name = some v ∧ v.value = value ∧ v.recursive = false ∧
        v.origin = .debugger) ∧ OnlyAt g (g'.define e name value .debugger false) name := by
    intro g' value hg' ho
    obtain ⟨v, q1, q2, q3, q4⟩ := defineVar_debugger e (g' name) name value (hg' name)
    refine ⟨⟨v, by rw [define_same, q1], q2, q4, q3⟩, fun m hm => ?_⟩
    rw [define_other e g' value .debugger false hm, ho m hm]
  have hs : dbgSetVar e true ex g args =
      match dbgLookup g name with
      | some _ => g.define e name (ex g text) .debugger false
      | none => (g.define e name [] .debugger false).define e name (ex (g.define e name [] .debugger false) text) .debugger false := by
    unfold dbgSetVar
    rw [if_neg h0]
    simp only [h1, h2, ht, if_true]
    cases dbgLookup g name <;> rfl
  rw [hs]
  cases hl : dbgLookup g name with
  | some w =>
    have := key g (ex g text) hg (fun m hm => rfl)
    exact ⟨g, fun m hm => rfl, fun _ => rfl, this.1, this.2⟩
  | none =>
    have ho : OnlyAt g (g.define e name [] .debugger false) name := fun m hm => define_other e g [] .debugger false hm
    have := key (g.define e name [] .debugger false) (ex (g.define e name [] .debugger false) text) (by
      intro m v hm
      by_cases hmn : m = name
      · subst hmn
        rw [define_same] at hm
        cases hm
        obtain ⟨v, q1, q2, q3, q4⟩ := defineVar_debugger e (g m) m [] (hg m)
        rw [q1, q3]; simp
      · rw [define_other e g [] .debugger false hmn] at hm
        exact hg m v hm) ho
    exact ⟨_, ho, fun h => absurd rfl h, this.1, this.2⟩

example : (dbgSetVar false true (fun _ s => s ++ s) VarSet.empty "X ab".toList ['X']).map (·.value) = some "abab".toList := by decide

end Remake
