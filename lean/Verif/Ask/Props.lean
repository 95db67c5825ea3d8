import Verif.Ask.Spec
import Verif.Var.Props
set_option linter.unusedVariables false
set_option linter.unusedSimpArgs false
/-!
# C136: what make says about variables
-/
namespace Remake
open Spec

/-! ## Origin and flavour -/

theorem originText_word (e : Bool) (o : Origin) (w : Str) (h : OriginWord e o w) :
    originText (reported e o) = some w := by
  cases h with
  | env h => subst h; rfl
  | envE h => subst h; rfl
  | _ => rfl

/-- C136: after any definitions of a variable, `$(origin V)` names the origin of the last of the
strongest of them, and `$(flavor V)` its flavour.  Partial: definitions made in the debugger have no
word (`C136_debugger`); the `-e` flag is constant. -/
theorem C136_origin_partial (e : Bool) (n : Str) (ops : List VarOp) (h : OnlyDefs e ops) (d : Def)
    (hw : Wins e (defsOf n ops) d) (w : Str) (hd : OriginWord e d.origin w) (b : Bool) :
    funcOrigin [(ops.foldl VarOp.run VarSet.empty, b)] n = some w ∧
    funcFlavor [(ops.foldl VarOp.run VarSet.empty, b)] n = flavorWord d.recursive ∧
    funcValue [(ops.foldl VarOp.run VarSet.empty, b)] n = d.value := by
  obtain ⟨v, hv, h1, h2, h3⟩ := C22_last_strongest_partial e VarSet.empty n ops rfl h d hw
  have hl : lookupVariable [(ops.foldl VarOp.run VarSet.empty, b)] n = some v := by
    simp [lookupVariable, lookupGo, hv]
  refine ⟨?_, ?_, ?_⟩
  · rw [funcOrigin, hl]; simp only [h2]; exact originText_word e _ w hd
  · rw [funcFlavor, hl]; simp only [h3, flavorWord]
  · rw [funcValue, hl]; exact h1

example : funcOrigin [([VarOp.define true ['X'] ['1'] .env true, .define true ['X'] ['2'] .file false].foldl
      VarOp.run VarSet.empty, false)] ['X'] = some "environment override".toList :=
  (C136_origin_partial true ['X'] _ (by
    intro op hop
    simp only [List.mem_cons, List.not_mem_nil, or_false] at hop
    rcases hop with rfl | rfl <;> exact ⟨_, _, _, _, rfl⟩) ⟨['1'], .env, true⟩
    ⟨[], [⟨['2'], .file, false⟩], rfl, by simp, by simp [strength]⟩ _ (.envE rfl) false).1

/-- C136: a variable that no definition mentions is `undefined`, and has no value; and only such
a variable is. -/
theorem C136_undefined (chain : List (VarSet × Bool)) (n : Str) :
    (funcOrigin chain n = some "undefined".toList ↔ lookupVariable chain n = none) ∧
    (funcFlavor chain n = "undefined".toList ↔ lookupVariable chain n = none) := by
  constructor
  · rw [funcOrigin]
    cases h : lookupVariable chain n with
    | none => simp
    | some v => simp only [reduceCtorEq, iff_false]; cases v.origin <;> decide
  · rw [funcFlavor]
    cases h : lookupVariable chain n with
    | none => simp
    | some v => simp only [reduceCtorEq, iff_false]; by_cases hr : v.recursive = true <;> simp [hr] <;> decide

/-- C136: within a target, the answers are about the definition that a reference there sees: one
of the target's own, else the innermost of the scopes around it that is not private. -/
theorem C136_scope (g : List (VarSet × Bool)) (f : FileScope) (n : Str) (v : Var)
    (h : visible (g.map (·.1)) f n = some v) :
    funcOrigin (fileChain g f) n = originText v.origin ∧ funcFlavor (fileChain g f) n = flavorWord v.recursive ∧
    funcValue (fileChain g f) n = v.value := by
  have hl : lookupVariable (fileChain g f) n = some v := by rw [C23_lookup, h]
  simp only [funcOrigin, funcFlavor, funcValue, hl, flavorWord, true_and, and_true]

/-- C136 is violated here: once the debugger has set a variable, `$(origin V)` for it aborts make. -/
theorem C136_debugger (e : Bool) (s : VarSet) (n value : Str) (r b : Bool)
    (hs : ∀ v, s n = some v → v.origin ≠ .invalid) :
    funcOrigin [(s.define e n value .debugger r, b)] n = none := by
  have : ∃ w, lookupVariable [(s.define e n value .debugger r, b)] n = some w ∧ w.origin = .debugger := by
    refine ⟨defineVar e (s n) n [] value .debugger r, ?_, ?_⟩
    · simp [lookupVariable, lookupGo, VarSet.define, VarSet.put]
    · cases hn : s n with
      | none => cases e <;> rfl
      | some v =>
        have hv := hs v hn
        simp only [defineVar]
        have hp : (promote e Origin.debugger) = .debugger := by cases e <;> rfl
        rw [hp]
        have hr : (promote e v.origin).rank ≤ Origin.debugger.rank := by
          revert hv
          cases v.origin <;> cases e <;> simp [promote, Origin.rank]
        simp only [hr, if_true]
  obtain ⟨w, h1, h2⟩ := this
  rw [funcOrigin, h1]; simp only [h2]; rfl

example : funcOrigin [(VarSet.empty.define false ['X'] ['1'] .debugger false, false)] ['X'] = none :=
  C136_debugger _ _ _ _ _ _ (by intro v h; cases h)

/-! ## `.VARIABLES` -/

theorem vlText_lists (l : List Str) (h : l ≠ []) : ListedAs l (vlText l) := by
  induction l with
  | nil => exact absurd rfl h
  | cons n l ih =>
    cases l with
    | nil => exact .one n
    | cons m l => exact .more n m l _ (ih (by simp))

/-- The invariant of a history: the variable is there and special; when the counters agree, its
value lists the names of the set. -/
def VlOk (st : VlState) : Prop :=
  (∃ v, st.set vlName = some v ∧ v.special = true ∧
    (st.change = st.last → ∃ l, NamesOf st.set l ∧ ListedAs l v.value)) ∧ st.last ≤ st.change ∧ ∃ l, NamesOf st.set l

theorem namesOf_congr {s s' : VarSet} (h : ∀ n, (s n).isSome = (s' n).isSome) {l : List Str} (hl : NamesOf s l) :
    NamesOf s' l := by
  refine ⟨hl.1, fun n => ?_⟩
  rw [hl.2 n]
  have := h n
  cases h1 : s n <;> cases h2 : s' n <;> simp_all

theorem namesOf_put {s : VarSet} {l : List Str} (h : NamesOf s l) (n : Str) (v : Option Var) :
    ∃ l', NamesOf (s.put n v) l' := by
  cases v with
  | none =>
    refine ⟨l.filter (fun m => decide (m ≠ n)), h.1.filter _, fun m => ?_⟩
    simp only [List.mem_filter, h.2 m, VarSet.put]
    by_cases hm : m = n <;> simp [hm]
  | some v =>
    by_cases hn : n ∈ l
    · refine ⟨l, h.1, fun m => ?_⟩
      by_cases hm : m = n
      · subst hm; simp [VarSet.put, hn]
      · simp [VarSet.put, hm, h.2 m]
    · refine ⟨n :: l, List.nodup_cons.2 ⟨hn, h.1⟩, fun m => ?_⟩
      by_cases hm : m = n
      · subst hm; simp [VarSet.put]
      · simp [VarSet.put, hm, h.2 m]

theorem vlDefine_ok (st : VlState) (o : VarOp) (h : VlOk st)
    (hn : (∀ e v g r, o ≠ .define e vlName v g r) ∧ (∀ e g, o ≠ .undefine e vlName g)) : VlOk (vlDefine st o) := by
  obtain ⟨⟨v, h1, h2, h3⟩, h4, lf, hf⟩ := h
  cases o with
  | define e n x g r =>
    have hne : vlName ≠ n := fun hc => hn.1 e x g r (by rw [hc])
    refine ⟨⟨v, ?_, h2, ?_⟩, ?_, namesOf_put hf _ _⟩
    · simp only [vlDefine]; rw [define_other e st.set x g r hne, h1]
    · intro hc
      simp only [vlDefine] at hc
      cases hs : st.set n with
      | none => rw [hs] at hc; simp at hc; omega
      | some w =>
        rw [hs] at hc
        obtain ⟨l, hl, ht⟩ := h3 (by simpa using hc)
        refine ⟨l, namesOf_congr ?_ hl, ht⟩
        intro m
        simp only [vlDefine, VarSet.define, VarSet.put]
        by_cases hm : m = n
        · subst hm; rw [if_pos rfl, hs]; rfl
        · rw [if_neg hm]
    · simp only [vlDefine]; split <;> omega
  | undefine e n g =>
    have hne : vlName ≠ n := fun hc => hn.2 e g (by rw [hc])
    refine ⟨⟨v, ?_, h2, ?_⟩, ?_, namesOf_put hf _ _⟩
    · simp only [vlDefine, VarSet.undefine]; rw [put_other _ _ hne, h1]
    · intro hc
      simp only [vlDefine] at hc
      by_cases hd : (st.set n).isSome = true ∧ undefineVar e (st.set n) g = none
      · rw [if_pos hd] at hc; omega
      · rw [if_neg hd] at hc
        obtain ⟨l, hl, ht⟩ := h3 hc
        refine ⟨l, namesOf_congr ?_ hl, ht⟩
        intro m
        simp only [vlDefine, VarSet.undefine, VarSet.put]
        by_cases hm : m = n
        · subst hm; rw [if_pos rfl]
          cases hs : st.set m with
          | none => rfl
          | some w =>
            rw [hs] at hd
            cases hu : undefineVar e (some w) g with
            | none => exact absurd ⟨rfl, hu⟩ hd
            | some w' => rfl
        · rw [if_neg hm]
    · simp only [vlDefine]; split <;> omega

theorem vlLook_ok (walk : VarSet → List Str) (hw : ∀ s, (∃ l, NamesOf s l) → NamesOf s (walk s)) (st : VlState) (n : Str)
    (h : VlOk st) : VlOk (vlLook walk st n) := by
  obtain ⟨⟨v, h1, h2, h3⟩, h4, lf, hf⟩ := h
  unfold vlLook
  cases hs : st.set n with
  | none => exact ⟨⟨v, h1, h2, h3⟩, h4, lf, hf⟩
  | some w =>
    simp only []
    by_cases hc : w.special = true ∧ st.change ≠ st.last ∧ n = vlName
    · rw [if_pos hc]
      have hne := hc.2.2
      subst hne
      rw [h1] at hs; cases hs
      have hd := hw st.set ⟨lf, hf⟩
      have hnil : walk st.set ≠ [] := by
        intro hz
        have := (hd.2 vlName).2 (by rw [h1]; simp)
        rw [hz] at this; cases this
      refine ⟨⟨{ v with value := vlText (walk st.set) }, by simp only [put_same], h2, fun _ =>
        ⟨walk st.set, namesOf_congr ?_ hd, vlText_lists _ hnil⟩⟩, Nat.le_refl _, namesOf_put hf _ _⟩
      intro m
      by_cases hm : m = vlName
      · subst hm; simp only [put_same, h1]; rfl
      · simp only [put_other _ _ hm]
    · rw [if_neg hc]; exact ⟨⟨v, h1, h2, h3⟩, h4, lf, hf⟩

theorem vlInit_ok : VlOk VlState.init :=
  ⟨⟨{ value := [], origin := .default, recursive := false, exportable := false, special := true }, by
      simp only [VlState.init, put_same], rfl, fun h => absurd h (by decide)⟩, by decide,
    namesOf_put (l := []) ⟨List.nodup_nil, fun n => by simp [VarSet.empty]⟩ _ _⟩

theorem vlRun_ok (walk : VarSet → List Str) (hw : ∀ s, (∃ l, NamesOf s l) → NamesOf s (walk s)) (ops : List VlOp)
    (hl : LeavesAlone vlName ops) (st : VlState) (h : VlOk st) : VlOk (ops.foldl (VlOp.run walk) st) := by
  induction ops generalizing st with
  | nil => exact h
  | cons op ops ih =>
    rw [List.foldl_cons]
    apply ih (fun o ho => hl o (List.mem_cons_of_mem _ ho))
    have := hl op (List.mem_cons_self ..)
    cases op with
    | op o =>
      apply vlDefine_ok st o h
      exact ⟨fun e v g r hc => this.1 e v g r (by rw [hc]), fun e g hc => this.2 e g (by rw [hc])⟩
    | look n => exact vlLook_ok walk hw st n h

/-- Lookups do not change which variables are defined. -/
theorem vlLook_dom (walk : VarSet → List Str) (st : VlState) (n m : Str) :
    ((vlLook walk st n).set m).isSome = (st.set m).isSome := by
  unfold vlLook
  cases hs : st.set n with
  | none => rfl
  | some w =>
    simp only []
    by_cases hc : w.special = true ∧ st.change ≠ st.last ∧ n = vlName
    · rw [if_pos hc]
      by_cases hm : m = n
      · subst hm; simp only [put_same, hs]; rfl
      · simp only [put_other _ _ hm]
    · rw [if_neg hc]

/-- C136: at any time `$(.VARIABLES)` lists the names of the global variables defined then, each
once, whatever was defined, undefined and asked before, and in whatever order the table keeps them.
Partial: as long as `.VARIABLES` itself is not assigned (`C136_variables_assigned`). -/
theorem C136_variables_partial (walk : VarSet → List Str) (hw : ∀ s, (∃ l, NamesOf s l) → NamesOf s (walk s))
    (ops : List VlOp) (hl : LeavesAlone vlName ops) :
    ∃ t l, vlValue walk (ops.foldl (VlOp.run walk) VlState.init) = some t ∧ ListedAs l t ∧
      NamesOf (ops.foldl (VlOp.run walk) VlState.init).set l := by
  have hok := vlRun_ok walk hw ops hl _ vlInit_ok
  generalize ops.foldl (VlOp.run walk) VlState.init = st at hok ⊢
  have hok' := vlLook_ok walk hw st vlName hok
  have hdom := vlLook_dom walk st vlName
  obtain ⟨⟨v, h1, h2, h3⟩, h4, _⟩ := hok
  obtain ⟨⟨v', h1', h2', h3'⟩, h4', _⟩ := hok'
  have heq : (vlLook walk st vlName).change = (vlLook walk st vlName).last := by
    unfold vlLook
    simp only [h1]
    by_cases hc : st.change = st.last
    · rw [if_neg (by simp [hc])]; exact hc
    · rw [if_pos ⟨h2, hc, trivial⟩]
  obtain ⟨l, hl1, hl2⟩ := h3' heq
  exact ⟨v'.value, l, by rw [vlValue, h1']; rfl, hl2, namesOf_congr hdom hl1⟩

/-- The set at the end of a history is the one that its definitions make: lookups only write the
value of `.VARIABLES`. -/
theorem C136_variables_others (walk : VarSet → List Str) (ops : List VlOp) (st : VlState) (n : Str) (hn : n ≠ vlName) :
    (ops.foldl (VlOp.run walk) st).set n = (setChanges ops).foldl VarOp.run st.set n := by
  have step : ∀ (ops : List VlOp) (st : VlState) (s : VarSet), st.set n = s n →
      (ops.foldl (VlOp.run walk) st).set n = (setChanges ops).foldl VarOp.run s n := by
    intro ops
    induction ops with
    | nil => intro st s h; exact h
    | cons op ops ih =>
      intro st s h
      cases op with
      | op o =>
        simp only [setChanges, List.foldl_cons]
        apply ih
        cases o with
        | define e m v g r =>
          simp only [VlOp.run, vlDefine, VarOp.run, VarSet.define, VarSet.put]
          by_cases hm : n = m
          · subst hm; rw [if_pos rfl, if_pos rfl, h]
          · rw [if_neg hm, if_neg hm, h]
        | undefine e m g =>
          simp only [VlOp.run, vlDefine, VarOp.run, VarSet.undefine, VarSet.put]
          by_cases hm : n = m
          · subst hm; rw [if_pos rfl, if_pos rfl, h]
          · rw [if_neg hm, if_neg hm, h]
      | look m =>
        simp only [setChanges, List.foldl_cons]
        apply ih
        rw [← h]
        simp only [VlOp.run, vlLook]
        cases hs : st.set m with
        | none => rfl
        | some w =>
          simp only []
          by_cases hc : w.special = true ∧ st.change ≠ st.last ∧ m = vlName
          · rw [if_pos hc]; simp only [VarSet.put]; rw [if_neg (by rw [hc.2.2]; exact hn)]
          · rw [if_neg hc]
  exact step ops st st.set rfl

/-- A table order for the examples: `.VARIABLES`, then `A`. -/
def exampleWalk (s : VarSet) : List Str := [vlName, ['A']].filter fun n => (s n).isSome

example : vlValue exampleWalk ([.look vlName, .op (.define false ['A'] ['1'] .file true)].foldl
    (VlOp.run exampleWalk) VlState.init) = some ".VARIABLES A".toList := by decide
example : vlValue exampleWalk ([.op (.define false ['A'] ['1'] .file true), .look vlName,
    .op (.undefine false ['A'] .file)].foldl (VlOp.run exampleWalk) VlState.init) = some ".VARIABLES".toList := by decide

/-- Beside `C136_variables_partial`: there is an order as it asks for. -/
example : ∃ walk : VarSet → List Str, ∀ s, (∃ l, NamesOf s l) → NamesOf s (walk s) := by
  classical
  exact ⟨fun s => if h : ∃ l, NamesOf s l then h.choose else [], fun s h => by
    simp only [dif_pos h]; exact h.choose_spec⟩

example : LeavesAlone vlName [.look vlName, .op (.define false ['A'] ['1'] .file true)] := by
  intro op hop
  simp only [List.mem_cons, List.not_mem_nil, or_false] at hop
  rcases hop with rfl | rfl <;> constructor <;> intros <;> simp [vlName]

/-- C136 is violated here: a makefile may assign to `.VARIABLES`, and then gets back what it
assigned, until the next definition of a new variable. -/
theorem C136_variables_assigned :
    vlValue exampleWalk ([.look vlName, .op (.define false vlName ['x'] .file true)].foldl
      (VlOp.run exampleWalk) VlState.init) = some ['x'] ∧
    vlValue exampleWalk ([.look vlName, .op (.define false vlName ['x'] .file true),
      .op (.define false ['A'] ['1'] .file true)].foldl (VlOp.run exampleWalk) VlState.init) =
      some ".VARIABLES A".toList := by
  decide

/-- C136: the buffer for the list is never overrun, whatever the old value and the names. -/
theorem C136_room (old : Nat) (ls : List Nat) :
    ∃ m, vlFill 0 0 (vlInc old) ls = some ((ls.map (· + 1)).sum, m) ∧ (ls.map (· + 1)).sum ≤ m := by
  have step : ∀ (ls : List Nat) (a m : Nat), a ≤ m →
      ∃ m', vlFill a a m ls = some (a + (ls.map (· + 1)).sum, m') ∧ a + (ls.map (· + 1)).sum ≤ m' := by
    intro ls
    induction ls with
    | nil => intro a m h; exact ⟨m, by simp [vlFill], by simpa using h⟩
    | cons l ls ih =>
      intro a m h
      have hm : a + (l + 1) ≤ if a + (l + 1) > m then m + vlInc (l + 1) else m := by
        split
        · have : l + 1 ≤ vlInc (l + 1) := by unfold vlInc; omega
          omega
        · omega
      obtain ⟨m', h1, h2⟩ := ih (a + (l + 1)) _ hm
      refine ⟨m', ?_, ?_⟩
      · rw [vlFill, if_pos hm, h1]; simp [Nat.add_assoc]
      · simpa [Nat.add_assoc] using h2
  have := step ls 0 (vlInc old) (Nat.zero_le _)
  simpa using this

example : vlFill 0 0 (vlInc 0) [499, 0] = some (501, 1000) := by decide

/-! ## `SHELL` -/

/-- What `define_automatic_variables` leaves: the default shell unless the user gave one. -/
theorem shellVar_default (e : Bool) (old : Option Var) (dflt : Str)
    (h : ∀ v, old = some v → v.value = [] ∨ promote e v.origin = .env ∨ promote e v.origin = .envOverride ∨ v.origin = .default) :
    (shellVar e old dflt).value = dflt ∧ ((shellVar e old dflt).origin = .file ∨ (shellVar e old dflt).origin = .default) := by
  have hp : promote e Origin.default = .default := by cases e <;> rfl
  cases old with
  | none =>
    simp only [shellVar, defineVar, hp]
    by_cases hd : dflt = []
    · subst hd; simp
    · simp [hd]
  | some v =>
    simp only [shellVar, defineVar, hp]
    rcases h v rfl with hv | hv | hv | hv
    · by_cases hr : (promote e v.origin).rank ≤ Origin.default.rank
      · simp only [hr, if_true]
        by_cases hd : dflt = []
        · subst hd; simp
        · simp [hd]
      · simp [hr, hv]
    · simp [hv, Origin.rank]
    · simp [hv, Origin.rank]
    · have : promote e v.origin = .default := by rw [hv, hp]
      simp only [this, Nat.le_refl, if_true]
      by_cases hd : dflt = []
      · subst hd; simp
      · simp [hd]

theorem foldDefs_start (e : Bool) (n : Str) (v : Var) (ds : List Def) (hv : promote e v.origin = v.origin) (d : Def)
    (hw : Wins e (⟨v.value, v.origin, v.recursive⟩ :: ds) d) : Holds e (foldDefs e n (some v) ds) d := by
  obtain ⟨pre, post, h1, h2, h3⟩ := hw
  cases pre with
  | nil =>
    simp only [List.nil_append, List.cons.injEq] at h1
    obtain ⟨rfl, rfl⟩ := h1
    rw [foldDefs_weaker e n v 0 hv ds (fun x hx => by rw [← hv, rank_promote]; exact h3 x hx)]
    exact ⟨v, rfl, rfl, by simp only []; rw [← promote_eq, hv], rfl⟩
  | cons x pre =>
    simp only [List.cons_append, List.cons.injEq] at h1
    obtain ⟨rfl, rfl⟩ := h1
    refine foldDefs_wins e n (some v) pre post d ?_ (fun x hx => h2 x (List.mem_cons_of_mem _ hx)) h3
    intro w hw'
    cases hw'
    have := h2 _ (List.mem_cons_self ..)
    simpa using this

theorem shellVar_promoted (e : Bool) (old : Option Var) (dflt : Str) :
    promote e (shellVar e old dflt).origin = (shellVar e old dflt).origin := by
  have hf : promote e Origin.file = .file := by cases e <;> rfl
  simp only [shellVar]
  split
  · exact hf
  · rename_i h
    cases old with
    | none => simp only [defineVar]; exact promote_promote ..
    | some v =>
      simp only [defineVar]
      split <;> exact promote_promote ..

theorem holds_origin {e : Bool} {v : Var} {d : Def} (h : Holds e (some v) d) :
    v.value = d.value ∧ v.origin = reported e d.origin ∧ v.recursive = d.recursive := by
  obtain ⟨w, hw, h1, h2, h3⟩ := h
  cases hw
  exact ⟨h1, h2, h3⟩

/-- C136: `SHELL` is not taken from the environment.  If before the makefiles are read it is only
defined by the environment or built in, or the definition that wins is empty, then it is
the default shell until a definition in a makefile, or a stronger one, replaces it; and the last of
the strongest of those wins.  Whether `-e` is given makes no difference. -/
theorem C136_shell_default (e : Bool) (dflt : Str) (before after : List VarOp) (hb : OnlyDefs e before)
    (ha : OnlyDefs e after)
    (h : ∀ d, Wins e (defsOf "SHELL".toList before) d → d.value = [] ∨ NotUsers d) :
    (defsOf "SHELL".toList after = [] →
      ∃ v, shellHistory e dflt before after "SHELL".toList = some v ∧ v.value = dflt) ∧
    (∀ d, Wins e (defsOf "SHELL".toList after) d → 2 ≤ strength e d.origin →
      Holds e (shellHistory e dflt before after "SHELL".toList) d) := by
  generalize hn : "SHELL".toList = n at *
  generalize hs : before.foldl VarOp.run VarSet.empty = s
  have hold : ∀ v, s n = some v →
      v.value = [] ∨ promote e v.origin = .env ∨ promote e v.origin = .envOverride ∨ v.origin = .default := by
    intro v hv
    by_cases hd : defsOf n before = []
    · rw [← hs, run_defs e n before hb, hd] at hv
      cases hv
    · obtain ⟨d, hw⟩ := C22_winner_exists e _ hd
      have hh := C22_last_strongest_partial e VarSet.empty n before rfl hb d hw
      rw [hs, hv] at hh
      obtain ⟨h1, h2, h3⟩ := holds_origin hh
      rcases h d hw with hz | hz | hz | hz
      · left; rw [h1, hz]
      · right; rw [h2, hz]; cases e <;> simp [reported, promote]
      · right; rw [h2, hz]; cases e <;> simp [reported, promote]
      · right; right; right; rw [h2, hz]; rfl
  obtain ⟨hv, ho⟩ := shellVar_default e (s n) dflt hold
  have hp := shellVar_promoted e (s n) dflt
  have hrun : shellHistory e dflt before after n =
      foldDefs e n (some (shellVar e (s n) dflt)) (defsOf n after) := by
    simp only [shellHistory, hn, hs]
    rw [run_defs e n after ha, put_same]
  rw [hrun]
  constructor
  · intro hz; rw [hz]; exact ⟨_, rfl, hv⟩
  · intro d hw h2
    apply foldDefs_start e n _ _ hp
    obtain ⟨pre, post, w1, w2, w3⟩ := hw
    refine ⟨_ :: pre, post, by rw [w1]; rfl, ?_, w3⟩
    intro x hx
    rcases List.mem_cons.1 hx with rfl | hx
    · rcases ho with ho | ho
      · rw [show strength e (shellVar e (s n) dflt).origin = 2 by rw [ho]; rfl]; exact h2
      · rw [show strength e (shellVar e (s n) dflt).origin = 0 by rw [ho]; rfl]; exact Nat.zero_le _
    · exact w2 x hx

/-- C136: a `SHELL` given on the command line, not empty, stays unless a stronger definition, or a
later one of the same strength, replaces it. -/
theorem C136_shell_given (e : Bool) (dflt : Str) (before after : List VarOp) (hb : OnlyDefs e before)
    (ha : OnlyDefs e after) (d d' : Def) (hw : Wins e (defsOf "SHELL".toList before) d) (hv : d.value ≠ [])
    (hu : ¬ NotUsers d) (hw' : Wins e (d :: defsOf "SHELL".toList after) d') :
    Holds e (shellHistory e dflt before after "SHELL".toList) d' := by
  generalize hn : "SHELL".toList = n at *
  generalize hs : before.foldl VarOp.run VarSet.empty = s
  have hh := C22_last_strongest_partial e VarSet.empty n before rfl hb d hw
  rw [hs] at hh
  obtain ⟨v, h0, h1, h2, h3⟩ := hh
  have hro : reported e d.origin = d.origin := by
    cases ho : d.origin with
    | env => exact absurd (Or.inl ho) hu
    | _ => rfl
  have hpo : promote e v.origin = v.origin := by rw [h2, promote_eq]; cases ho : d.origin <;> cases e <;> simp [reported]
  have hrank : ¬ v.origin.rank ≤ (promote e Origin.default).rank := by
    rw [h2, hro]
    have : (promote e Origin.default) = .default := by cases e <;> rfl
    rw [this]
    cases ho : d.origin with
    | default => exact absurd (Or.inr (Or.inr ho)) hu
    | _ => simp [Origin.rank]
  have hsame : shellVar e (s n) dflt = v := by
    simp only [shellVar, h0, defineVar, hpo]
    rw [if_neg hrank]
    have hnot : ¬ (v.value = [] ∨ v.origin = .env ∨ v.origin = .envOverride) := by
      rw [h1, h2, hro]
      intro hc
      rcases hc with hc | hc | hc
      · exact hv hc
      · exact hu (Or.inl hc)
      · exact hu (Or.inr (Or.inl hc))
    simp only [hnot, if_false]
  have hrun : shellHistory e dflt before after n = foldDefs e n (some v) (defsOf n after) := by
    simp only [shellHistory, hn, hs]
    rw [run_defs e n after ha, put_same, hsame]
  rw [hrun]
  apply foldDefs_start e n v _ hpo
  have hdd : (⟨v.value, v.origin, v.recursive⟩ : Def) = d := by rw [h1, h2, h3, hro]
  rw [hdd]
  exact hw'

/-- Beside the theorems: a shell in the environment, with `-e`, is not used; one on the command line is. -/
example : (shellHistory true "/bin/sh".toList [.define true "SHELL".toList "/bin/zsh".toList .env true] []
      "SHELL".toList).map (·.value) = some "/bin/sh".toList ∧
    (shellHistory false "/bin/sh".toList [.define false "SHELL".toList "/bin/zsh".toList .command true]
      [.define false "SHELL".toList "/bin/ksh".toList .file true] "SHELL".toList).map (·.value) =
      some "/bin/zsh".toList := by decide
example : ∀ d, Wins true (defsOf "SHELL".toList [.define true "SHELL".toList "/bin/zsh".toList .env true]) d →
    d.value = [] ∨ NotUsers d := by
  intro d hw
  obtain ⟨pre, post, h, _, _⟩ := hw
  rw [show defsOf "SHELL".toList [.define true "SHELL".toList "/bin/zsh".toList .env true] =
    [⟨"/bin/zsh".toList, .env, true⟩] from rfl] at h
  have : d ∈ ([⟨"/bin/zsh".toList, .env, true⟩] : List Def) := by rw [h]; simp
  rw [List.mem_singleton.1 this]
  exact Or.inr (Or.inl rfl)

/-- C136 is violated here: `make SHELL=` makes it the default shell with the origin `file`, so that
`$(origin SHELL)` does not say `command line`, and a makefile's definition replaces it. -/
theorem C136_shell_empty (dflt z : Str) (hd : dflt ≠ []) :
    funcOrigin [(shellHistory false dflt [.define false "SHELL".toList [] .command true] [], false)] "SHELL".toList =
      some "file".toList ∧
    funcValue [(shellHistory false dflt [.define false "SHELL".toList [] .command true]
      [.define false "SHELL".toList z .file true], false)] "SHELL".toList = z := by
  constructor
  · simp [shellHistory, shellVar, funcOrigin, lookupVariable, lookupGo, VarOp.run, VarSet.define, VarSet.put,
      VarSet.empty, defineVar, promote, Origin.rank, originText]
  · simp [shellHistory, shellVar, funcValue, lookupVariable, lookupGo, VarOp.run, VarSet.define, VarSet.put,
      VarSet.empty, defineVar, promote, Origin.rank, originText]

end Remake
