import Verif.Reader.TargetLemmas
import Verif.Reader.Props2
/-!
# C89: what target-specific definitions do
-/
set_option linter.unusedVariables false
set_option linter.unusedSimpArgs false
namespace Remake
open Remake.Spec

theorem op_not_bogus {op : Str} {f : Flavor} (h : Op op f) : f ≠ .bogus := by cases h <;> decide

/-- Definitions without side effects are made. -/
theorem define_some {E : DefEnv} (hE : PureEnv E) (st : DefState) (n value : Str) (o : Origin) {f : Flavor} (hf : f ≠ .bogus) :
    ∃ st', doVariableDefinition E st n value o f true = some st' := by
  have e1 : (E.expand st value).1 = st := (hE st _).1
  cases f with
  | bogus => exact absurd rfl hf
  | simple => exact ⟨_, rfl⟩
  | shell => exact ⟨_, rfl⟩
  | recursive => exact ⟨_, rfl⟩
  | conditional =>
    simp only [doVariableDefinition]
    split <;> exact ⟨_, rfl⟩
  | append =>
    simp only [doVariableDefinition, if_true]
    cases hv : st.sets ((st.chain.head?.map (·.1)).getD 0) n with
    | none => exact ⟨_, by simp; rfl⟩
    | some v =>
      have : ∃ x, (if v.recursive = true then (st, value) else if Flavor.append ≠ Flavor.appendValue then E.expand st value
          else (st, value)) = (st, x) := by
        split
        · exact ⟨_, rfl⟩
        · exact ⟨(E.expand st value).2, by rw [if_pos (by decide)]; exact Prod.ext e1 rfl⟩
      obtain ⟨x, hx⟩ := this
      simp only [Option.isSome_some, if_true, hv]
      rw [hx]
      simp only [hv]
      split <;> exact ⟨_, rfl⟩
  | appendValue =>
    simp only [doVariableDefinition, if_true]
    cases hv : st.sets ((st.chain.head?.map (·.1)).getD 0) n with
    | none => exact ⟨_, by simp; rfl⟩
    | some v =>
      have : (if v.recursive = true then (st, value) else if Flavor.appendValue ≠ Flavor.appendValue then E.expand st value
          else (st, value)) = (st, value) := by
        split
        · rfl
        · simp
      simp only [Option.isSome_some, if_true, hv]
      rw [this]
      simp only [hv]
      split <;> exact ⟨_, rfl⟩

theorem record_done {E : DefEnv} (hE : PureEnv E) (names : List Str) (t : TvState) {defn n : Str} (m : VMods)
    {a : Assignment} (ha : parseVariableDefinition defn = some a) (hf : a.flavor ≠ .bogus)
    (hn : ∀ st, (E.expand st a.name).2 = n) (hn0 : n ≠ []) : ∃ t', recordTargetVar E t names defn m = .done t' := by
  induction names generalizing t with
  | nil => exact ⟨t, rfl⟩
  | cons w ws ih =>
    have h1 : ∃ t1, recordOneVar E t w defn m = .done t1 := by
      obtain ⟨p, hp⟩ : ∃ p, ReadsAs '%' w p := ⟨_, (C19_find_percent w _).mpr rfl⟩
      rw [recordOneVar_eq hp]
      cases p with
      | lit x =>
        simp only [onPct, recordPlain, ha]
        generalize ({ (targetSet t x).1.defs with chain := [((targetSet t x).2, true), (0, false)] } : DefState) = st
        have e2 : (E.expand st a.name).2 = n := hn st
        obtain ⟨st', hd⟩ := define_some hE (E.expand st a.name).1 n a.value (lineOrigin m) hf
        rw [e2, if_neg hn0, hd]
        exact ⟨_, rfl⟩
      | pat pre post =>
        simp only [onPct, recordPattern, ha]
        have e2 : (E.expand t.defs a.name).2 = n := hn t.defs
        rw [e2, if_neg hn0]
        exact ⟨_, rfl⟩
    obtain ⟨t1, h1⟩ := h1
    simp only [recordTargetVar, h1]
    exact ih t1

section
variable {E : DefEnv} (hE : PureEnv E) {t : TvState} (ht : TvOk t) {names : List Str} {defn name n value : Str} {f : Flavor} {m : VMods}
include hE ht

/-- **C89** (partial: texts are expanded without side effects; a `?=` for a variable that is defined globally is left out, see
`C89_not_conditional`) The definition is made.  The global variables do not change, nor does any variable of other
targets, nor another variable of the targets named. -/
theorem C89_others_partial (ha : IsAssignment defn name f value) (hn : ∀ st, (E.expand st name).2 = n) (hn0 : n ≠ [])
    (hq : f = .conditional → t.defs.sets 0 n = none) :
    ∃ t', recordTargetVar E t names defn m = .done t' ∧ TvOk t' ∧ t'.defs.sets 0 = t.defs.sets 0 ∧ t'.defs.scopes = t.defs.scopes ∧
      ∀ x y, ¬ (y = n ∧ ∃ w ∈ names, ReadsAs '%' w (.lit x)) → ownVar t' x y = ownVar t x y := by
  have hp := (C27_recognised _ _ _ _).2 ha
  obtain ⟨_, _, op, _, _, _, _, _, _, ho, _⟩ := ha
  obtain ⟨t', hr⟩ := record_done hE names t m hp (op_not_bogus ho) hn hn0
  have s := recordTargetVar_step hE ht hp hn hq hr
  exact ⟨t', hr, s.ok, s.glob, s.scopes, s.others⟩

/-- **C89** (partial: as `C89_others_partial`; no target is named twice) Every target named has the variable of its own, with what
the operator stores and the modifiers of the line; a definition from the command line wins unless `override` is
given. -/
theorem C89_targets_partial (ha : IsAssignment defn name f value) (hn : ∀ st, (E.expand st name).2 = n) (hn0 : n ≠ [])
    (hq : f = .conditional → t.defs.sets 0 n = none)
    (hd : names.Pairwise (fun w w' => ∀ x, ReadsAs '%' w (.lit x) → ¬ ReadsAs '%' w' (.lit x))) :
    ∃ t', recordTargetVar E t names defn m = .done t' ∧
      ∀ w ∈ names, ∀ x, ReadsAs '%' w (.lit x) → ∃ st u v, TargetScope t x st ∧ Stores E st (ownVar t x n) f value (lineOrigin m) u ∧
        ownVar t' x n = some v ∧ Effective (lookupVariable t.defs.scopes n) m u v := by
  have hp := (C27_recognised _ _ _ _).2 ha
  obtain ⟨_, _, op, _, _, _, _, _, _, ho, _⟩ := ha
  obtain ⟨t', hr⟩ := record_done hE names t m hp (op_not_bogus ho) hn hn0
  exact ⟨t', hr, (recordTargetVar_step hE ht hp hn hq hr).stored hd⟩

/-- **C89** (partial: as `C89_others_partial`; the definitions are kept as given, see `C89_not_pattern_append`) The patterns named, and no others, are added to
the pattern-specific variables, each with the text of the line; earlier ones stay as they are. -/
theorem C89_patterns_partial (ha : IsAssignment defn name f value) (hn : ∀ st, (E.expand st name).2 = n) (hn0 : n ≠ [])
    (hq : f = .conditional → t.defs.sets 0 n = none) {qs : List (Str × Str)} (hqs : PatNames names qs)
    (hok : PatOk t.pats t.patFresh) :
    ∃ t', recordTargetVar E t names defn m = .done t' ∧ PatOk t'.pats t'.patFresh ∧
      (∀ p, p ∈ t'.pats.list ↔ p ∈ t.pats.list ∨ ∃ k, qs[k]? = some (p.pre, p.post) ∧ p.id = t.patFresh + k) ∧
      (∀ k < t.patFresh, t'.patDef k = t.patDef k) ∧
      ∀ k < qs.length, ∃ st d, st.scopes = t.defs.scopes ∧ t'.patDef (t.patFresh + k) = some d ∧
        PatKept E st (lookupVariable t.defs.scopes n) m n value f (lineOrigin m) d := by
  have hp := (C27_recognised _ _ _ _).2 ha
  obtain ⟨_, _, op, _, _, _, _, _, _, ho, _⟩ := ha
  obtain ⟨t', hr⟩ := record_done hE names t m hp (op_not_bogus ho) hn hn0
  obtain ⟨k1, _, k3, k4, k5⟩ := (recordTargetVar_step hE ht hp hn hq hr).pats qs hqs hok
  exact ⟨t', hr, k1, k3, k4, k5⟩

end

/-! ### Cases -/

/-- Nothing is defined but the given global variables. -/
def exTv (g : VarSet) : TvState :=
  ⟨⟨fun i => if i = 0 then g else .empty, [(0, false)]⟩, 1, fun _ => none, noPatVars, fun _ => none, 0⟩

theorem exTv_ok (g : VarSet) : TvOk (exTv g) :=
  ⟨by simp [exTv], by simp [exTv], by simp [exTv], by
    intro p hp
    simp only [exTv, List.mem_singleton] at hp
    subst hp
    exact ⟨by simp [exTv], by simp [exTv]⟩⟩

theorem plainEnv_pure : PureEnv plainEnv := fun _ _ => ⟨rfl, rfl⟩

/-- `X = 1` in the makefile. -/
def exGlobal : VarSet := VarSet.empty.define false "X".toList "1".toList .file true

theorem exAssign : IsAssignment "X = 2;3".toList "X".toList .recursive "2;3".toList :=
  (C27_recognised _ _ _ _).1 (by decide +kernel)

theorem exReads (w : Str) (h : '%' ∉ w) (x : Str) (hx : ReadsAs '%' w (.lit x)) : x = w :=
  Pct.lit.inj (readsAs_unique hx (.none h))

/-- `a b %.o: X = 2;3` leaves the global variable alone and defines X for a and b. -/
example : ∃ t', recordTargetVar plainEnv (exTv exGlobal) ["a".toList, "b".toList, "%.o".toList] "X = 2;3".toList {} = .done t' ∧
    t'.defs.sets 0 = exGlobal ∧ (∃ v, ownVar t' "b".toList "X".toList = some v ∧ v.value = "2;3".toList) ∧
    ownVar t' "c".toList "X".toList = none := by
  obtain ⟨t', h1, h2, h3, h4, h5⟩ := C89_others_partial (names := ["a".toList, "b".toList, "%.o".toList]) (m := {}) plainEnv_pure (exTv_ok exGlobal) exAssign
    (n := "X".toList) (fun _ => rfl) (by decide) (by intro h; cases h)
  have hpat : ∀ x, ¬ ReadsAs '%' "%.o".toList (.lit x) := fun x hx => by
    have := readsAs_unique hx (ReadsAs.unquoted (stop := '%') (a := []) (k := 0) (post := ".o".toList) (by decide) (by decide))
    cases this
  have hc := h5 "c".toList "X".toList (by
    rintro ⟨_, w, hw, hx⟩
    simp only [List.mem_cons, List.not_mem_nil, or_false] at hw
    rcases hw with rfl | rfl | rfl
    · exact absurd (exReads _ (by decide) _ hx) (by decide)
    · exact absurd (exReads _ (by decide) _ hx) (by decide)
    · exact hpat _ hx)
  obtain ⟨t2, g1, g2⟩ := C89_targets_partial (names := ["a".toList, "b".toList, "%.o".toList]) (m := {}) plainEnv_pure (exTv_ok exGlobal) exAssign
    (n := "X".toList) (fun _ => rfl) (by decide) (by intro h; cases h) (by
      simp only [List.pairwise_cons, List.mem_cons, List.not_mem_nil, or_false]
      refine ⟨?_, ?_, ?_⟩
      · rintro w (rfl | rfl) x hx hx'
        · exact absurd ((exReads _ (by decide) _ hx).symm.trans (exReads _ (by decide) _ hx')) (by decide)
        · exact hpat _ hx'
      · rintro w rfl x hx hx'
        exact hpat _ hx'
      · simp)
  rw [h1] at g1
  obtain rfl := TvRes.done.inj g1
  obtain ⟨st, u, v, s1, s2, s3, s4⟩ := g2 "b".toList (by simp) "b".toList (.none (by decide))
  refine ⟨t', h1, h3, ⟨v, s3, ?_⟩, hc⟩
  have hl : lookupVariable (exTv exGlobal).defs.scopes "X".toList = some { value := "1".toList, recursive := true, origin := .file } := by
    decide
  rw [hl] at s4
  have hu : u.value = "2;3".toList := by
    obtain ⟨_, w, hw, h | h⟩ := s2
    · obtain ⟨v, hv, _⟩ := h; simp [ownVar, exTv] at hv
    · obtain rfl := Option.some.inj hw; exact h.2.1
  obtain ⟨_, _, _, h | h⟩ := s4
  · obtain ⟨_, w, hw, hor, _⟩ := h
    obtain rfl := Option.some.inj hw
    rcases hor with h | h <;> cases h
  · rw [h.2.1]; exact hu

/-- `%.o b: X = 2;3` adds the pattern. -/
example : ∃ t' d, recordTargetVar plainEnv (exTv exGlobal) ["%.o".toList, "b".toList] "X = 2;3".toList {} = .done t' ∧
    (⟨0, [], ".o".toList⟩ : PatVar) ∈ t'.pats.list ∧ t'.patDef 0 = some d ∧ d.value = "2;3".toList := by
  have hq : PatNames ["%.o".toList, "b".toList] [([], ".o".toList)] :=
    .pat (ReadsAs.unquoted (stop := '%') (a := []) (k := 0) (post := ".o".toList) (by decide) (by decide)) (.lit (.none (by decide)) .nil)
  obtain ⟨t', h1, _, h3, _, h5⟩ := C89_patterns_partial (names := ["%.o".toList, "b".toList]) (m := {}) plainEnv_pure (exTv_ok exGlobal) exAssign
    (n := "X".toList) (fun _ => rfl) (by decide) (by intro h; cases h) hq
    ⟨by simp [exTv, noPatVars], by simp [exTv, noPatVars], by simp [exTv, noPatVars], by simp [exTv, noPatVars]⟩
  obtain ⟨st, d, k1, k2, k3⟩ := h5 0 (by decide)
  refine ⟨t', d, h1, (h3 _).2 (Or.inr ⟨0, rfl, rfl⟩), k2, ?_⟩
  have hl : lookupVariable (exTv exGlobal).defs.scopes "X".toList = some { value := "1".toList, recursive := true, origin := .file } := by
    decide
  rw [hl] at k3
  obtain ⟨_, _, _, _, _, h | h⟩ := k3
  · obtain ⟨_, w, hw, hor, _⟩ := h
    obtain rfl := Option.some.inj hw
    rcases hor with h | h <;> cases h
  · exact h.2.1

/-! ### Lines that change other definitions, or do not define what they say -/

/-- The state after a line. -/
def TvRes.state (t : TvState) : TvRes → TvState
  | .done t' => t'
  | _ => t

/-- **C89** (negative) With a global variable X the line `a: private X ?= 2` makes the global variable private: target b does not
see it any more.  And `a: X ?= 2` takes back an `export X`. -/
theorem C89_not_conditional :
    (let t := exTv exGlobal
     let t' := (recordTargetVar plainEnv t ["a".toList] "X ?= 2".toList { privateV := true }).state t
     lookupVariable [(.empty, true), (t.defs.sets 0, false)] "X".toList ≠ none ∧
     lookupVariable [(.empty, true), (t'.defs.sets 0, false)] "X".toList = none) ∧
    (let g : VarSet := VarSet.empty.put "X".toList (some { value := "1".toList, recursive := true, origin := .file, exp := .export_ })
     let t' := (recordTargetVar plainEnv (exTv g) ["a".toList] "X ?= 2".toList {}).state (exTv g)
     ((exTv g).defs.sets 0 "X".toList).map (·.exp) = some .export_ ∧ (t'.defs.sets 0 "X".toList).map (·.exp) = some .default) := by
  decide +kernel

/-- **C89** (negative) `make X=1` and `%.o: X += 2`: the definition is kept with the value of the command line but still appends, so
that the value of X for `a.o` is made of 1 and 1. -/
theorem C89_not_pattern_append :
    let g : VarSet := VarSet.empty.define false "X".toList "1".toList .command true
    let t := (recordTargetVar plainEnv (exTv g) ["%.o".toList] "X += 2".toList {}).state (exTv g)
    ((patternSet plainEnv t "a.o".toList).map fun (t, i) =>
      (variableAppend [(t.defs.sets i, true), (t.defs.sets 0, false)] "X".toList true).map (·.value)) =
      some ["1".toList, "1".toList] := by
  decide +kernel

/-- **C89** (negative) `define x` and `undefine x` after the colon are taken for assignments.  For a pattern a null pointer is
followed; for a target it is an error. -/
theorem C89_not_define :
    ruleLine (exRd []) [] "%.o: define x".toList [] none = ([], .targetVar ["%.o".toList] { defineV := true } "x".toList) ∧
    ruleLine (exRd []) [] "%.o: undefine x".toList [] none = ([], .targetVar ["%.o".toList] { undefineV := true } "x".toList) ∧
    (match recordTargetVar plainEnv (exTv exGlobal) ["%.o".toList] "x".toList { defineV := true } with | .undef => true | _ => false) = true ∧
    (match recordTargetVar plainEnv (exTv exGlobal) ["a".toList] "x".toList { defineV := true } with | .fatal => true | _ => false) = true := by
  decide +kernel

end Remake
