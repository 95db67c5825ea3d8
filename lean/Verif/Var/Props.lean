import Verif.Var.Lemmas2
import Verif.Var.Lemmas3
import Verif.Var.Lemmas4
/-!
# Property theorems about variables: C22 - C27, C31, C63
-/
set_option linter.unusedVariables false
namespace Remake
open Spec

/-! ## C22: origin precedence -/

/-- After any definitions of a variable, interleaved with definitions of other variables, it
is what the last of the strongest definitions says.  Partial: the `-e` flag is constant
(`C22_flag_switch` allows it to be set in between), and the flags beside value, origin and
flavour are not covered (`C22_weaker_clears_append` shows that one of them is changed by a weaker
definition). -/
theorem C22_last_strongest_partial (e : Bool) (s : VarSet) (n : Str) (ops : List VarOp)
    (hs : s n = none) (h : OnlyDefs e ops) (d : Def) (hw : Wins e (defsOf n ops) d) :
    Holds e (ops.foldl VarOp.run s n) d := by
  obtain ⟨pre, post, hd, h1, h2⟩ := hw
  rw [run_defs e n ops h s, hs, hd]
  exact foldDefs_wins e n none pre post d (by simp) h1 h2

/-- There always is such a definition, so the theorem covers every history. -/
theorem C22_winner_exists (e : Bool) (ds : List Def) (h : ds ≠ []) : ∃ d, Wins e ds d :=
  exists_wins e ds h

example :
    Holds false
      ([VarOp.define false ['X'] ['1'] .file true, .define false ['X'] ['2'] .command true,
        .define false ['Y'] ['3'] .override true, .define false ['X'] ['4'] .file false].foldl
          VarOp.run .empty ['X']) ⟨['2'], .command, true⟩ :=
  C22_last_strongest_partial false .empty ['X'] _ rfl
    (by
      intro op hop
      simp only [List.mem_cons, List.not_mem_nil, or_false] at hop
      rcases hop with rfl | rfl | rfl | rfl <;> exact ⟨_, _, _, _, rfl⟩) _
    ⟨[⟨['1'], .file, true⟩], [⟨['4'], .file, false⟩], by simp [defsOf], by simp [strength], by simp [strength]⟩

/-- A variable not mentioned keeps everything. -/
theorem C22_others_unchanged (s : VarSet) (n : Str) (ops : List VarOp)
    (h : ∀ op ∈ ops, ∀ e m v o r, (op = .define e m v o r ∨ op = .undefine e m o) → m ≠ n) :
    ops.foldl VarOp.run s n = s n := by
  induction ops generalizing s with
  | nil => rfl
  | cons op ops ih =>
    rw [List.foldl_cons, ih _ (fun op' hop => h op' (by simp [hop]))]
    cases op with
    | define e m v o r =>
      have := h _ (by simp) e m v o r (Or.inl rfl)
      exact define_other e s v o r (Ne.symm this)
    | undefine e m o =>
      have := h _ (by simp) e m [] o false (Or.inr rfl)
      exact put_other _ _ (Ne.symm this)

example : [VarOp.define false ['Y'] ['3'] .override true].foldl VarOp.run
    (VarSet.empty.define false ['X'] ['1'] .file true) ['X'] =
    (VarSet.empty.define false ['X'] ['1'] .file true) ['X'] :=
  C22_others_unchanged _ _ _ (by
    intro op hop e m v o r h
    simp only [List.mem_cons, List.not_mem_nil, or_false] at hop
    subst hop
    rcases h with h | h
    · injection h with _ h2; rw [← h2]; decide
    · cases h)

/-- The flag may be set between two series of definitions, as when `-e` comes from the
makefile's `MAKEFLAGS`: the winner of the first series competes in the second with the
strength that its origin has then. -/
theorem C22_flag_switch (s : VarSet) (n : Str) (ops1 ops2 : List VarOp) (hs : s n = none)
    (h1 : OnlyDefs false ops1) (h2 : OnlyDefs true ops2) (d1 d : Def)
    (w1 : Wins false (defsOf n ops1) d1) (w2 : Wins true (d1 :: defsOf n ops2) d) :
    ∃ w, (ops1 ++ ops2).foldl VarOp.run s n = some w ∧ w.value = d.value ∧ w.recursive = d.recursive := by
  obtain ⟨w, hw, hv, ho, hr⟩ := C22_last_strongest_partial false s n ops1 hs h1 d1 w1
  rw [List.foldl_append, run_defs true n ops2 h2, hw]
  have ho : w.origin = d1.origin := by rw [ho]; cases d1.origin <;> rfl
  obtain ⟨pre, post, hd, hp1, hp2⟩ := w2
  cases pre with
  | cons x pre =>
    rw [List.cons_append, List.cons.injEq] at hd
    obtain ⟨rfl, hd⟩ := hd
    rw [hd]
    obtain ⟨w', hw', hv', _, hr'⟩ := foldDefs_wins true n (some w) pre post d
      (by intro u hu; rw [← Option.some.inj hu, ho]; exact hp1 d1 (by simp))
      (fun x hx => hp1 x (by simp [hx])) hp2
    exact ⟨w', hw', hv', hr'⟩
  | nil =>
    rw [List.nil_append, List.cons.injEq] at hd
    obtain ⟨rfl, hd⟩ := hd
    rw [hd]
    cases post with
    | nil => exact ⟨w, rfl, hv, hr⟩
    | cons x post =>
      have hx := hp2 x (by simp)
      rw [← ho] at hx
      have e1 : defineVar true (some w) n [] x.value x.origin x.recursive =
          { w with origin := promote true w.origin } := by
        simp only [defineVar, rank_promote]
        rw [if_neg (by omega)]
      have e2 : foldDefs true n (some w) (x :: post) =
          foldDefs true n (some { w with origin := promote true w.origin }) post := by
        simp only [foldDefs, List.foldl_cons, e1]
      rw [e2, foldDefs_weaker true n _ 0 (promote_promote true w.origin) post]
      · exact ⟨_, rfl, hv, hr⟩
      · intro y hy
        rw [rank_promote, ho]
        exact hp2 y (by simp [hy])

example : ∃ w, ([VarOp.define false ['X'] ['1'] .env true] ++
      [VarOp.define true ['X'] ['2'] .file true]).foldl VarOp.run .empty ['X'] = some w ∧
      w.value = ['1'] ∧ w.recursive = true :=
  C22_flag_switch .empty ['X'] _ _ rfl
    (by intro op hop; simp only [List.mem_cons, List.not_mem_nil, or_false] at hop; subst hop; exact ⟨_, _, _, _, rfl⟩)
    (by intro op hop; simp only [List.mem_cons, List.not_mem_nil, or_false] at hop; subst hop; exact ⟨_, _, _, _, rfl⟩)
    ⟨['1'], .env, true⟩ ⟨['1'], .env, true⟩ ⟨[], [], by simp [defsOf], by simp, by simp⟩
    ⟨[], [⟨['2'], .file, true⟩], by simp [defsOf], by simp, by simp [strength]⟩

/-- `undefine` removes a variable unless its origin is stronger, and then it keeps its value;
no other variable is affected. -/
theorem C22_undefine (e : Bool) (s : VarSet) (n : Str) (o : Origin) :
    ((∀ v, s n = some v → strength e v.origin ≤ strength e o) → VarOp.run s (.undefine e n o) n = none) ∧
    (∀ v, s n = some v → strength e o < strength e v.origin →
      VarOp.run s (.undefine e n o) n = some { v with origin := reported e v.origin }) ∧
    ∀ m, m ≠ n → VarOp.run s (.undefine e n o) m = s m := by
  refine ⟨?_, ?_, fun m hm => put_other _ _ hm⟩
  · intro h
    simp only [VarOp.run, VarSet.undefine, put_same, undefineVar]
    cases hs : s n with
    | none => rfl
    | some v =>
      have := h v hs
      simp only [rank_promote]
      rw [if_pos this]
  · intro v hs h
    simp only [VarOp.run, VarSet.undefine, put_same, undefineVar, hs]
    rw [if_neg (by rw [rank_promote, rank_promote]; omega), promote_eq]

example : VarOp.run (VarSet.empty.define false ['X'] ['1'] .file true) (.undefine false ['X'] .override) ['X'] = none ∧
    (VarOp.run (VarSet.empty.define false ['X'] ['1'] .override true) (.undefine false ['X'] .file) ['X']).isSome := by
  decide

/-- An environment for assignments in which expansion changes nothing. -/
def plainEnv : DefEnv := ⟨false, fun st s => (st, s), fun st s => (st, s)⟩

/-- The violation: `foo: override X += a` followed by the weaker `foo: X = b` leaves `X` with
value `a`, but it no longer appends to the global value `g`. -/
theorem C22_weaker_clears_append :
    let st0 : DefState := ⟨fun i => if i = 0 then VarSet.empty.define false ['X'] ['g'] .file true else .empty,
      [(1, true), (0, false)]⟩
    ∃ st1 st2, doVariableDefinition plainEnv st0 ['X'] ['a'] .override .append true = some st1 ∧
      doVariableDefinition plainEnv st1 ['X'] ['b'] .file .recursive true = some st2 ∧
      (variableAppend st1.scopes ['X'] true).map (·.value) = [['g'], ['a']] ∧
      (variableAppend st2.scopes ['X'] true).map (·.value) = [['a']] := by
  refine ⟨_, _, rfl, rfl, ?_, ?_⟩ <;> rfl

/-! ## C23: scopes and private variables -/

/-- A reference in a target sees the innermost definition among the target's own; failing
that, the innermost definition of an enclosing scope that is not private. -/
theorem C23_lookup (g : List (VarSet × Bool)) (f : FileScope) (n : Str) :
    lookupVariable (fileChain g f) n = visible (g.map (·.1)) f n := by
  obtain ⟨a, b, h1, rest, h2, h3⟩ := fileChain_shape g f
  rw [lookupVariable, h2, lookupGo_own, visible, h1, firstDef_append]
  cases ha : firstDef a n with
  | some v => rfl
  | none =>
    simp only [lookupGo, firstDef]
    cases hb : b n with
    | some v => simp
    | none => simp only [Bool.false_or]; rw [lookupGo_true, h3]

/-- A private definition of another scope is never seen. -/
theorem C23_private_hidden (g : List (VarSet × Bool)) (f : FileScope) (n : Str) (v : Var)
    (h : lookupVariable (fileChain g f) n = some v) :
    (∃ s ∈ ownSets f, s n = some v) ∨ (v.priv = false ∧ ∃ s ∈ outerSets (g.map (·.1)) f, s n = some v) := by
  rw [C23_lookup, visible] at h
  have hf : ∀ l : List VarSet, ∀ v, firstDef l n = some v → ∃ s ∈ l, s n = some v := by
    intro l
    induction l with
    | nil => intro v hv; simp [firstDef] at hv
    | cons s l ih =>
      intro v hv
      simp only [firstDef] at hv
      cases hs : s n with
      | some w => rw [hs] at hv; exact ⟨s, by simp, by rw [hs]; exact hv⟩
      | none =>
        rw [hs] at hv
        obtain ⟨t, ht, h⟩ := ih v hv
        exact ⟨t, by simp [ht], h⟩
  have hp : ∀ l : List VarSet, ∀ v, firstPublic l n = some v → v.priv = false ∧ ∃ s ∈ l, s n = some v := by
    intro l
    induction l with
    | nil => intro v hv; simp [firstPublic] at hv
    | cons s l ih =>
      intro v hv
      simp only [firstPublic] at hv
      cases hs : s n with
      | some w =>
        rw [hs] at hv
        simp only at hv
        cases hw : w.priv with
        | true =>
          rw [hw] at hv
          obtain ⟨hv', t, ht, h⟩ := ih v (by simpa using hv)
          exact ⟨hv', t, by simp [ht], h⟩
        | false =>
          rw [hw] at hv
          have hv : w = v := by simpa using hv
          exact ⟨hv ▸ hw, s, by simp, by rw [hs, hv]⟩
      | none =>
        rw [hs] at hv
        obtain ⟨hv', t, ht, h⟩ := ih v hv
        exact ⟨hv', t, by simp [ht], h⟩
  cases ho : firstDef (ownSets f) n with
  | some w =>
    rw [ho] at h
    obtain rfl := Option.some.inj h
    exact Or.inl (hf _ _ ho)
  | none =>
    rw [ho] at h
    exact Or.inr (hp _ _ h)

/-- A parent's private definition is skipped and the global one seen. -/
example :
    let x (v : Char) (p : Bool) : VarSet := VarSet.empty.put ['X'] (some { value := [v], recursive := true, origin := .file, priv := p })
    (lookupVariable (fileChain [(x 'g' false, false)] (.child .empty none (.top (x 'p' true) none))) ['X']).map (·.value)
      = some ['g'] := by
  decide

/-! ## C24: scopes nest -/

/-- A scope opened and closed around any balanced activity leaves the current scope, the
links of all scopes and all variables that existed before as they were, except for definitions
that name an outer set explicitly. -/
theorem C24_scope_restores (st : Scopes) (h : ScopesOk st) (ops : List ScopeOp) (hb : Balanced ops) :
    ∃ st', ScopeOp.runAll (.push :: ops ++ [.pop]) st = some st' ∧ ScopesOk st' ∧
      st'.current = st.current ∧ (∀ j, j < st.fresh → st'.lists j = st.lists j) ∧
      ∀ i, i < st.fresh → st'.sets i = explicit i ops (st.sets i) := by
  obtain ⟨st', h1, h2, h3, _, h4, h5⟩ := scope_kept ops st h (balanced_kept hb)
  exact ⟨st', h1, h2, h3, h4, h5⟩

/-- So every reference means what it meant before. -/
theorem C24_references_restored (st : Scopes) (h : ScopesOk st) (ops : List ScopeOp) (hb : Balanced ops)
    (hno : ∀ op ∈ ops, ∀ i e n v o r, op ≠ .defIn i e n v o r) :
    ∃ st', ScopeOp.runAll (.push :: ops ++ [.pop]) st = some st' ∧
      ∀ i < st.fresh, ∀ l, ChainOf st i l → ChainOf st' i l ∧
        ∀ n, lookupVariable (l.map fun x => (st'.sets x.1, x.2)) n =
             lookupVariable (l.map fun x => (st.sets x.1, x.2)) n := by
  obtain ⟨st', h1, h2, h3, h4, h5⟩ := C24_scope_restores st h ops hb
  refine ⟨st', h1, ?_⟩
  have hex : ∀ i s, explicit i ops s = s := by
    clear hb h1 h5
    intro i s
    induction ops with
    | nil => rfl
    | cons op ops ih =>
      have ih := ih (fun op' hop => hno op' (by simp [hop]))
      cases op with
      | defIn j e n v o r => exact absurd rfl (hno _ (by simp) j e n v o r)
      | push => exact ih
      | pop => exact ih
      | defCur e n v o r => exact ih
  intro i hi l hl
  refine ⟨chain_congr h hi hl h4, ?_⟩
  have hlt : ∀ x ∈ l, x.1 < st.fresh := by
    induction hl with
    | @last i hn =>
      intro x hx
      simp only [List.mem_singleton] at hx
      rw [hx]; exact h.set i hi
    | @cons i j l hn _ ih =>
      intro x hx
      rcases List.mem_cons.mp hx with rfl | hx
      · exact h.set i hi
      · exact ih (h.next i hi j hn) x hx
  intro n
  have : (l.map fun x => (st'.sets x.1, x.2)) = l.map fun x => (st.sets x.1, x.2) := by
    apply List.map_congr_left
    intro x hx
    rw [h5 x.1 (hlt x hx), hex]
  rw [this]

/-- Inside, the new scope comes first and then what was current before. -/
theorem C24_push_adds (st : Scopes) (h : ScopesOk st) (l : List (Nat × Bool)) (hl : ChainOf st st.current l) :
    ChainOf (pushScope st) (pushScope st).current ((st.fresh, false) :: l) ∧
      (pushScope st).sets st.fresh = .empty := by
  by_cases hc : st.current = 0
  · rw [hc] at hl
    refine ⟨?_, by rw [push_eq_global st hc h.pos]; simp⟩
    rw [(push_global st h hc).1]
    obtain ⟨pre, h1, h2⟩ := push_chain_global st h hc hl .here h.pos hl
    have : pre = [] := by
      have := congrArg List.length h1
      simp only [List.length_append] at this
      exact List.length_eq_zero_iff.mp (by omega)
    rw [this] at h2
    exact h2
  · obtain ⟨h1, h2, h3⟩ := push_local st hc
    refine ⟨?_, by rw [push_eq_local st hc]; simp⟩
    rw [h1]
    have hs : (pushScope st).lists st.fresh = ⟨some st.current, st.fresh, false⟩ := h3
    have := ChainOf.cons (st := pushScope st) (i := st.fresh) (j := st.current) (l := l) (by rw [hs])
      (chain_congr h h.cur hl (fun j hj => h2 j (by omega)))
    rw [hs] at this
    exact this

/-- When the global list is current, every target, whose list ends in the global one, sees
the new scope right before the global variables. -/
theorem C24_push_global_seen (st : Scopes) (h : ScopesOk st) (hc : st.current = 0) (g : List (Nat × Bool))
    (hg : ChainOf st 0 g) (i : Nat) (hi : i < st.fresh) (hr : Reaches st 0 i) (l : List (Nat × Bool))
    (hl : ChainOf st i l) :
    ∃ own, l = own ++ g ∧ ChainOf (pushScope st) i (own ++ (st.fresh, false) :: g) :=
  push_chain_global st h hc hg hr hi hl

/-- The initial state, one target (list 1, set 1). -/
def scopes0 : Scopes :=
  { sets := fun i => if i = 0 then VarSet.empty.define false ['X'] ['g'] .file true else .empty
    lists := fun i => if i = 0 then ⟨none, 0, false⟩ else ⟨some 0, 1, true⟩
    current := 0, fresh := 2 }

theorem scopes0_ok : ScopesOk scopes0 :=
  ⟨by decide, by decide, by decide,
    by
      intro i hi n hn
      have : i = 0 ∨ i = 1 := by simp only [scopes0] at hi; omega
      rcases this with rfl | rfl
      · simp [scopes0] at hn
      · simp [scopes0] at hn; rw [← hn]; decide,
    rfl⟩

example : ∃ own, [(1, true), (0, false)] = own ++ [(0, false)] ∧
    ChainOf (pushScope scopes0) 1 (own ++ (2, false) :: [(0, false)]) :=
  C24_push_global_seen scopes0 scopes0_ok rfl [(0, false)] (.last rfl) 1 (by decide)
    (.step (j := 0) rfl .here) _ (.cons (j := 0) rfl (.last rfl))

example : Balanced [.defCur false ['X'] ['l'] .automatic true, .push, .defCur false ['X'] ['m'] .automatic true, .pop] :=
  .defCur _ _ _ _ _ (.scope (a := [.defCur false ['X'] ['m'] .automatic true]) (.defCur _ _ _ _ _ .nil) .nil)

/-! ## C25: pattern-specific variables -/

/-- After any series of definitions, those applied to a target are exactly the ones whose
pattern matches it, each once, the shorter patterns first and equally long ones in the
order of definition. -/
theorem C25_order (ps : List (Str × Str)) (t : Str) :
    let applied := patternVarsFor t (createAll 0 noPatVars ps).list
    applied.Pairwise PatBefore ∧
    ∀ p : PatVar, p ∈ applied ↔ ps[p.id]? = some (p.pre, p.post) ∧ PatMatches p t := by
  intro applied
  have h0 : PatOk noPatVars 0 := ⟨by simp [noPatVars], by simp [noPatVars], by simp [noPatVars], by simp [noPatVars]⟩
  obtain ⟨hok, hperm⟩ := createAll_ok ps 0 noPatVars h0
  have ha : applied = (createAll 0 noPatVars ps).list.filter (fun p => patVarMatches p t) := patternVarsFor_eq t _
  constructor
  · rw [ha]; exact hok.sorted.filter _
  · intro p
    rw [ha, List.mem_filter, patVarMatches_iff, hperm.mem_iff]
    apply and_congr_left'
    simp only [noPatVars, List.nil_append, List.mem_map]
    constructor
    · rintro ⟨⟨q, i⟩, hq, rfl⟩
      have := List.mem_zipIdx_iff_getElem?.mp hq
      simpa using this
    · intro h
      refine ⟨((p.pre, p.post), p.id), ?_, rfl⟩
      exact List.mem_zipIdx_iff_getElem?.mpr (by simpa using h)

/-- Two patterns of different lengths. -/
example : (⟨1, [], ['.', 'o']⟩ : PatVar) ∈ patternVarsFor ['a', 'b', '.', 'o'] (createAll 0 noPatVars
    [(['a'], ['.', 'o']), ([], ['.', 'o']), (['a'], ['.', 'c'])]).list ∧
    PatBefore ⟨1, [], ['.', 'o']⟩ ⟨0, ['a'], ['.', 'o']⟩ :=
  ⟨((C25_order _ _).2 _).mpr ⟨rfl, ['a', 'b'], by decide, rfl⟩, Or.inl (by decide)⟩

/-! ## C26: assignment operators -/

/-- `=` stores the text unexpanded. -/
theorem C26_recursive (E : DefEnv) (st : DefState) (n value : Str) (o : Origin) (t : Bool) :
    ∃ st', doVariableDefinition E st n value o .recursive t = some st' ∧
      Assigned E.envOv (st.sets (destination st t) n) (st'.sets (destination st t) n) value o true ∧
      SameElsewhere st st' (destination st t) n :=
  ⟨_, rfl, finish_assigned .., finish_same ..⟩

/-- `:=` and `::=` store the expansion of the text, made once. -/
theorem C26_simple (E : DefEnv) (st st1 : DefState) (n value p : Str) (o : Origin) (t : Bool)
    (hx : E.expand st value = (st1, p)) :
    ∃ st', doVariableDefinition E st n value o .simple t = some st' ∧
      Assigned E.envOv (st1.sets (destination st1 t) n) (st'.sets (destination st1 t) n) p o false ∧
      SameElsewhere st1 st' (destination st1 t) n := by
  refine ⟨finishDefinition E st1 n p o false t false false, by simp only [doVariableDefinition, hx], finish_assigned .., finish_same ..⟩

/-- `!=` stores the output of the command that the expanded text gives. -/
theorem C26_shell (E : DefEnv) (st st1 st2 : DefState) (n value q p : Str) (o : Origin) (t : Bool)
    (hx : E.expand st value = (st1, q)) (hs : E.shell st1 q = (st2, p)) :
    ∃ st', doVariableDefinition E st n value o .shell t = some st' ∧
      Assigned E.envOv (st2.sets (destination st2 t) n) (st'.sets (destination st2 t) n) p o true ∧
      SameElsewhere st2 st' (destination st2 t) n := by
  refine ⟨finishDefinition E st2 n p o true t false false, by simp only [doVariableDefinition, hx, hs], finish_assigned .., finish_same ..⟩

/-- `?=` changes nothing at all when the variable is defined, and acts like `=` when not. -/
theorem C26_conditional (E : DefEnv) (st : DefState) (n value : Str) (o : Origin) (t : Bool) :
    (lookupVariable st.scopes n ≠ none → doVariableDefinition E st n value o .conditional t = some st) ∧
    (lookupVariable st.scopes n = none → ∃ st', doVariableDefinition E st n value o .conditional t = some st' ∧
      Assigned E.envOv (st.sets (destination st t) n) (st'.sets (destination st t) n) value o true ∧
      SameElsewhere st st' (destination st t) n) := by
  constructor
  · intro h
    simp only [doVariableDefinition]
    cases hl : locateGo st false st.chain n with
    | some i => rfl
    | none => exact absurd ((locate_none_iff st n).mp hl) h
  · intro h
    refine ⟨finishDefinition E st n value o true t false true, by simp only [doVariableDefinition, (locate_none_iff st n).mpr h],
      finish_assigned .., finish_same ..⟩

/-- `+=` on an undefined variable acts like `=`. -/
theorem C26_append_undefined (E : DefEnv) (st : DefState) (n value : Str) (o : Origin) 
    (h : lookupVariable st.scopes n = none) :
    ∃ st', doVariableDefinition E st n value o .append false = some st' ∧
      Assigned E.envOv (st.sets 0 n) (st'.sets 0 n) value o true ∧ SameElsewhere st st' 0 n := by
  refine ⟨_, by simp only [doVariableDefinition, (locate_none_iff st n).mpr h]; rfl, finish_assigned .., finish_same ..⟩

/-- `+=` on a defined variable: old value, blank, new value (the new value alone if the old
one is empty), with the flavour of the old definition; for a simply expanded variable the
new value is expanded first.  Partial: expansion has no side effects on variables, the new
value is not empty (`C26_append_empty`), and the variable is assigned in the global set. -/
theorem C26_append_partial (E : DefEnv) (st : DefState) (n value x : Str) (o : Origin) (v : Var)
    (h : lookupVariable st.scopes n = some v) (hx : E.expand st value = (st, x))
    (hne : (if v.recursive then value else x) ≠ []) :
    ∃ st', doVariableDefinition E st n value o .append false = some st' ∧
      Assigned E.envOv (st.sets 0 n) (st'.sets 0 n)
        (if v.value = [] then (if v.recursive then value else x)
         else v.value ++ [' '] ++ (if v.recursive then value else x)) o v.recursive ∧
      SameElsewhere st st' 0 n := by
  obtain ⟨i, hi, hs⟩ := locate_of_lookup h
  have key : doVariableDefinition E st n value o .append false =
      some (finishDefinition E st n
        (if v.value = [] then (if v.recursive then value else x)
         else v.value ++ ' ' :: (if v.recursive then value else x)) o v.recursive false false false) := by
    simp only [doVariableDefinition, hi, hs, hx]
    cases hr : v.recursive with
    | true =>
      rw [hr] at hne
      simp only [if_true] at hne
      simp [hs, hne, hr]
    | false =>
      rw [hr] at hne
      simp only [Bool.false_eq_true, if_false] at hne
      simp [hs, hne, hr]
  refine ⟨_, key, ?_, finish_same ..⟩
  have := finish_assigned E st n (if v.value = [] then (if v.recursive then value else x)
         else v.value ++ ' ' :: (if v.recursive then value else x)) o v.recursive false false false
  simpa [List.append_assoc, destination] using this

/-- `+=` for a target: only a definition of the target itself is appended to; if there is
none, or that one appends too, the result is marked as appending to the outer value. -/
theorem C26_append_target_partial (E : DefEnv) (st : DefState) (n value x : Str) (o : Origin)
    (hx : E.expand st value = (st, x)) (hne : value ≠ [] ∧ x ≠ []) :
    ∃ st' w, doVariableDefinition E st n value o .append true = some st' ∧
      st'.sets (destination st true) n = some w ∧ SameElsewhere st st' (destination st true) n ∧
      (st.sets (destination st true) n = none → w.value = value ∧ w.recursive = true ∧ w.append = true) ∧
      ∀ v, st.sets (destination st true) n = some v → w.append = v.append ∧
        (strength E.envOv v.origin ≤ strength E.envOv o →
          w.recursive = v.recursive ∧
          w.value = if v.value = [] then (if v.recursive then value else x)
                    else v.value ++ [' '] ++ (if v.recursive then value else x)) := by
  have hd := dest_eq st true
  simp only [if_true] at hd
  cases hs : st.sets (destination st true) n with
  | none =>
    refine ⟨finishDefinition E st n value o true true true false, _, ?_, finish_dest .., finish_same .., ?_, by simp⟩
    · simp only [doVariableDefinition, hd, hs]; simp
    · intro _
      simp [hs, defineVar]
  | some v =>
    have key : doVariableDefinition E st n value o .append true =
        some (finishDefinition E st n
          (if v.value = [] then (if v.recursive then value else x)
           else v.value ++ ' ' :: (if v.recursive then value else x)) o v.recursive true v.append false) := by
      simp only [doVariableDefinition, hd, hs, hx]
      cases hr : v.recursive with
      | true => simp [hs, hne.1, hr]
      | false => simp [hs, hne.2, hr]
    refine ⟨_, _, key, finish_dest .., finish_same .., by simp, ?_⟩
    intro u hu
    obtain rfl := Option.some.inj hu
    refine ⟨rfl, ?_⟩
    intro hle
    simp only [hs, defineVar, rank_promote]
    rw [if_pos hle]
    exact ⟨rfl, by simp⟩

/-- `+=` with nothing to add changes nothing, not even the origin. -/
theorem C26_append_empty (E : DefEnv) (st : DefState) (n value : Str) (o : Origin) (v : Var)
    (h : lookupVariable st.scopes n = some v) (hx : (if v.recursive then (st, value) else E.expand st value) = (st, [])) :
    doVariableDefinition E st n value o .append false = some st := by
  obtain ⟨i, hi, hs⟩ := locate_of_lookup h
  simp only [doVariableDefinition, hi, hs]
  cases hr : v.recursive with
  | true =>
    rw [hr] at hx
    simp only [if_true, Prod.mk.injEq, true_and] at hx
    simp [hs, hx, hr]
  | false =>
    rw [hr] at hx
    simp only [Bool.false_eq_true, if_false] at hx
    simp [hs, hx, hr]

/-- The violation: when expanding the new value undefines the variable, the old value is read
after it was freed. -/
theorem C26_append_use_after_free :
    ∃ (E : DefEnv) (st : DefState) (v : Var), lookupVariable st.scopes ['X'] = some v ∧
      doVariableDefinition E st ['X'] ['u'] .file .append false = none :=
  ⟨⟨false, fun st s => (⟨fun i => (st.sets i).undefine false ['X'] .file, st.chain⟩, s), fun st s => (st, s)⟩,
    ⟨fun _ => VarSet.empty.define false ['X'] ['a'] .file false, [(0, false)]⟩,
    _, rfl, rfl⟩

/-- Outside a target `+=` reads the current scope but defines the global variable: in a
`$(foreach)` or `$(call)` scope the global variable gets the local value. -/
theorem C26_append_scope_mix :
    ∃ st : DefState, ∃ st', doVariableDefinition plainEnv st ['X'] ['b'] .file .append false = some st' ∧
      (st.sets 0 ['X']).map (·.value) = some ['g'] ∧
      (st'.sets 0 ['X']).map (·.value) = some ['l', ' ', 'b'] :=
  ⟨⟨fun i => if i = 0 then VarSet.empty.define false ['X'] ['g'] .file true
      else VarSet.empty.define false ['X'] ['l'] .automatic true, [(1, false), (0, false)]⟩,
    _, rfl, rfl, rfl⟩

/-- `X = a` then `X += b`. -/
example : ∃ st', doVariableDefinition plainEnv
      ⟨fun _ => VarSet.empty.define false ['X'] ['a'] .file true, [(0, false)]⟩ ['X'] ['b'] .file .append false = some st' ∧
      (st'.sets 0 ['X']).map (·.value) = some ['a', ' ', 'b'] :=
  ⟨_, rfl, rfl⟩

/-! ## C27: recognising assignments -/

/-- A line is an assignment exactly if it has the form of one, and it is split as that form
says. -/
theorem C27_recognised (line name : Str) (f : Flavor) (value : Str) :
    parseVariableDefinition line = some ⟨name, f, value⟩ ↔ IsAssignment line name f value :=
  parse_iff line name f value

/-- So the split is unique. -/
theorem C27_unique (line n1 n2 : Str) (f1 f2 : Flavor) (v1 v2 : Str)
    (h1 : IsAssignment line n1 f1 v1) (h2 : IsAssignment line n2 f2 v2) : n1 = n2 ∧ f1 = f2 ∧ v1 = v2 := by
  rw [← parse_iff] at h1 h2
  rw [h1] at h2
  have := Option.some.inj h2
  simp only [Assignment.mk.injEq] at this
  exact this

/-- `A$(B:=c) += d`. -/
example : parseVariableDefinition ['A', '$', '(', 'B', ':', '=', 'c', ')', ' ', '+', '=', ' ', 'd'] =
    some ⟨['A', '$', '(', 'B', ':', '=', 'c', ')'], .append, ['d']⟩ := by
  rw [C27_recognised]
  refine ⟨[], [' '], ['+', '='], [' ', 'd'], rfl, by simp, rfl, Or.inr ⟨' ', [], rfl, rfl, by simp⟩, ?_, .append, by decide⟩
  refine .char (by decide) (by decide) (by decide) (by decide) ?_ ?_
  · rintro ⟨op, f, r, ho, h⟩
    cases ho <;> simp at h
  · exact .paren (b := ['B', ':', '=', 'c']) (s := [])
      (.char (by decide) (by decide) (.char (by decide) (by decide) (.char (by decide) (by decide)
        (.char (by decide) (by decide) .nil)))) .nil

/-! ## C31: the environment of recipes -/

/-- No name occurs twice in the environment of a recipe. -/
theorem C31_names_distinct (x : Bool) (sv : Option Var) (g : VarSet) (expand : Str → Var → Str)
    (enums : List (List (Str × Var))) (own : List (Str × Str)) (hown : own.map (·.1) = envReserved) :
    ((targetEnvironment x sv g expand enums own).map (·.1)).Nodup := by
  simp only [targetEnvironment, List.map_append, List.map_map, List.nodup_append]
  refine ⟨?_, by rw [hown]; decide, ?_⟩
  · have := envTable_nodup x sv g enums.flatten [] (by simp)
    exact List.Nodup.sublist (List.Sublist.map _ List.filter_sublist) this
  · intro a ha b hb
    rw [hown] at hb
    simp only [List.mem_map, List.mem_filter, Function.comp] at ha
    obtain ⟨e, ⟨_, he⟩, rfl⟩ := ha
    rintro rfl
    have : envReserved.contains e.1 = true := by simpa using hb
    rw [this] at he
    simp at he

/-- What the environment holds for a name: the value of the innermost definition that is
exported - expanded, unless it came from the environment or is simple - and no entry if there
is none.  Partial: `SHELL` has a rule of its own (`C31_shell`) and the names make sets itself are
left out; the property as stated fails, since private definitions of other scopes
(`C31_private_leaks`) and definitions hidden by an inner unexported one
(`C31_hidden_leaks`) are passed on. -/
theorem C31_entry_partial (x : Bool) (sv : Option Var) (g : VarSet) (expand : Str → Var → Str)
    (hexp : ∀ n v e, expand n { v with exp := e } = expand n v)
    (enums : List (List (Str × Var))) (sets : List VarSet) (henum : EnumAll enums sets)
    (own : List (Str × Str)) (hown : own.map (·.1) = envReserved)
    (n val : Str) (hsh : n ≠ "SHELL".toList) (hres : n ∉ envReserved) :
    (n, val) ∈ targetEnvironment x sv g expand enums own ↔
      firstExported x g sets n (fun v =>
        val = if v.recursive = true ∧ v.origin ≠ .env ∧ v.origin ≠ .envOverride then expand n v else v.value) := by
  have hnd := envTable_nodup x sv g enums.flatten [] (by simp)
  rw [← findSome_flatten x sv g n hsh _ enums sets henum (by intro v e; simp [hexp])]
  have hf := envTable_find x sv g n enums.flatten []
  simp only [List.find?_nil] at hf
  rw [← hf]
  simp only [targetEnvironment, List.mem_append, List.mem_map, List.mem_filter]
  constructor
  · rintro (⟨⟨m, w⟩, ⟨hm, _⟩, he⟩ | ho)
    · simp only [Prod.mk.injEq] at he
      obtain ⟨rfl, he⟩ := he
      exact ⟨w, (mem_of_find hnd m w).mp hm, he.symm⟩
    · exact absurd (hown ▸ List.mem_map.mpr ⟨_, ho, rfl⟩) hres
  · rintro ⟨w, hw, hp⟩
    refine Or.inl ⟨(n, w), ⟨(mem_of_find hnd n w).mpr hw, ?_⟩, ?_⟩
    · simpa using hres
    · rw [hp]; rfl

/-- An unexported `SHELL` is passed on with the value make itself was started with. -/
theorem C31_shell (x : Bool) (u : Var) (g : VarSet) (expand : Str → Var → Str) (v : Var)
    (hv : v.exp = .noexport) (own : List (Str × Str)) :
    ("SHELL".toList, envValue expand "SHELL".toList u) ∈
      targetEnvironment x (some u) g expand [[("SHELL".toList, v)]] own := by
  have : envEntry x (some u) ((g "SHELL".toList).map (·.exp)) "SHELL".toList v = some u := by
    simp [envEntry, hv]
  simp only [targetEnvironment, List.flatten_cons, List.flatten_nil, List.append_nil, envTable, this]
  simp [envReserved]

/-- The violation: a variable private to a parent target reaches the recipes of its
prerequisites. -/
theorem C31_private_leaks :
    ∃ (own pat global : VarSet) (v : Var), v.priv = true ∧ pat ['X'] = some v ∧
      lookupVariable [(own, true), (pat, true), (global, false)] ['X'] = none ∧
      (['X'], ['p']) ∈ targetEnvironment false none global (fun _ v => v.value) [[], [(['X'], v)], []] [] :=
  ⟨.empty, VarSet.empty.put ['X'] (some { value := ['p'], recursive := true, origin := .file, priv := true, exp := .export_ }),
    .empty, { value := ['p'], recursive := true, origin := .file, priv := true, exp := .export_ }, rfl, rfl, rfl, by decide⟩

/-- The violation: a definition for the target that is not exported is passed over, and the
recipe gets the outer value instead of none or the inner one. -/
theorem C31_hidden_leaks :
    ∃ (own global : VarSet) (v w : Var), own ['X'] = some v ∧ global ['X'] = some w ∧
      (lookupVariable [(own, true), (global, false)] ['X']).map (·.value) = some ['i'] ∧
      (['X'], ['o']) ∈ targetEnvironment false none global (fun _ v => v.value) [[(['X'], v)], [(['X'], w)]] [] :=
  ⟨VarSet.empty.put ['X'] (some { value := ['i'], recursive := true, origin := .file, exp := .noexport }),
    VarSet.empty.put ['X'] (some { value := ['o'], recursive := true, origin := .file, exp := .export_ }),
    { value := ['i'], recursive := true, origin := .file, exp := .noexport },
    { value := ['o'], recursive := true, origin := .file, exp := .export_ }, rfl, rfl, rfl, by decide⟩

/-- An exported target-specific definition hides the global one. -/
example : (['X'], ['i']) ∈ targetEnvironment false none .empty (fun _ v => v.value)
    [[(['X'], { value := ['i'], recursive := true, origin := .file, exp := .export_ })],
     [(['X'], { value := ['o'], recursive := true, origin := .file, exp := .export_ })]] [] := by
  decide

/-! ## C63: appending target-specific variables -/

/-- The value of an appending variable is made of the definitions visible from the target,
outermost first, starting with the innermost one that does not append; private definitions
of other scopes take no part. -/
theorem C63_append (chain : List (VarSet × Bool)) (n : Str) :
    variableAppend chain n true = (contributions (visibleDefs false chain n)).reverse ∧
    lookupVariable chain n = (visibleDefs false chain n).head? :=
  ⟨variableAppend_eq chain n true, lookup_visibleDefs chain n false⟩

/-- Target `+= c`, parent `+= b`, global `= a`. -/
example :
    let x (v : Char) (a : Bool) : VarSet := VarSet.empty.put ['X'] (some { value := [v], recursive := true, origin := .file, append := a })
    (variableAppend (fileChain [(x 'a' false, false)] (.child (x 'c' true) none (.top (x 'b' true) none))) ['X'] true).map (·.value)
      = [['a'], ['b'], ['c']] := by
  decide

end Remake
