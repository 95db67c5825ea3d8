import Verif.Expand.Lemmas6
import Verif.Var.Lemmas4
/-!
# Properties of expansion: C28, C29, C30, C64, C65
-/
set_option linter.unusedVariables false
set_option linter.unusedSimpArgs false
namespace Remake
open Spec

variable (ext : List (VarSet × Bool) → Str → List Str → Option Str)

/-- A state for the examples: one set of variables, nothing being expanded. -/
def oneSet (vars : List (Str × Var)) : XState where
  chain := [((fun n => (vars.find? fun p => p.1 = n).map (·.2)), false)]
  maxArgs := 0
  expanding := fun _ => false
  count := fun _ => 0

/-! ## C28 -/

/-- C28: text without `$` expands to itself. -/
theorem C28_literal (fuel : Nat) (st : XState) (s : Str) (h : '$' ∉ s) :
    expand ext (fuel + 1) st s = .ok s st := by
  simp only [expand, lex_literal h, evalToks_chars]

/-- C28: `$$` expands to `$`. -/
theorem C28_dollar (fuel : Nat) (st : XState) : expand ext (fuel + 1) st ['$', '$'] = .ok ['$'] st := by
  simp [expand, lex_dollar, lex_nil, evalToks, XRes.bind]

/-- C28: where no reference is left open, the text can be divided: the parts are expanded one
after the other and the results put together. -/
theorem C28_concat (fuel : Nat) (st : XState) (a b : Str) (h : Closed a) :
    expand ext (fuel + 1) st (a ++ b) = (expand ext (fuel + 1) st a).bind fun x st =>
      (expand ext (fuel + 1) st b).bind fun y st => .ok (x ++ y) st := by
  simp only [expand]
  rw [lex_closed h, evalToks_append]

example : Closed "x$(subst (,),$(a))".toList := by
  refine .char (by decide) (.paren (b := "subst (,),$(a)".toList) (s := []) ⟨?_, Or.inr (Or.inr ?_)⟩ .nil)
  · refine .char (by decide) (by decide) (.char (by decide) (by decide) (.char (by decide) (by decide)
      (.char (by decide) (by decide) (.char (by decide) (by decide) (.char (by decide) (by decide)
      (.nest (s := [',']) (.char (by decide) (by decide) .nil) (.char (by decide) (by decide)
      (.char (by decide) (by decide) (.nest (s := ['a']) (t := []) (.char (by decide) (by decide) .nil) .nil)))))))))
  · exact ⟨"subst", by decide, ' ', "(,),$(a)".toList, by decide, by decide⟩

/-- Without that the text cannot be divided: an unmatched bracket inside a reference swallows
all the text that follows the reference. -/
theorem C28_unmatched_swallows (fuel : Nat) (st : XState) (tail : Str) (h : ')' ∉ tail) (h' : '(' ∉ tail)
    (hv : lookupVariable st.chain ['$', '(', 'a'] = none) :
    expand ext (fuel + 1) st ("$($(a)".toList ++ tail) = .ok [] st := by
  have hm : ∀ tail : Str, ')' ∉ tail → '(' ∉ tail → findClose '(' ')' 0 tail = none := by
    intro tail
    induction tail with
    | nil => intro _ _; rfl
    | cons c t ih =>
      intro h1 h2
      simp only [List.mem_cons, not_or] at h1 h2
      simp only [findClose]
      rw [if_neg (fun e => h1.1 e.symm), if_neg (fun e => h2.1 e.symm), ih h1.2 h2.2]
      rfl
  have hlf : lookupFunction ('$' :: '(' :: 'a' :: ')' :: tail) = none := by
    simp [lookupFunction, show isUserFunc '$' = false by decide]
  have hp : parseRef '(' ('$' :: '(' :: 'a' :: ')' :: tail) = (.plain ['$', '(', 'a'], []) := by
    simp only [parseRef, hlf, if_true]
    rw [show ('$' :: '(' :: 'a' :: ')' :: tail).takeWhile (fun x => decide (x ≠ ')')) = ['$', '(', 'a'] by simp,
      show ('$' :: '(' :: 'a' :: ')' :: tail).dropWhile (fun x => decide (x ≠ ')')) = ')' :: tail by simp]
    have : findClose '(' ')' 0 ('$' :: '(' :: 'a' :: ')' :: tail) = none := by
      simp [findClose, hm tail h h']
    simp [this]
  rw [show "$($(a)".toList ++ tail = '$' :: '(' :: '$' :: '(' :: 'a' :: ')' :: tail by rfl]
  simp only [expand]
  rw [lex_ref (Or.inl rfl), hp, lex_nil]
  simp only [evalToks, evalRef]
  rw [expandNamed_plain _ _ (by decide)]
  have hl : lookupLoc false st.chain ['$', '(', 'a'] = none := by
    have := lookupLoc_eq false st.chain ['$', '(', 'a']
    rw [show lookupGo false st.chain ['$', '(', 'a'] = none from hv] at this
    simpa using this
  simp [referenceVariable, hl, XRes.bind]

example : lookupVariable (oneSet []).chain ['$', '(', 'a'] = none := rfl

/-- C28: however the output buffer is moved and grown, every write fits and the buffer holds
what has been written, whatever the memory held before. -/
theorem C28_buffer (fill : Char) (ops : List BufOp) :
    ∃ b, BufOp.runAll fill ops (bufferInit fill) = some b ∧ b.mem.take b.pos = ops.foldl BufOp.text [] := by
  obtain ⟨b, h1, h2⟩ := runAll_holds fill ops (bufferInit_holds fill)
  exact ⟨b, h1, h2.2⟩

example : [BufOp.out "ab ".toList, .back, .out "c".toList].foldl BufOp.text [] = "abc".toList := by decide

/-- C28: and there is room for a few characters more, which some functions rely on. -/
theorem C28_buffer_zone (fill : Char) (ops : List BufOp) (b : Buf)
    (h : BufOp.runAll fill ops (bufferInit fill) = some b) : b.pos + 5 ≤ b.mem.length := by
  obtain ⟨b', h1, h2⟩ := runAll_holds fill ops (bufferInit_holds fill)
  rw [h1] at h
  cases h
  exact h2.1

example : ∃ b, BufOp.runAll 'x' [.out (List.replicate 500 'a')] (bufferInit 'x') = some b :=
  let ⟨b, h, _⟩ := C28_buffer 'x' [.out (List.replicate 500 'a')]; ⟨b, h⟩

/-! ## C29 -/

/-- C29 without `call`: expansion comes to an end, whatever refers to whatever, and leaves the
state as it was. -/
theorem C29_terminates_partial (st : XState) (s : Str) (hf : FinitelyMany st.chain) (hv : NoCallValues st.chain)
    (hc : ∀ id, st.count id = 0) (hs : NoCall s) :
    ∃ fuel r, r ≠ .deep ∧ (∀ m, fuel ≤ m → expand ext m st s = r) ∧ ∀ out st', r = .ok out st' → st' = st := by
  obtain ⟨ids, M, hb⟩ := base_exists st.chain hf hv
  have hg : Good st.chain st := ⟨⟨[], rfl, by intro x hx; cases hx⟩, hc⟩
  have h := expand_done ext hb (free ids st * (M + 2) + s.length + 1) st s hg hs (by omega)
  exact ⟨_, _, h.1, fun m hm => expand_mono ext hm st s h.1, h.2⟩

example : FinitelyMany (oneSet [(['X'], { value := "$(Y)".toList, recursive := true, origin := .file })]).chain ∧
    NoCallValues (oneSet [(['X'], { value := "$(Y)".toList, recursive := true, origin := .file })]).chain := by
  refine ⟨⟨[['X']], ?_⟩, ?_⟩
  · intro s hs n v hv
    simp only [oneSet, List.mem_singleton] at hs
    subst hs
    simp only [List.find?] at hv
    by_cases h : (['X'] : Str) = n
    · simp [h]
    · simp [h] at hv
  · intro s hs n v hv _
    simp only [oneSet, List.mem_singleton] at hs
    subst hs
    simp only [List.find?] at hv
    by_cases h : (['X'] : Str) = n
    · simp [h] at hv
      subst hv
      unfold NoCall
      decide
    · simp [h] at hv

/-- C29: variables that refer to themselves, directly or through others, never yield a text
... -/
theorem C29_cycle_no_value (C : Str → Prop) (st : XState) (hc : Cyclic st.chain C) (n : Str) (hn : C n) (fuel : Nat)
    (out : Str) (st' : XState) : expand ext fuel st (refTo n) ≠ .ok out st' :=
  cyclic_not_ok ext fuel st hc n hn out st'

/-- ... and, without `call`, are reported as an error. -/
theorem C29_cycle_fatal_partial (C : Str → Prop) (st : XState) (hc : Cyclic st.chain C) (n : Str) (hn : C n)
    (hf : FinitelyMany st.chain) (hv : NoCallValues st.chain) (h0 : ∀ id, st.count id = 0) (hs : NoCall n) :
    ∃ fuel, ∀ m, fuel ≤ m → expand ext m st (refTo n) = .fatal := by
  have hs' : NoCall (refTo n) := by
    intro h
    simp only [refTo, List.cons_append] at h
    rw [List.infix_cons_iff] at h
    rcases h with h | h
    · simp [List.cons_prefix_cons] at h
    rw [List.infix_cons_iff] at h
    rcases h with h | h
    · simp [List.cons_prefix_cons] at h
    rw [List.infix_concat_iff] at h
    rcases h with h | h
    · obtain ⟨t, ht⟩ := h
      have := congrArg List.getLast? ht
      simp at this
    · exact hs h
  obtain ⟨fuel, r, h1, h2, h3⟩ := C29_terminates_partial ext st (refTo n) hf hv h0 hs'
  refine ⟨fuel, fun m hm => ?_⟩
  rw [h2 m hm]
  cases r with
  | fatal => rfl
  | deep => exact absurd rfl h1
  | ok out st' => exact absurd (h2 m hm) (C29_cycle_no_value ext C st hc n hn m out st')

example : Cyclic (oneSet [(['X'], { value := "a$(Y)".toList, recursive := true, origin := .file }),
    (['Y'], { value := "$(X)b".toList, recursive := true, origin := .file })]).chain (fun n => n = ['X'] ∨ n = ['Y']) := by
  rintro n (rfl | rfl)
  · exact ⟨by unfold PlainName; decide, _, ['a'], ['Y'], [], rfl, rfl, rfl, rfl, .char (by decide) .nil, Or.inr rfl⟩
  · exact ⟨by unfold PlainName; decide, _, [], ['X'], ['b'], rfl, rfl, rfl, rfl, .nil, Or.inl rfl⟩

/-- C29 fails with `call`: `F = $(call F)` is expanded without end, because every call sets the
number of admitted expansions anew. -/
theorem C29_call_endless (fuel : Nat) (st : XState) (v : Var) (h : lookupVariable st.chain ['F'] = some v)
    (hv : v.value = "$(call F)".toList) (hr : v.recursive = true) (ha : v.append = false) :
    expand ext fuel st "$(call F)".toList = .deep := by
  induction fuel using Nat.strongRecOn generalizing st with
  | ind fuel ih =>
    cases fuel with
    | zero => rfl
    | succ fuel =>
      have htx : ArgTexts [['F']] := by
        refine ⟨by simp, ?_, ?_⟩
        · intro t ht
          simp only [List.mem_singleton] at ht
          subst ht
          exact .char (by decide) (by decide) (by decide) .nil
        · intro t ht c hc
          simp only [List.head?_cons, Option.some.injEq] at ht
          subst ht
          simp only [List.head?_cons, Option.some.injEq] at hc
          subst hc; decide
      have hlex : lex "$(call F)".toList = [.ref (.func callEntry [['F']])] := by
        have := lex_fn (f := "call") (e := callEntry) (by decide) rfl htx (Or.inl rfl) []
        rw [List.append_nil, lex_nil] at this
        exact this
      have hF : PlainName ['F'] := by unfold PlainName; decide
      have hnum : ∀ i, (['F'] : Str) ≠ argName i := by
        intro i hi
        have : 'F' ∈ argName i := by rw [← hi]; simp
        have := Nat.isDigit_of_mem_toDigits (by omega) (by omega) this
        revert this; decide
      obtain ⟨i, hl⟩ := lookupLoc_of h
      simp only [expand, hlex, evalToks, evalRef]
      rw [if_pos (by rfl)]
      cases fuel with
      | zero => rfl
      | succ f =>
        have harg : expandArgs (expand ext (f + 1)) [['F']] st = .ok [['F']] st := by
          simp [expandArgs, C28_literal ext f st ['F'] (by decide), XRes.bind]
        rw [harg]
        have hfn : lookupFunction ['F'] = none := by decide
        have hcall : applyFn ext (expand ext (f + 1)) callEntry [['F']] st =
            callUser (expand ext (f + 1)) ['F'] [['F']] st := by
          simp [applyFn, callEntry, tokenPrefix, nextToken, isSpace, isBlank, isNewlineClass, hfn]
        have hbody : expand ext (f + 1) (callState st (i, ['F']) [['F']]) (refTo ['F']) = .deep := by
          rw [expand_refTo ext f _ hF]
          obtain ⟨s, hc1, hc2⟩ := callState_chain st (i, ['F']) [['F']]
          have hl' : lookupLoc false (callState st (i, ['F']) [['F']]).chain ['F'] = some (i, v) := by
            rw [hc1, lookupLoc_push (hc2 _ fun j _ => hnum j), hl]
          have hcount : (callState st (i, ['F']) [['F']]).count (i, ['F']) = expCountMax := by
            simp [callState, XState.setCount]
          simp only [referenceVariable, hl']
          rw [if_neg (by simp [hv]), if_pos hr]
          simp only [recursivelyExpand, hcount, show (expCountMax = 0) = False by simp [expCountMax], and_false, if_false]
          rw [if_neg (by simp [ha])]
          generalize hst : XState.mark (if (callState st (i, ['F']) [['F']]).expanding (i, ['F']) = true then
            (callState st (i, ['F']) [['F']]).setCount (i, ['F']) (expCountMax - 1)
            else callState st (i, ['F']) [['F']]) (i, ['F']) true = st1
          have hch : st1.chain = (callState st (i, ['F']) [['F']]).chain := by subst hst; split <;> rfl
          rw [hv, ih f (by omega) st1 (by
            have := lookupLoc_eq false st1.chain ['F']
            rw [hch, hl'] at this
            rw [hch]
            exact this.symm)]
          rfl
        rw [XRes.ok_bind, hcall]
        have hcu : callUser (expand ext (f + 1)) ['F'] [['F']] st = .deep := by
          simp only [callUser, hl]
          rw [if_neg (by simp [hv])]
          have : expand ext (f + 1) (callState st (i, ['F']) [['F']]) ('$' :: '(' :: ['F'] ++ [')']) = .deep := hbody
          unfold callState at this
          rw [this]
          rfl
        rw [hcu]
        rfl

example : lookupVariable (oneSet [(['F'], { value := "$(call F)".toList, recursive := true, origin := .file })]).chain ['F'] =
    some { value := "$(call F)".toList, recursive := true, origin := .file } := by decide

/-- The fuel only bounds the depth: a result does not depend on it. -/
theorem C29_depth_irrelevant (n m : Nat) (h : n ≤ m) (st : XState) (s : Str) (hn : expand ext n st s ≠ .deep) :
    expand ext m st s = expand ext n st s :=
  expand_mono ext h st s hn

example : expand (fun _ _ _ => none) 1 (oneSet []) ['a'] ≠ .deep := by
  rw [C28_literal _ 0 _ _ (by decide)]; simp

/-! ## C30 -/

/-- The states with the scopes of a call. -/
theorem sameCall_scope (st : XState) (id : Nat × Str) (vals : List Str) (st2 : XState)
    (h : Same (callState st id vals) st2) : CallScope ext st st2 vals := by
  have hc := callState_scope ext st id vals
  obtain ⟨s', h1, h2, h3⟩ := bindArgs_chain 0 (vals ++ List.replicate (st.maxArgs - vals.length) []) st.push .empty false
    st.chain rfl
  have hch : st2.chain = (s', false) :: st.chain := by
    rw [h.1]
    simp only [callState, XState.setCount, h1]
  have loc : ∀ n v, s' n = some (argVar n v) → ∃ i, lookupLoc false st2.chain n = some (i, argVar n v) := by
    intro n v hv
    rw [hch]
    exact ⟨st.chain.length, by simp [lookupLoc, hv, argVar]⟩
  refine ⟨?_, ?_, ?_, ?_⟩
  · intro fuel i v hv
    refine expand_simple ext fuel (argName_plain i) (loc _ _ ?_)
    have := h2 i v (by rw [List.getElem?_append_left (by
      have := List.getElem?_eq_some_iff.mp hv; exact this.1)]; exact hv)
    simpa using this
  · intro fuel i hi hlt
    refine expand_simple ext fuel (argName_plain i) (loc _ _ ?_)
    have := h2 i [] (by
      rw [List.getElem?_append_right hi, List.getElem?_replicate]
      rw [if_pos (by omega)])
    simpa using this
  · intro n hn
    rw [h.1]
    exact hc.others n hn
  · rw [h.2]; rfl

/-- C30: in a call of a user function, the value of the variable is expanded in a scope in
which `$(0)`, `$(1)`, ... are the arguments, the higher ones of outer calls are empty, and
nothing else is changed.  `$(0)` keeps blanks before the name.  (The name must be plain, not one of the numerals
bound, and not that of a function; variables with appended values are not covered.) -/
theorem C30_call_partial (m : Nat) (st st1 : XState) (ts vs : List Str) (lead fname trail : Str) (v : Var)
    (ht : ArgTexts ts) (hx : ExpandAll (expand ext (m + 1)) ts st ((lead ++ fname ++ trail) :: vs) st1)
    (hlead : ∀ c ∈ lead, isSpace c = true) (hn : PlainName fname)
    (htrail : ∀ c, trail.head? = some c → isSpace c = true)
    (hfn : fname.length < 256 ∧ ∀ f ∈ functionNames, fname ≠ f.toList)
    (hnum : ∀ i, i < max (vs.length + 1) st1.maxArgs → fname ≠ argName i)
    (hv : lookupVariable st1.chain fname = some v) (hne : v.value ≠ []) (ha : v.append = false) :
    ∃ st2, CallScope ext st1 st2 ((lead ++ fname) :: vs) ∧
      (v.recursive = true → ∀ out, (∃ st', expand ext (m + 2) st (fnText "call" ts) = .ok out st') ↔
        ∃ st', expand ext m st2 v.value = .ok out st') ∧
      (v.recursive = false → ∃ st', expand ext (m + 2) st (fnText "call" ts) = .ok v.value st') := by
  obtain ⟨i, hl⟩ := lookupLoc_of hv
  have hfs : ∀ c ∈ fname, isSpace c = false := fun c hc => (hn.2 c hc).2.2.2.2
  have hnone : lookupFunction fname = none := by
    simp only [lookupFunction]
    split
    · rfl
    · split
      · rfl
      · rename_i h1 h2
        have hd : fname.dropWhile isUserFunc = [] := by
          cases hd : fname.dropWhile isUserFunc with
          | nil => rfl
          | cons x xs =>
            exfalso
            apply h2
            rw [hd]
            have : x ∈ fname := (List.dropWhile_sublist _).mem (by rw [hd]; simp)
            simp [hfs x this]
        have htk : fname.takeWhile isUserFunc = fname := by
          have := List.takeWhile_append_dropWhile (p := isUserFunc) (l := fname)
          rw [hd, List.append_nil] at this
          exact this
        rw [htk, Nat.mod_eq_of_lt hfn.1, List.take_length, List.find?_eq_none]
        have key : ∀ e ∈ fnTable, ∃ f ∈ functionNames, e.name = f.toList := by decide
        intro e he
        obtain ⟨f, hf1, hf2⟩ := key e he
        have := hfn.2 f hf1
        simp only [beq_iff_eq]
        rw [hf2]
        exact fun h => this h.symm
  have hnt : nextToken (lead ++ fname ++ trail) = fname ++ trail := by
    rw [List.append_assoc]
    unfold nextToken
    rw [List.dropWhile_append_of_pos hlead]
    obtain ⟨c, r, hcr⟩ := List.exists_cons_of_ne_nil hn.1
    rw [hcr, List.cons_append, List.dropWhile_cons, if_neg (by rw [hfs c (by rw [hcr]; simp)]; simp)]
  have htp : tokenPrefix (fname ++ trail) = fname := by
    unfold tokenPrefix
    rw [List.takeWhile_append_of_pos (by intro c hc; simp [hfs c hc])]
    cases trail with
    | nil => simp
    | cons c r => simp [htrail c rfl]
  have htl : (lead ++ fname ++ trail).takeWhile isSpace = lead := by
    rw [List.append_assoc, List.takeWhile_append_of_pos hlead]
    obtain ⟨c, r, hcr⟩ := List.exists_cons_of_ne_nil hn.1
    rw [hcr, List.cons_append, List.takeWhile_cons, if_neg (by rw [hfs c (by rw [hcr]; simp)]; simp)]
    simp
  have hex : expand ext (m + 2) st (fnText "call" ts) =
      callUser (expand ext (m + 1)) fname ((lead ++ fname) :: vs) st1 := by
    conv => lhs; unfold expand
    have := lex_fn (f := "call") (e := callEntry) (by decide) rfl ht (Or.inl rfl) []
    rw [List.append_nil, lex_nil] at this
    rw [this]
    simp only [evalToks, evalRef]
    rw [if_pos (by rfl), expandArgs_all hx, XRes.ok_bind]
    have hap : applyFn ext (expand ext (m + 1)) callEntry ((lead ++ fname ++ trail) :: vs) st1 =
        callUser (expand ext (m + 1)) fname ((lead ++ fname) :: vs) st1 := by
      simp only [applyFn]
      rw [if_neg (by simp [callEntry])]
      simp only [callEntry, hnt, htp, htl]
      rw [if_neg hn.1, hnone]
    rw [hap]
    generalize callUser (expand ext (m + 1)) fname ((lead ++ fname) :: vs) st1 = r
    cases r <;> simp [XRes.bind]
  rw [hex]
  -- the state in which the value is expanded
  generalize hvals : (lead ++ fname) :: vs = vals
  have hlen : vals.length = vs.length + 1 := by rw [← hvals]; rfl
  obtain ⟨s, hc1, hc2⟩ := callState_chain st1 (i, fname) vals
  have hl' : lookupLoc false (callState st1 (i, fname) vals).chain fname = some (i, v) := by
    rw [hc1, lookupLoc_push (hc2 _ (by rw [hlen]; exact hnum)), hl]
  have hcount : (callState st1 (i, fname) vals).count (i, fname) = expCountMax := by
    simp [callState, XState.setCount]
  have hcu : callUser (expand ext (m + 1)) fname vals st1 =
      (referenceVariable (expand ext m) (callState st1 (i, fname) vals) fname).bind fun out st' =>
        .ok out ({ st' with maxArgs := st1.maxArgs }.setCount (i, fname) 0).pop := by
    simp only [callUser, hl]
    rw [if_neg hne]
    have : expand ext (m + 1) (callState st1 (i, fname) vals) ('$' :: '(' :: fname ++ [')']) =
        referenceVariable (expand ext m) (callState st1 (i, fname) vals) fname := expand_refTo ext m _ hn
    rw [← this]
    rfl
  rw [hcu]
  refine ⟨XState.mark (if (callState st1 (i, fname) vals).expanding (i, fname) = true then
      (callState st1 (i, fname) vals).setCount (i, fname) (expCountMax - 1)
      else callState st1 (i, fname) vals) (i, fname) true, ?_, ?_, ?_⟩
  · apply sameCall_scope ext st1 (i, fname) vals
    split <;> exact ⟨rfl, rfl⟩
  · intro hr out
    simp only [referenceVariable, hl']
    rw [if_neg (by simp [hne]), if_pos hr]
    simp only [recursivelyExpand, hcount, show (expCountMax = 0) = False by simp [expCountMax], and_false, if_false]
    rw [if_neg (by simp [ha])]
    generalize expand ext m _ v.value = r
    cases r with
    | ok a st' => simp [XRes.bind]
    | fatal => simp [XRes.bind]
    | deep => simp [XRes.bind]
  · intro hr
    simp only [referenceVariable, hl']
    rw [if_neg (by simp [hne]), if_neg (by simp [hr])]
    exact ⟨_, rfl⟩

/-- C30 fails for a variable whose name is a number: `$(call 1,x)` is `x`, whatever the value of
the variable `1`, as the argument hides it. -/
theorem C30_numeral_name (m : Nat) (st : XState) (v : Var) (hv : lookupVariable st.chain ['1'] = some v)
    (hne : v.value ≠ []) : ∃ st', expand ext (m + 2) st (fnText "call" [['1'], ['x']]) = .ok ['x'] st' := by
  obtain ⟨i, hl⟩ := lookupLoc_of hv
  have ht : ArgTexts [['1'], ['x']] := by
    refine ⟨by simp, ?_, ?_⟩
    · intro t ht
      simp only [List.mem_cons, List.not_mem_nil, or_false] at ht
      rcases ht with rfl | rfl <;> exact .char (by decide) (by decide) (by decide) .nil
    · intro t ht c hc
      simp only [List.head?_cons, Option.some.injEq] at ht
      subst ht
      simp only [List.head?_cons, Option.some.injEq] at hc
      subst hc; decide
  have hx : expandArgs (expand ext (m + 1)) [['1'], ['x']] st = .ok [['1'], ['x']] st :=
    expandArgs_all (.cons (C28_literal ext m _ _ (by decide)) (.cons (C28_literal ext m _ _ (by decide)) .nil))
  conv => enter [1, st', 1]; unfold expand
  have := lex_fn (f := "call") (e := callEntry) (by decide) rfl ht (Or.inl rfl) []
  rw [List.append_nil, lex_nil] at this
  rw [this]
  simp only [evalToks, evalRef]
  rw [if_pos (by rfl), hx, XRes.ok_bind]
  have hfn : lookupFunction ['1'] = none := by decide
  have hap : applyFn ext (expand ext (m + 1)) callEntry [['1'], ['x']] st =
      callUser (expand ext (m + 1)) ['1'] [['1'], ['x']] st := by
    simp [applyFn, callEntry, tokenPrefix, nextToken, isSpace, isBlank, isNewlineClass, hfn]
  rw [hap]
  simp only [callUser, hl]
  rw [if_neg hne]
  have h1 := (callState_scope ext st (i, ['1']) [['1'], ['x']]).args m 1 ['x'] rfl
  have h1 : expand ext (m + 1) (callState st (i, ['1']) [['1'], ['x']]) ('$' :: '(' :: ['1'] ++ [')']) = .ok ['x'] _ := h1
  unfold callState at h1
  rw [h1]
  exact ⟨_, rfl⟩

example : lookupVariable (oneSet [(['1'], { value := "one".toList, recursive := true, origin := .file })]).chain ['1'] =
    some { value := "one".toList, recursive := true, origin := .file } := by decide

/-- C30: after any expansion, and so after every call, the scopes and their bindings are those
from before. -/
theorem C30_restored (fuel : Nat) (st : XState) (s out : Str) (st' : XState)
    (h : expand ext fuel st s = .ok out st') : st'.chain = st.chain ∧ st'.maxArgs = st.maxArgs :=
  expand_keeps ext fuel st s out st' h

/-- C30: in a call within the body of another, at whatever point of it, the arguments that only
the outer call has bound are empty. -/
theorem C30_hidden (fuel : Nat) (st0 st1 st1' st2 : XState) (outer inner : List Str) (i : Nat)
    (ho : CallScope ext st0 st1 outer) (hs : st1'.chain = st1.chain ∧ st1'.maxArgs = st1.maxArgs)
    (hi : CallScope ext st1' st2 inner) (h1 : inner.length ≤ i) (h2 : i < outer.length) :
    expand ext (fuel + 1) st2 (refTo (argName i)) = .ok [] st2 :=
  hi.hidden fuel i h1 (by rw [hs.2, ho.bound]; omega)

/-- The hypotheses of the theorems on `call` are met. -/
def callExample : XState :=
  oneSet [(['f'], { value := "<$(1)|$(2)>".toList, recursive := true, origin := .file })]

example : ∃ st2, CallScope ext callExample st2 [['f'], ['a'], ['b']] := by
  obtain ⟨st2, h, _⟩ := C30_call_partial ext 1 callExample callExample [['f'], ['a'], ['b']] [['a'], ['b']] [] ['f'] []
    { value := "<$(1)|$(2)>".toList, recursive := true, origin := .file }
    ⟨by simp, by
      intro t ht
      simp only [List.mem_cons, List.not_mem_nil, or_false] at ht
      rcases ht with rfl | rfl | rfl <;> exact .char (by decide) (by decide) (by decide) .nil, by
      intro t ht c hc
      simp only [List.head?_cons, Option.some.injEq] at ht
      subst ht
      simp only [List.head?_cons, Option.some.injEq] at hc
      subst hc; decide⟩
    (.cons (C28_literal ext 1 _ _ (by decide)) (.cons (C28_literal ext 1 _ _ (by decide))
      (.cons (C28_literal ext 1 _ _ (by decide)) .nil)))
    (by simp) (by unfold PlainName; decide) (by simp) (by decide)
    (by
      intro i _ hi
      have : 'f' ∈ argName i := by rw [← hi]; simp
      have := Nat.isDigit_of_mem_toDigits (by omega) (by omega) this
      revert this; decide)
    (by decide) (by decide) rfl
  exact ⟨st2, h⟩

/-! ## C64, C65 -/

/-- C64: `$(foreach name,list,text)` is the list of the expansions of the text, with single
blanks between them, one for every word of the list in order; during each the name stands for
the word, afterwards for what it was. -/
theorem C64_foreach (m : Nat) (st : XState) (name list body out var : Str) (st' : XState)
    (ht : ArgTexts [name, list, body])
    (h : expand ext (m + 1) st (fnText "foreach" [name, list, body]) = .ok out st') :
    ∃ nv st1 lv st2 outs st3, expand ext m st name = .ok nv st1 ∧ expand ext m st1 list = .ok lv st2 ∧
      (wordsOf nv = [var] → EachWord (expand ext m) var body st.chain (wordsOf lv) st2 outs st3) ∧
      outs.length = (wordsOf lv).length ∧
      out = unwords outs ∧ st'.chain = st.chain := by
  have hkeep := C30_restored ext _ _ _ _ _ h
  unfold expand at h
  have := lex_fn (f := "foreach") (e := ⟨"foreach".toList, 3, 3, false, .foreach⟩) (by decide) rfl ht (Or.inr (by simp)) []
  rw [List.append_nil, lex_nil] at this
  rw [this] at h
  simp only [evalToks, evalRef, applyFn, funcForeach] at h
  rw [if_neg (by simp), if_neg (by simp)] at h
  have hrec := expand_keeps ext m
  cases h1 : expand ext m st name with
  | fatal => rw [h1] at h; cases h
  | deep => rw [h1] at h; cases h
  | ok nv st1 =>
    rw [h1] at h
    simp only [XRes.ok_bind] at h
    cases h2 : expand ext m st1 list with
    | fatal => rw [h2] at h; cases h
    | deep => rw [h2] at h; cases h
    | ok lv st2 =>
      rw [h2] at h
      simp only [XRes.ok_bind] at h
      have hs2 : st2.chain = st.chain := by rw [(hrec _ _ _ _ h2).1, (hrec _ _ _ _ h1).1]
      cases h3 : foreachGo (expand ext m) (tokenPrefix (nextToken nv)) body (tokens lv)
          (st2.push.bindSimple (tokenPrefix (nextToken nv)) []) with
      | fatal => rw [h3] at h; cases h
      | deep => rw [h3] at h; cases h
      | ok o st3 =>
        rw [h3] at h
        simp only [XRes.ok_bind, List.append_nil] at h
        cases h
        have hb : st2.push.bindSimple (tokenPrefix (nextToken nv)) [] =
            { st2 with chain := (VarSet.empty.put (tokenPrefix (nextToken nv)) (some (argVar (tokenPrefix (nextToken nv)) [])), false) :: st2.chain } := rfl
        obtain ⟨outs, st'', k1, k2⟩ := foreachGo_each hrec (tokenPrefix (nextToken nv)) body st.chain (tokens lv)
          (st2.push.bindSimple (tokenPrefix (nextToken nv)) []) st2
          (VarSet.empty.put (tokenPrefix (nextToken nv)) (some (argVar (tokenPrefix (nextToken nv)) []))) o st3
          (by rw [hb, hs2]) (by intro n hn; simp [VarSet.put, VarSet.empty, hn]) ⟨rfl, rfl, rfl⟩ h3
        rw [tokens_eq] at k1
        refine ⟨nv, st1, lv, st2, outs, st'', rfl, h2, ?_, each_length k1, ?_, hkeep.1⟩
        · intro hw
          have : tokenPrefix (nextToken nv) = var := by
            rw [← tokens_eq, tokens.eq_def] at hw
            split at hw
            · cases hw
            · rename_i t r hf
              simp only [List.cons.injEq] at hw
              rw [← hw.1]
              simp only [findNextToken] at hf
              split at hf
              · cases hf
              · simp only [Option.some.injEq, Prod.mk.injEq] at hf
                exact hf.1
          rw [← this]; exact k1
        · rw [← flatMap_blank, ← k2, tokens_eq]
          simp only [killLast]
          split
          · rfl
          · rename_i hemp
            have : wordsOf lv = [] := by simpa using hemp
            have hl := each_length k1
            rw [this] at hl
            have : outs = [] := List.length_eq_zero_iff.mp hl
            rw [k2, this]; rfl

/-- C65: `$(value name)` is the value of the variable as it was written, not expanded. -/
theorem C65_value (m : Nat) (st st1 : XState) (name n : Str) (ht : ArgTexts [name])
    (h : expand ext m st name = .ok n st1) :
    expand ext (m + 1) st (fnText "value" [name]) =
      .ok (((lookupVariable st1.chain n).map (·.value)).getD []) st1 := by
  conv => lhs; unfold expand
  have := lex_fn (f := "value") (e := ⟨"value".toList, 0, 1, true, .value⟩) (by decide) rfl ht (Or.inr (by simp)) []
  rw [List.append_nil, lex_nil] at this
  rw [this]
  simp only [evalToks, evalRef, if_true, expandArgs, h, XRes.ok_bind, applyFn]
  rw [if_neg (by simp)]
  have hl : (lookupLoc false st1.chain n).map (·.2.value) = (lookupVariable st1.chain n).map (·.value) := by
    rw [← show (lookupLoc false st1.chain n).map (·.2) = lookupVariable st1.chain n from lookupLoc_eq _ _ _]
    cases lookupLoc false st1.chain n <;> rfl
  simp [XRes.bind, hl]

example : expand ext 2 (oneSet [(['X'], { value := "$(Y)".toList, recursive := true, origin := .file })])
    (fnText "value" [['X']]) =
    .ok "$(Y)".toList (oneSet [(['X'], { value := "$(Y)".toList, recursive := true, origin := .file })]) := by
  refine C65_value ext 1 _ _ ['X'] ['X'] ⟨by simp, ?_, ?_⟩ (C28_literal ext 0 _ _ (by decide))
  · intro t ht
    simp only [List.mem_singleton] at ht
    subst ht
    exact .char (by decide) (by decide) (by decide) .nil
  · intro t ht c hc
    simp only [List.head?_cons, Option.some.injEq] at ht
    subst ht
    simp only [List.head?_cons, Option.some.injEq] at hc
    subst hc; decide

/-! ## C63: the text of an appending variable -/

theorem appendParts_literal (fuel : Nat) (buf : Str) (vs : List Var) (st : XState) (h : ∀ w ∈ vs, '$' ∉ w.value) :
    appendParts (expand ext (fuel + 1)) buf vs st = .ok ((vs.map (·.value)).foldl (fun acc x => if acc = [] then x else acc ++ ' ' :: x) buf) st := by
  induction vs generalizing buf with
  | nil => rfl
  | cons v vs ih =>
    have hv := h v (List.mem_cons_self ..)
    have hb : (if buf = [] then buf else buf ++ [' ']) ++ v.value = if buf = [] then v.value else buf ++ ' ' :: v.value := by
      split
      · rename_i h; rw [h]; rfl
      · simp
    rw [appendParts]
    simp only [C28_literal ext fuel st v.value hv, XRes.ok_bind]
    rw [hb, ih _ (fun w hw => h w (List.mem_cons_of_mem _ hw))]
    simp

/-- C63: a reference to an appending variable whose parts mention no other variables is replaced by
the parts, outermost first, with single blanks between them. -/
theorem C63_text (m : Nat) (st : XState) (n : Str) (v : Var) (hn : PlainName n) (hv : lookupVariable st.chain n = some v)
    (ha : v.append = true) (hr : v.recursive = true) (hi : ∀ i, st.expanding (i, n) = false)
    (hl : ∀ w ∈ contributions (visibleDefs false st.chain n), '$' ∉ w.value) :
    expand ext (m + 2) st (refTo n) = .ok (joinTexts ((contributions (visibleDefs false st.chain n)).reverse.map (·.value))) st := by
  obtain ⟨i, hloc⟩ := lookupLoc_of hv
  unfold expand
  rw [show refTo n = refTo n ++ [] by simp, lex_refTo hn, lex_nil]
  simp only [evalToks, evalRef]
  rw [expandNamed_plain _ _ (fun c hc => (hn.2 c hc).2.2.2.1)]
  simp only [referenceVariable, hloc]
  rw [if_neg (by simp [ha]), if_pos hr]
  unfold recursivelyExpand
  simp only [hi i, Bool.false_eq_true, false_and, if_false, ha, if_true]
  have hc : (st.mark (i, n) true).chain = st.chain := rfl
  rw [hc, show variableAppend st.chain n true = (contributions (visibleDefs false st.chain n)).reverse from variableAppend_eq st.chain n true, appendParts_literal ext m _ _ _ (fun w hw => hl w (List.mem_reverse.mp hw))]
  simp only [XRes.ok_bind]
  have hst : (st.mark (i, n) true).mark (i, n) false = st := by
    unfold XState.mark
    cases st
    simp only [XState.mk.injEq, true_and]
    refine ⟨?_, trivial⟩
    funext j
    split
    · rename_i hj; rw [hj]; exact (hi i).symm
    · rfl
  rw [hst]
  simp [XRes.bind, joinTexts]

/-- Target `+= c`, global `= a`. -/
example : expand ext 2 { oneSet [] with chain :=
      [(VarSet.empty.put ['X'] (some { value := ['c'], recursive := true, origin := .file, append := true }), true),
       (VarSet.empty.put ['X'] (some { value := ['a'], recursive := true, origin := .file }), false)] } (refTo ['X']) =
    .ok "a c".toList { oneSet [] with chain :=
      [(VarSet.empty.put ['X'] (some { value := ['c'], recursive := true, origin := .file, append := true }), true),
       (VarSet.empty.put ['X'] (some { value := ['a'], recursive := true, origin := .file }), false)] } :=
  C63_text ext 0 _ ['X'] { value := ['c'], recursive := true, origin := .file, append := true } ⟨by simp, by simp; decide⟩ (by decide) rfl rfl (fun _ => rfl) (by decide)

end Remake
