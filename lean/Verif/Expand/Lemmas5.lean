import Verif.Expand.Lemmas4
/-!
# Lemmas about calls: arguments as written, and their bindings
-/
set_option linter.unusedVariables false
set_option linter.unusedSimpArgs false
namespace Remake
open Spec

/-! ### Arguments as written -/

theorem findNext_matched {o c : Char} {b : Str} (hb : Matched o c b) (hoc : o ≠ c) (ho : o ≠ ',') (hc : c ≠ ',')
    (n : Nat) (s : Str) :
    findNextArgument o c (n + 1) (b ++ s) = (findNextArgument o c (n + 1) s).map fun r => (b ++ r.1, r.2) := by
  induction hb generalizing n s with
  | nil => cases h : findNextArgument o c (n + 1) s <;> simp [h]
  | @char a b h1 h2 _ ih =>
    rw [List.cons_append]
    conv => lhs; unfold findNextArgument
    simp only [h1, h2, if_false, Nat.add_one_ne_zero, and_false]
    rw [ih]
    cases findNextArgument o c (n + 1) s <;> simp
  | @nest b1 b2 _ _ ih1 ih2 =>
    rw [show o :: b1 ++ c :: b2 ++ s = o :: (b1 ++ (c :: (b2 ++ s))) by simp]
    conv => lhs; unfold findNextArgument
    simp only [if_true]
    rw [ih1]
    have : findNextArgument o c (n + 1 + 1) (c :: (b2 ++ s)) =
        (findNextArgument o c (n + 1) (b2 ++ s)).map fun r => (c :: r.1, r.2) := by
      conv => lhs; unfold findNextArgument
      simp [hoc.symm]
    rw [this, ih2]
    cases findNextArgument o c (n + 1) s <;> simp

theorem findNext_arg {o c : Char} {b : Str} (hb : ArgText o c b) (hoc : o ≠ c) (ho : o ≠ ',') (hc : c ≠ ',')
    (s : Str) :
    findNextArgument o c 0 (b ++ s) = (findNextArgument o c 0 s).map fun r => (b ++ r.1, r.2) := by
  induction hb generalizing s with
  | nil => cases h : findNextArgument o c 0 s <;> simp [h]
  | @char a b h1 h2 h3 _ ih =>
    rw [List.cons_append]
    conv => lhs; unfold findNextArgument
    simp only [h1, h2, h3, if_false, false_and]
    rw [ih]
    cases findNextArgument o c 0 s <;> simp
  | @nest b1 b2 hm _ ih =>
    rw [show o :: b1 ++ c :: b2 ++ s = o :: (b1 ++ (c :: (b2 ++ s))) by simp]
    conv => lhs; unfold findNextArgument
    simp only [if_true]
    rw [findNext_matched hm hoc ho hc]
    have : findNextArgument o c (0 + 1) (c :: (b2 ++ s)) =
        (findNextArgument o c 0 (b2 ++ s)).map fun r => (c :: r.1, r.2) := by
      conv => lhs; unfold findNextArgument
      simp [hoc.symm]
    rw [this, ih]
    cases findNextArgument o c 0 s <;> simp

theorem findNext_comma {o c : Char} (ho : o ≠ ',') (hc : c ≠ ',') (s : Str) :
    findNextArgument o c 0 (',' :: s) = some ([], s) := by
  unfold findNextArgument
  simp [ho.symm, hc.symm]

theorem splitArgs_join {o c : Char} (hoc : o ≠ c) (ho : o ≠ ',') (hc : c ≠ ',') (mx n : Nat) (ts : List Str)
    (hne : ts ≠ []) (ht : ∀ t ∈ ts, ArgText o c t) (hmx : mx = 0 ∨ n + ts.length ≤ mx) :
    splitArgs o c mx n (joinArgs ts) = ts := by
  induction ts generalizing n with
  | nil => exact absurd rfl hne
  | cons a ts ih =>
    rw [splitArgs.eq_def]
    cases ts with
    | nil =>
      simp only [joinArgs]
      have : findNextArgument o c 0 a = none := by
        have := findNext_arg (ht a (by simp)) hoc ho hc []
        rw [List.append_nil] at this
        rw [this]; rfl
      split
      · rfl
      · split
        · rfl
        · rename_i h; rw [this] at h; cases h
    | cons b r =>
      have hf : findNextArgument o c 0 (joinArgs (a :: b :: r)) = some (a, joinArgs (b :: r)) := by
        simp only [joinArgs]
        rw [findNext_arg (ht a (by simp)) hoc ho hc, findNext_comma ho hc]
        simp
      have hih := ih (n + 1) (by simp) (fun t h => ht t (by simp [h]))
        (by simp only [List.length_cons] at hmx ⊢; omega)
      rw [if_neg (by simp only [List.length_cons] at hmx; omega)]
      split
      · rename_i h; rw [hf] at h; cases h
      · rename_i x y h
        rw [hf] at h
        simp only [Option.some.injEq, Prod.mk.injEq] at h
        rw [← h.1, ← h.2, hih]

theorem matched_append {o c : Char} {a b : Str} (ha : Matched o c a) (hb : Matched o c b) : Matched o c (a ++ b) := by
  induction ha with
  | nil => exact hb
  | char h1 h2 _ ih => exact .char h1 h2 ih
  | @nest s t h1 _ _ ih2 =>
    rw [show o :: s ++ c :: t ++ b = o :: s ++ c :: (t ++ b) by simp]
    exact .nest h1 ih2

theorem argText_matched {o c : Char} {a : Str} (h : ArgText o c a) : Matched o c a := by
  induction h with
  | nil => exact .nil
  | char h1 h2 _ _ ih => exact .char h1 h2 ih
  | nest h1 _ ih => exact .nest h1 ih

theorem joinArgs_matched {o c : Char} (ho : o ≠ ',') (hc : c ≠ ',') (ts : List Str)
    (ht : ∀ t ∈ ts, ArgText o c t) : Matched o c (joinArgs ts) := by
  induction ts with
  | nil => exact .nil
  | cons a ts ih =>
    have ih := ih fun t h => ht t (by simp [h])
    have ha := argText_matched (ht a (by simp))
    cases ts with
    | nil => exact ha
    | cons b r => exact matched_append ha (.char ho.symm hc.symm ih)

theorem lookupFunction_entry {e : FnEntry} (he : e ∈ fnTable) (r : Str) :
    lookupFunction (e.name ++ ' ' :: r) = some e := by
  have key : ∀ e ∈ fnTable, e.name ≠ [] ∧ (e.name.all isUserFunc = true) ∧ e.name.length < 256 ∧
      (fnTable.find? fun e' => e'.name == e.name) = some e := by decide
  obtain ⟨k1, k2, k3, k4⟩ := key e he
  have ht : (e.name ++ ' ' :: r).takeWhile isUserFunc = e.name := by
    rw [List.takeWhile_append_of_pos (by simpa using k2)]
    simp [show isUserFunc ' ' = false by decide]
  have hd : (e.name ++ ' ' :: r).dropWhile isUserFunc = ' ' :: r := by
    rw [List.dropWhile_append_of_pos (by simpa using k2)]
    simp [show isUserFunc ' ' = false by decide]
  simp only [lookupFunction, ht, hd]
  rw [if_neg k1, if_neg (by simp [show isSpace ' ' = true by decide]), Nat.mod_eq_of_lt k3, List.take_length]
  exact k4

theorem joinArgs_head (t : Str) (ts : List Str) (c : Char) (r : Str) (h : ∀ c, t.head? = some c → isSpace c = false)
    (hc : isSpace c = false) : nextToken (' ' :: joinArgs (t :: ts) ++ c :: r) = joinArgs (t :: ts) ++ c :: r := by
  have hd : ∀ (x : Char) (l : Str), isSpace x = false → nextToken (' ' :: x :: l) = x :: l := by
    intro x l hx
    simp [nextToken, show isSpace ' ' = true by decide, hx]
  cases t with
  | cons x t' =>
    have hx := h x rfl
    cases ts with
    | nil => exact hd x _ hx
    | cons b r => exact hd x _ hx
  | nil =>
    cases ts with
    | nil => exact hd c _ hc
    | cons b r => exact hd ',' _ (by decide)

/-- A function call is read as written. -/
theorem lex_fn {f : String} {e : FnEntry} (he : e ∈ fnTable) (hf : e.name = f.toList) {ts : List Str} (ht : ArgTexts ts)
    (hmx : e.max = 0 ∨ ts.length ≤ e.max) (r : Str) :
    lex (fnText f ts ++ r) = .ref (.func e ts) :: lex r := by
  obtain ⟨hne, htx, hhd⟩ := ht
  rw [show fnText f ts ++ r = '$' :: '(' :: (e.name ++ ' ' :: (joinArgs ts ++ ')' :: r)) by simp [fnText, hf],
    lex_ref (Or.inl rfl)]
  have : parseRef '(' (e.name ++ ' ' :: (joinArgs ts ++ ')' :: r)) = (.func e ts, r) := by
    simp only [parseRef, if_true]
    rw [lookupFunction_entry he]
    simp only
    rw [List.drop_left]
    cases ts with
    | nil => exact absurd rfl hne
    | cons t ts =>
      have := joinArgs_head t ts ')' r (hhd t rfl) (by decide)
      rw [List.cons_append] at this
      rw [this, findClose_end (joinArgs_matched (by decide) (by decide) _ htx) (by decide)]
      simp only
      rw [splitArgs_join (by decide) (by decide) (by decide) _ _ _ hne htx (by omega)]
  rw [this]

theorem expandArgs_all {rec : XState → Str → XRes Str} {ts vs : List Str} {st st' : XState}
    (h : ExpandAll rec ts st vs st') : expandArgs rec ts st = .ok vs st' := by
  induction h with
  | nil => rfl
  | cons h1 _ ih => simp [expandArgs, h1, XRes.bind, ih]

/-! ### The bindings of a call -/

theorem argName_inj {i j : Nat} (h : argName i = argName j) : i = j := by
  have := congrArg (fun s => Nat.ofDigitChars 10 s 0) h
  simpa [argName, Nat.ofDigitChars_ten_toDigits] using this

theorem argName_plain (i : Nat) : PlainName (argName i) := by
  refine ⟨Nat.toDigits_ne_nil, ?_⟩
  intro c hc
  have := Nat.isDigit_of_mem_toDigits (by omega) (by omega) hc
  refine ⟨?_, ?_, ?_, ?_, ?_⟩
  · rintro rfl; revert this; decide
  · rintro rfl; revert this; decide
  · rintro rfl; revert this; decide
  · rintro rfl; revert this; decide
  · cases hs : isSpace c with
    | false => rfl
    | true =>
      exfalso
      simp only [isSpace, isBlank, isNewlineClass, Bool.or_eq_true, beq_iff_eq] at hs
      rcases hs with (h | h) | (((h | h) | h) | h) <;> subst h <;> revert this <;> decide

/-- The simple variable of an argument. -/
def argVar (n value : Str) : Var :=
  { value := value, recursive := false, origin := .automatic, exportable := exportableName n }

theorem bindArgs_chain (i : Nat) (as : List Str) (st : XState) (s : VarSet) (nip : Bool) (rest : List (VarSet × Bool))
    (hc : st.chain = (s, nip) :: rest) :
    ∃ s', (bindArgs i as st) = { st with chain := (s', nip) :: rest } ∧
      (∀ j v, as[j]? = some v → s' (argName (i + j)) = some (argVar (argName (i + j)) v)) ∧
      ∀ n, (∀ j, j < as.length → n ≠ argName (i + j)) → s' n = s n := by
  induction as generalizing i st s with
  | nil =>
    refine ⟨s, ?_, by simp, fun _ _ => rfl⟩
    cases st; simp only at hc; subst hc; rfl
  | cons a as ih =>
    have h1 : (st.bindSimple (argName i) a) =
        { st with chain := (s.put (argName i) (some (argVar (argName i) a)), nip) :: rest } := by
      unfold XState.bindSimple
      rw [hc]; rfl
    obtain ⟨s', k1, k2, k3⟩ := ih (i + 1) (st.bindSimple (argName i) a) (s.put (argName i) (some (argVar (argName i) a)))
      (by rw [h1])
    refine ⟨s', ?_, ?_, ?_⟩
    · simp only [bindArgs, k1]; rw [h1]
    · intro j v hj
      cases j with
      | zero =>
        simp only [List.getElem?_cons_zero, Option.some.injEq] at hj
        subst hj
        rw [k3]
        · simp [VarSet.put]
        · intro j _ hcontra
          have := argName_inj hcontra
          omega
      | succ j =>
        simp only [List.getElem?_cons_succ] at hj
        have := k2 j v hj
        rw [show i + (j + 1) = i + 1 + j by omega]
        exact this
    · intro n hn
      rw [k3]
      · simp only [VarSet.put]
        rw [if_neg]
        have := hn 0 (by simp)
        simpa using this
      · intro j hj
        have := hn (j + 1) (by simp; omega)
        rw [show i + 1 + j = i + (j + 1) by omega]
        exact this

/-- A reference to a simple variable of the innermost scope. -/
theorem expand_simple (ext : List (VarSet × Bool) → Str → List Str → Option Str) (fuel : Nat) {st : XState} {n v : Str}
    (hn : PlainName n) (hl : ∃ i, lookupLoc false st.chain n = some (i, argVar n v)) :
    expand ext (fuel + 1) st (refTo n) = .ok v st := by
  obtain ⟨i, hl⟩ := hl
  simp only [expand]
  rw [show refTo n = refTo n ++ [] by simp, lex_refTo hn, lex_nil]
  simp only [evalToks, evalRef]
  rw [expandNamed_plain _ _ (fun c hc => (hn.2 c hc).2.2.2.1)]
  simp only [referenceVariable, hl]
  by_cases hv : v = []
  · subst hv
    rw [if_pos ⟨rfl, rfl⟩]
    rfl
  · rw [if_neg (by simp [argVar, hv]), if_neg (by simp [argVar])]
    simp [argVar, XRes.bind]

/-- The state in which the body is expanded. -/
def callState (st : XState) (id : Nat × Str) (vals : List Str) : XState :=
  { (bindArgs 0 (vals ++ List.replicate (st.maxArgs - vals.length) []) st.push).setCount id expCountMax with
    maxArgs := max vals.length st.maxArgs }

theorem callState_scope (ext : List (VarSet × Bool) → Str → List Str → Option Str) (st : XState) (id : Nat × Str)
    (vals : List Str) : CallScope ext st (callState st id vals) vals := by
  obtain ⟨s', h1, h2, h3⟩ := bindArgs_chain 0 (vals ++ List.replicate (st.maxArgs - vals.length) []) st.push .empty false
    st.chain rfl
  have hch : (callState st id vals).chain = (s', false) :: st.chain := by
    simp only [callState, XState.setCount, h1]
  have loc : ∀ n v, s' n = some (argVar n v) → ∃ i, lookupLoc false (callState st id vals).chain n = some (i, argVar n v) := by
    intro n v hv
    rw [hch]
    exact ⟨st.chain.length, by simp [lookupLoc, hv, argVar]⟩
  refine ⟨?_, ?_, ?_, rfl⟩
  · intro fuel i v hv
    refine expand_simple ext fuel (argName_plain i) (loc _ _ ?_)
    have := h2 i v (by rw [List.getElem?_append_left (by
      have := List.getElem?_eq_some_iff.mp hv; exact this.1)]; exact hv)
    simpa using this
  · intro fuel i hi hlt
    refine expand_simple ext fuel (argName_plain i) (loc _ _ ?_)
    have := h2 i [] (by
      rw [List.getElem?_append_right hi, List.getElem?_replicate]
      rw [if_pos (by omega)])
    simpa using this
  · intro n hn
    rw [hch]
    have hs : s' n = none := by
      rw [h3 n]
      · rfl
      · intro j hj
        simp only [List.length_append, List.length_replicate] at hj
        simpa using hn j (by omega)
    simp [lookupVariable, lookupGo, hs]

end Remake
