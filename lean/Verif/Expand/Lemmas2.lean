import Verif.Expand.Lemmas
/-!
# Lemmas about evaluation: concatenation, the buffer, what an expansion leaves unchanged
-/
set_option linter.unusedVariables false
set_option linter.unusedSimpArgs false
namespace Remake
open Spec

/-! ### Reading -/

theorem lex_nil : lex [] = [] := by rw [lex.eq_def]
theorem lex_char {c : Char} (h : c ≠ '$') (s : Str) : lex (c :: s) = .char c :: lex s := by
  rw [lex.eq_def]; simp [h]
theorem lex_dollar (s : Str) : lex ('$' :: '$' :: s) = .char '$' :: lex s := by
  rw [lex.eq_def]; simp
theorem lex_var {c : Char} (h1 : c ≠ '$') (h2 : c ≠ '(') (h3 : c ≠ '{') (s : Str) :
    lex ('$' :: c :: s) = .var c :: lex s := by
  rw [lex.eq_def]; simp [h1, h2, h3]
theorem lex_ref {c : Char} (h : c = '(' ∨ c = '{') (s : Str) :
    lex ('$' :: c :: s) = .ref (parseRef c s).1 :: lex (parseRef c s).2 := by
  rw [lex.eq_def]
  rcases h with rfl | rfl <;> simp

theorem lex_closed {a : Str} (h : Closed a) (b : Str) : lex (a ++ b) = lex a ++ lex b := by
  induction h with
  | nil => simp [lex_nil]
  | @char c s hc _ ih => rw [List.cons_append, lex_char hc, lex_char hc, ih]; rfl
  | @dollar s _ ih => rw [List.cons_append, List.cons_append, lex_dollar, lex_dollar, ih]; rfl
  | @var c s h1 h2 h3 _ ih =>
    rw [List.cons_append, List.cons_append, lex_var h1 h2 h3, lex_var h1 h2 h3, ih]; rfl
  | @paren b' s hb _ ih =>
    have h := parseRef_closed (Or.inl ⟨rfl, rfl⟩) hb (fun b hb r => isCall_lookup hb r)
    rw [show '$' :: '(' :: b' ++ ')' :: s ++ b = '$' :: '(' :: (b' ++ ')' :: (s ++ b)) by simp,
      show '$' :: '(' :: b' ++ ')' :: s = '$' :: '(' :: (b' ++ ')' :: s) by simp,
      lex_ref (Or.inl rfl), lex_ref (Or.inl rfl), h (s ++ b), h s, ih]
    rfl
  | @brace b' s hb _ ih =>
    have h := parseRef_closed (Or.inr ⟨rfl, rfl⟩) hb (fun b hb r => isCall_lookup hb r)
    rw [show '$' :: '{' :: b' ++ '}' :: s ++ b = '$' :: '{' :: (b' ++ '}' :: (s ++ b)) by simp,
      show '$' :: '{' :: b' ++ '}' :: s = '$' :: '{' :: (b' ++ '}' :: s) by simp,
      lex_ref (Or.inr rfl), lex_ref (Or.inr rfl), h (s ++ b), h s, ih]
    rfl

/-- A plain name is not taken for a function. -/
theorem lookupFunction_plain {n : Str} (h : PlainName n) (c : Char) (hc : isUserFunc c = false)
    (hs : isSpace c = false) (r : Str) : lookupFunction (n ++ c :: r) = none := by
  simp only [lookupFunction]
  split
  · rfl
  · split
    · rfl
    · rename_i h1 h2
      exfalso
      apply h2
      rw [drop_stop isUserFunc n c r hc]
      have hne := drop_stop_ne isUserFunc n c hc
      cases hd : (n ++ [c]).dropWhile isUserFunc with
      | nil => exact absurd hd hne
      | cons x xs =>
        refine ⟨by simp, ?_⟩
        have hx : x ∈ n ++ [c] := by
          have : x ∈ (n ++ [c]).dropWhile isUserFunc := by rw [hd]; simp
          exact (List.dropWhile_sublist _).mem this
        simp only [List.cons_append, List.head?_cons, Option.all_some]
        rcases List.mem_append.mp hx with hx | hx
        · exact (h.2 x hx).2.2.2.2
        · simp at hx; rw [hx]; exact hs

theorem parseRef_plain {n : Str} (h : PlainName n) (r : Str) : parseRef '(' (n ++ ')' :: r) = (.plain n, r) := by
  have hl := lookupFunction_plain h ')' (by decide) (by decide) r
  have hc : ∀ a ∈ n, decide (a ≠ ')') = true := fun a ha => by simpa using (h.2 a ha).2.1
  have ht : (n ++ ')' :: r).takeWhile (fun x => decide (x ≠ ')')) = n := by
    rw [List.takeWhile_append_of_pos hc]; simp
  have hd : (n ++ ')' :: r).dropWhile (fun x => decide (x ≠ ')')) = ')' :: r := by
    rw [List.dropWhile_append_of_pos hc]; simp
  simp only [parseRef, hl, if_true, ht, hd]
  rw [if_neg]
  intro hdol
  exact (h.2 _ hdol).1 rfl

theorem lex_refTo {n : Str} (h : PlainName n) (r : Str) : lex (refTo n ++ r) = .ref (.plain n) :: lex r := by
  rw [show refTo n ++ r = '$' :: '(' :: (n ++ ')' :: r) by simp [refTo], lex_ref (Or.inl rfl), parseRef_plain h]

theorem closed_refTo {n : Str} (h : PlainName n) : Closed (refTo n) := by
  have hm : Matched '(' ')' n := by
    have h2 := h.2
    clear h
    induction n with
    | nil => exact .nil
    | cons x n ih =>
      exact .char (h2 x (by simp)).2.2.1 (h2 x (by simp)).2.1 (ih (fun c hc => h2 c (by simp [hc])))
  rw [show refTo n = '$' :: '(' :: n ++ ')' :: [] by simp [refTo]]
  exact .paren ⟨hm, Or.inl fun hc => (h.2 _ hc).2.1 rfl⟩ .nil

theorem expandNamed_plain (rec : XState → Str → XRes Str) (st : XState) {n : Str} (h : ∀ c ∈ n, c ≠ ':') :
    expandNamed rec st n = referenceVariable rec st n := by
  simp only [expandNamed]
  have : n.dropWhile (fun x => decide (x ≠ ':')) = [] := by
    have h' := h
    clear h
    induction n with
    | nil => rfl
    | cons x n ih =>
      rw [List.dropWhile_cons, if_pos (by simpa using h' x (by simp))]
      exact ih (fun c hc => h' c (by simp [hc]))
  rw [this]

/-! ### Concatenation -/

theorem XRes.bind_assoc {α β γ} (r : XRes α) (f : α → XState → XRes β) (g : β → XState → XRes γ) :
    (r.bind f).bind g = r.bind fun a st => (f a st).bind g := by
  cases r <;> rfl

theorem XRes.bind_ok {α} (r : XRes α) : r.bind (fun a st => .ok a st) = r := by cases r <;> rfl

theorem XRes.ok_bind {α β} (a : α) (st : XState) (k : α → XState → XRes β) :
    (XRes.ok a st).bind k = k a st := rfl

variable (ext : List (VarSet × Bool) → Str → List Str → Option Str) (rec : XState → Str → XRes Str)

theorem evalToks_append (a b : List Tok) (st : XState) :
    evalToks ext rec (a ++ b) st = (evalToks ext rec a st).bind fun x st =>
      (evalToks ext rec b st).bind fun y st => .ok (x ++ y) st := by
  induction a generalizing st with
  | nil => simp [evalToks, XRes.ok_bind, XRes.bind_ok]
  | cons t a ih =>
    cases t with
    | char c => simp only [List.cons_append, evalToks, ih, XRes.bind_assoc, XRes.ok_bind]
    | var c => simp only [List.cons_append, evalToks, ih, XRes.bind_assoc, XRes.ok_bind, List.append_assoc]
    | ref r => simp only [List.cons_append, evalToks, ih, XRes.bind_assoc, XRes.ok_bind, List.append_assoc]

theorem lex_literal {s : Str} (h : '$' ∉ s) : lex s = s.map .char := by
  induction s with
  | nil => simp [lex_nil]
  | cons c s ih =>
    rw [lex_char (by rintro rfl; simp at h), ih (fun hc => h (by simp [hc]))]; rfl

theorem evalToks_chars (s : Str) (st : XState) : evalToks ext rec (s.map .char) st = .ok s st := by
  induction s with
  | nil => rfl
  | cons c s ih => simp [evalToks, ih, XRes.bind]

/-! ### The buffer -/

theorem memcpyAt_take {mem s m : Str} {pos : Nat} (h : memcpyAt mem pos s = some m) :
    m.take (pos + s.length) = mem.take pos ++ s ∧ m.length = mem.length := by
  simp only [memcpyAt] at h
  split at h
  · rename_i hl
    simp only [Option.some.injEq] at h
    subst h
    have ht : (mem.take pos).length = pos := by rw [List.length_take]; omega
    constructor
    · have : (mem.take pos ++ s).length = pos + s.length := by simp [ht]
      rw [← this, List.take_left]
    · simp only [List.length_append, ht, List.length_drop]; omega
  · simp at h

/-- The buffer holds a text. -/
def holds (b : Buf) (s : Str) : Prop :=
  b.pos + bufferZone ≤ b.mem.length ∧ b.mem.take b.pos = s

theorem bufferOutput_holds {b : Buf} {t : Str} (fill : Char) (h : holds b t) (s : Str) :
    ∃ b', bufferOutput fill b s = some b' ∧ holds b' (t ++ s) := by
  obtain ⟨hz, ht⟩ := h
  have grow : ∀ mem : Str, s.length + b.pos + bufferZone ≤ mem.length → mem.take b.pos = t →
      ∃ b', (memcpyAt mem b.pos s).map (fun mem => (⟨mem, b.pos + s.length⟩ : Buf)) = some b' ∧ holds b' (t ++ s) := by
    intro mem hl htk
    have : ∃ m, memcpyAt mem b.pos s = some m := by
      simp only [memcpyAt]
      rw [if_pos (by omega)]
      exact ⟨_, rfl⟩
    obtain ⟨m, hm⟩ := this
    obtain ⟨h1, h2⟩ := memcpyAt_take hm
    refine ⟨⟨m, b.pos + s.length⟩, by rw [hm]; rfl, ?_, ?_⟩
    · simp only [h2]; omega
    · simp only [h1, htk]
  simp only [bufferOutput]
  apply grow
  · split
    · rw [List.length_append, List.length_replicate]
      unfold bufferZone at *
      split <;> omega
    · omega
  · split
    · rw [List.take_append_of_le_length (by omega)]; exact ht
    · exact ht

theorem back_holds {b : Buf} {t : Str} (h : holds b t) : holds { b with pos := b.pos - 1 } t.dropLast := by
  obtain ⟨hz, rfl⟩ := h
  refine ⟨by simp only; omega, ?_⟩
  simp only
  rw [List.dropLast_eq_take, List.length_take, List.take_take]
  congr 1
  unfold bufferZone at hz
  omega

theorem bufferInit_holds (fill : Char) : holds (bufferInit fill) [] := by
  refine ⟨?_, rfl⟩
  show 0 + 5 ≤ ('\x00' :: List.replicate 199 fill).length
  rw [List.length_cons, List.length_replicate]
  omega

theorem run_holds (fill : Char) (op : BufOp) {b : Buf} {t : Str} (h : holds b t) :
    ∃ b', op.run fill b = some b' ∧ holds b' (op.text t) := by
  cases op with
  | out s => exact bufferOutput_holds fill h s
  | back => exact ⟨_, rfl, back_holds h⟩

theorem runAll_holds (fill : Char) (ops : List BufOp) {b : Buf} {t : Str} (h : holds b t) :
    ∃ b', BufOp.runAll fill ops b = some b' ∧ holds b' (ops.foldl BufOp.text t) := by
  induction ops generalizing b t with
  | nil => exact ⟨b, rfl, h⟩
  | cons op ops ih =>
    obtain ⟨b', h1, h2⟩ := run_holds fill op h
    obtain ⟨b'', h3, h4⟩ := ih h2
    exact ⟨b'', by simp [BufOp.runAll, h1, h3], h4⟩

/-! ### What an expansion leaves unchanged -/

/-- The scopes and the number of arguments in force. -/
def Same (st st' : XState) : Prop := st'.chain = st.chain ∧ st'.maxArgs = st.maxArgs

/-- The result, if there is one, has the same scopes. -/
def Keeps {α} (r : XRes α) (st : XState) : Prop := ∀ a st', r = .ok a st' → Same st st'

theorem Same.refl (st : XState) : Same st st := ⟨rfl, rfl⟩
theorem Same.trans {a b c : XState} (h1 : Same a b) (h2 : Same b c) : Same a c :=
  ⟨h2.1.trans h1.1, h2.2.trans h1.2⟩
theorem Same.symm {a b : XState} (h : Same a b) : Same b a := ⟨h.1.symm, h.2.symm⟩

theorem keeps_ok {α} (a : α) {st st' : XState} (h : Same st st') : Keeps (.ok a st') st := by
  rintro _ _ ⟨⟩; exact h
theorem keeps_fatal {α} (st : XState) : Keeps (.fatal : XRes α) st := by rintro _ _ ⟨⟩
theorem keeps_deep {α} (st : XState) : Keeps (.deep : XRes α) st := by rintro _ _ ⟨⟩
theorem Keeps.of_same {α} {r : XRes α} {st st' : XState} (h : Keeps r st') (hs : Same st st') : Keeps r st :=
  fun a s e => hs.trans (h a s e)
theorem keeps_bind {α β} {r : XRes α} {k : α → XState → XRes β} {st : XState} (h : Keeps r st)
    (hk : ∀ a st', r = .ok a st' → Same st st' → Keeps (k a st') st) : Keeps (r.bind k) st := by
  cases r with
  | ok a st' => exact hk a st' rfl (h a st' rfl)
  | fatal => exact keeps_fatal st
  | deep => exact keeps_deep st

/-- Every expansion of a text keeps the scopes. -/
def KeepsAll : Prop := ∀ st s, Keeps (rec st s) st

variable {rec} (hrec : KeepsAll rec)
include hrec

theorem appendParts_keeps (buf : Str) (vs : List Var) (st : XState) : Keeps (appendParts rec buf vs st) st := by
  induction vs generalizing buf st with
  | nil => exact keeps_ok _ (.refl _)
  | cons v vs ih =>
    simp only [appendParts]
    generalize (if buf = [] then buf else buf ++ [' ']) = buf
    split
    · exact keeps_bind (hrec _ _) fun a st' _ hs => (ih _ _).of_same hs
    · exact ih _ _

theorem recursivelyExpand_keeps (st : XState) (id : Nat × Str) (v : Var) :
    Keeps (recursivelyExpand rec st id v) st := by
  simp only [recursivelyExpand]
  split
  · exact keeps_fatal _
  · generalize hst : XState.mark (if st.expanding id = true then st.setCount id (st.count id - 1) else st) id true = st1
    have hs : Same st st1 := by
      subst hst; split <;> exact ⟨rfl, rfl⟩
    refine keeps_bind ?_ fun a st' _ h => keeps_ok _ ⟨h.1, h.2⟩
    split
    · exact (appendParts_keeps hrec _ _ _).of_same hs
    · exact (hrec _ _).of_same hs

theorem referenceVariable_keeps (st : XState) (n : Str) : Keeps (referenceVariable rec st n) st := by
  simp only [referenceVariable]
  split
  · exact keeps_ok _ (.refl _)
  · split
    · exact keeps_ok _ (.refl _)
    · split
      · exact recursivelyExpand_keeps hrec _ _ _
      · exact keeps_ok _ (.refl _)

theorem expandNamed_keeps (st : XState) (n : Str) : Keeps (expandNamed rec st n) st := by
  simp only [expandNamed]
  split
  · exact referenceVariable_keeps hrec _ _
  · split
    · exact referenceVariable_keeps hrec _ _
    · split
      · exact keeps_ok _ (.refl _)
      · split
        · exact keeps_ok _ (.refl _)
        · refine keeps_bind ?_ fun a st' _ h => keeps_ok _ h
          split
          · exact recursivelyExpand_keeps hrec _ _ _
          · exact keeps_ok _ (.refl _)

theorem expandArgs_keeps (as : List Str) (st : XState) : Keeps (expandArgs rec as st) st := by
  induction as generalizing st with
  | nil => exact keeps_ok _ (.refl _)
  | cons a as ih =>
    exact keeps_bind (hrec _ _) fun v st' _ h => (keeps_bind (ih st') fun vs st'' _ h' => keeps_ok _ h').of_same h

theorem funcOrX_keeps (as : List Str) (st : XState) : Keeps (funcOrX rec as st) st := by
  induction as generalizing st with
  | nil => exact keeps_ok _ (.refl _)
  | cons a as ih =>
    simp only [funcOrX]
    split
    · exact ih _
    · refine keeps_bind (hrec _ _) fun v st' _ h => ?_
      split
      · exact (ih _).of_same h
      · exact keeps_ok _ h

theorem funcAndX_keeps (as : List Str) (st : XState) : Keeps (funcAndX rec as st) st := by
  induction as generalizing st with
  | nil => exact keeps_ok _ (.refl _)
  | cons a as ih =>
    simp only [funcAndX]
    split
    · exact keeps_ok _ (.refl _)
    · refine keeps_bind (hrec _ _) fun v st' _ h => ?_
      split
      · exact keeps_ok _ h
      · split
        · exact keeps_ok _ h
        · exact (ih _).of_same h

theorem funcIfX_keeps (as : List Str) (st : XState) : Keeps (funcIfX rec as st) st := by
  cases as with
  | nil => exact keeps_ok _ (.refl _)
  | cons a as =>
    simp only [funcIfX]
    refine keeps_bind (st := st) ?_ fun out st' _ h => ?_
    · split
      · exact keeps_ok _ (.refl _)
      · exact hrec _ _
    · split
      · exact (hrec _ _).of_same h
      · exact keeps_ok _ h

omit hrec in
theorem bindSimple_tail (st : XState) (n v : Str) :
    (st.bindSimple n v).chain.tail = st.chain.tail ∧ (st.bindSimple n v).maxArgs = st.maxArgs := by
  unfold XState.bindSimple
  split <;> simp_all

theorem foreachGo_tail (var body : Str) (ws : List Str) (st : XState) (out : Str) (st' : XState)
    (h : foreachGo rec var body ws st = .ok out st') :
    st'.chain.tail = st.chain.tail ∧ st'.maxArgs = st.maxArgs := by
  induction ws generalizing st out st' with
  | nil => cases h; exact ⟨rfl, rfl⟩
  | cons w ws ih =>
    simp only [foreachGo] at h
    cases h1 : rec (st.bindSimple var w) body with
    | fatal => rw [h1] at h; cases h
    | deep => rw [h1] at h; cases h
    | ok a s1 =>
      rw [h1] at h
      simp only [XRes.bind] at h
      cases h2 : foreachGo rec var body ws s1 with
      | fatal => rw [h2] at h; cases h
      | deep => rw [h2] at h; cases h
      | ok b s2 =>
        rw [h2] at h
        simp only [XRes.bind] at h
        cases h
        have k1 := hrec _ _ _ _ h1
        have k2 := ih _ _ _ h2
        have k3 := bindSimple_tail st var w
        exact ⟨by rw [k2.1, k1.1, k3.1], by rw [k2.2, k1.2, k3.2]⟩

theorem funcForeach_keeps (as : List Str) (st : XState) : Keeps (funcForeach rec as st) st := by
  unfold funcForeach
  split
  · rename_i name list body _
    refine keeps_bind (hrec _ _) fun name' st1 _ h1 => ?_
    refine (keeps_bind (hrec st1 _) fun list' st2 _ h2 => ?_).of_same h1
    intro a st' hr
    dsimp only at hr
    cases hf : foreachGo rec (tokenPrefix (nextToken name')) body (tokens list') (st2.push.bindSimple (tokenPrefix (nextToken name')) []) with
    | fatal => rw [hf] at hr; cases hr
    | deep => rw [hf] at hr; cases hr
    | ok out st3 =>
      rw [hf] at hr
      simp only [XRes.bind] at hr
      cases hr
      have k := foreachGo_tail hrec _ _ _ _ _ _ hf
      have k3 := bindSimple_tail st2.push (tokenPrefix (nextToken name')) []
      refine Same.trans h2 ⟨?_, ?_⟩
      · show st3.chain.tail = _
        rw [k.1, k3.1]; rfl
      · show st3.maxArgs = _
        rw [k.2, k3.2]; rfl
  · exact keeps_ok _ (.refl _)

omit hrec in
theorem bindArgs_tail (i : Nat) (as : List Str) (st : XState) :
    (bindArgs i as st).chain.tail = st.chain.tail ∧ (bindArgs i as st).maxArgs = st.maxArgs := by
  induction as generalizing i st with
  | nil => exact ⟨rfl, rfl⟩
  | cons a as ih =>
    have h1 := ih (i + 1) (st.bindSimple (argName i) a)
    have h2 := bindSimple_tail st (argName i) a
    exact ⟨by simp only [bindArgs]; rw [h1.1, h2.1], by simp only [bindArgs]; rw [h1.2, h2.2]⟩

theorem callUser_keeps (fname : Str) (args : List Str) (st : XState) : Keeps (callUser rec fname args st) st := by
  simp only [callUser]
  split
  · exact keeps_ok _ (.refl _)
  · rename_i i v hl
    split
    · exact keeps_ok _ (.refl _)
    · intro a st' hr
      generalize hst : ({ (bindArgs 0 (args ++ List.replicate (st.maxArgs - args.length) []) st.push).setCount (i, fname) expCountMax with
          maxArgs := max args.length st.maxArgs } : XState) = st1 at hr
      cases hf : rec st1 ('$' :: '(' :: fname ++ [')']) with
      | fatal => rw [hf] at hr; cases hr
      | deep => rw [hf] at hr; cases hr
      | ok out st2 =>
        rw [hf] at hr
        simp only [XRes.bind] at hr
        cases hr
        have k := hrec _ _ _ _ hf
        refine ⟨?_, rfl⟩
        show st2.chain.tail = st.chain
        rw [k.1, ← hst]
        exact (bindArgs_tail 0 _ st.push).1

theorem applyFn_keeps (e : FnEntry) (as : List Str) (st : XState) : Keeps (applyFn ext rec e as st) st := by
  induction as generalizing e st with
  | nil =>
    simp only [applyFn]
    split
    · exact keeps_fatal _
    · exact keeps_ok _ (.refl _)
  | cons a as ih =>
    simp only [applyFn]
    split
    · exact keeps_fatal _
    · split
      · exact funcForeach_keeps hrec _ _
      · exact funcIfX_keeps hrec _ _
      · exact funcOrX_keeps hrec _ _
      · exact funcAndX_keeps hrec _ _
      · exact keeps_ok _ (.refl _)
      · split
        · exact keeps_ok _ (.refl _)
        · exact keeps_fatal _
      · split
        · exact keeps_ok _ (.refl _)
        · split
          · exact ih _ _
          · exact callUser_keeps hrec _ _ _

theorem evalRef_keeps (st : XState) (r : Ref) : Keeps (evalRef ext rec st r) st := by
  cases r with
  | unterminated => exact keeps_fatal _
  | plain n => exact expandNamed_keeps hrec _ _
  | computed t => exact keeps_bind (hrec _ _) fun n st' _ h => (expandNamed_keeps hrec _ _).of_same h
  | func e args =>
    simp only [evalRef]
    split
    · exact keeps_bind (expandArgs_keeps hrec _ _) fun n st' _ h => (applyFn_keeps ext hrec _ _ _).of_same h
    · exact applyFn_keeps ext hrec _ _ _

theorem evalToks_keeps (ts : List Tok) (st : XState) : Keeps (evalToks ext rec ts st) st := by
  induction ts generalizing st with
  | nil => exact keeps_ok _ (.refl _)
  | cons t ts ih =>
    cases t with
    | char c => exact keeps_bind (ih _) fun _ _ _ h => keeps_ok _ h
    | var c =>
      exact keeps_bind (referenceVariable_keeps hrec _ _) fun _ st' _ h =>
        (keeps_bind (ih st') fun _ _ _ h' => keeps_ok _ h').of_same h
    | ref r =>
      exact keeps_bind (evalRef_keeps ext hrec _ _) fun _ st' _ h =>
        (keeps_bind (ih st') fun _ _ _ h' => keeps_ok _ h').of_same h

omit hrec in
theorem expand_keeps (fuel : Nat) : KeepsAll (expand ext fuel) := by
  induction fuel with
  | zero => intro st s; exact keeps_deep _
  | succ n ih => intro st s; exact evalToks_keeps ext ih _ _

end Remake
