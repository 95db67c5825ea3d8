import Verif.Expand.Lemmas3
/-!
# Lemmas about termination
-/
set_option linter.unusedVariables false
set_option linter.unusedSimpArgs false
namespace Remake
open Spec

/-! ### The pieces of a text -/

theorem findClose_parts {o c : Char} {n : Nat} {s a b : Str} (h : findClose o c n s = some (a, b)) :
    s = a ++ c :: b := by
  induction s generalizing n a b with
  | nil => simp [findClose] at h
  | cons x s ih =>
    have step : ∀ m, (findClose o c m s).map (fun r => (x :: r.1, r.2)) = some (a, b) → x :: s = a ++ c :: b := by
      intro m hm
      cases hf : findClose o c m s with
      | none => rw [hf] at hm; simp at hm
      | some r =>
        rw [hf] at hm
        simp only [Option.map_some, Option.some.injEq, Prod.mk.injEq] at hm
        obtain ⟨rfl, rfl⟩ := hm
        rw [ih (a := r.1) (b := r.2) hf]; rfl
    simp only [findClose] at h
    split at h
    · rename_i hx
      cases n with
      | zero =>
        simp only [Option.some.injEq, Prod.mk.injEq] at h
        obtain ⟨rfl, rfl⟩ := h
        rw [hx]; rfl
      | succ n => exact step _ h
    · split at h
      · exact step _ h
      · exact step _ h

theorem findNextArgument_parts {o c : Char} {n : Nat} {s a b : Str}
    (h : findNextArgument o c n s = some (a, b)) : s = a ++ ',' :: b := by
  induction s generalizing n a b with
  | nil => simp [findNextArgument] at h
  | cons x s ih =>
    have step : ∀ m, (findNextArgument o c m s).map (fun r => (x :: r.1, r.2)) = some (a, b) →
        x :: s = a ++ ',' :: b := by
      intro m hm
      cases hf : findNextArgument o c m s with
      | none => rw [hf] at hm; simp at hm
      | some r =>
        rw [hf] at hm
        simp only [Option.map_some, Option.some.injEq, Prod.mk.injEq] at hm
        obtain ⟨rfl, rfl⟩ := hm
        rw [ih (a := r.1) (b := r.2) hf]; rfl
    simp only [findNextArgument] at h
    split at h
    · exact step _ h
    · split at h
      · cases n with
        | zero => simp at h
        | succ n => exact step _ h
      · split at h
        · rename_i hx
          simp only [Option.some.injEq, Prod.mk.injEq] at h
          obtain ⟨rfl, rfl⟩ := h
          rw [hx.1]; rfl
        · exact step _ h

theorem splitArgs_infix (o c : Char) (mx n : Nat) (s : Str) : ∀ a ∈ splitArgs o c mx n s, a <:+: s := by
  induction hl : s.length using Nat.strongRecOn generalizing s n with
  | ind k ih =>
    intro a ha
    rw [splitArgs.eq_def] at ha
    split at ha
    · simp at ha; rw [ha]; exact List.infix_refl _
    · split at ha
      · simp at ha; rw [ha]; exact List.infix_refl _
      · rename_i x r hf
        have hp := findNextArgument_parts hf
        have hlen := findNextArgument_length hf
        rcases List.mem_cons.mp ha with rfl | ha
        · rw [hp]; exact (List.prefix_append _ _).isInfix
        · have := ih r.length (by omega) (n + 1) r rfl a ha
          refine this.trans ?_
          rw [hp]
          exact ((List.suffix_cons _ _).trans (List.suffix_append _ _)).isInfix

/-- The texts in a piece that will be expanded are parts of the text, and shorter. -/
def TokIn (s : Str) : Tok → Prop
  | .ref (.computed x) => x <:+: s ∧ x.length < s.length
  | .ref (.func e args) =>
    e ∈ fnTable ∧ e.name <:+: s ∧ ∀ a ∈ args, a <:+: s ∧ a.length < s.length
  | _ => True

theorem TokIn.grow {s s' : Str} {t : Tok} (h : TokIn s t) (hi : s <:+: s') : TokIn s' t := by
  have hl := hi.length_le
  cases t with
  | char => trivial
  | var => trivial
  | ref r =>
    cases r with
    | plain => trivial
    | unterminated => trivial
    | computed x => exact ⟨h.1.trans hi, by have := h.2; omega⟩
    | func e args =>
      exact ⟨h.1, h.2.1.trans hi, fun a ha => ⟨(h.2.2 a ha).1.trans hi, by have := (h.2.2 a ha).2; omega⟩⟩

theorem parseRef_in (o : Char) (s : Str) :
    TokIn ('$' :: o :: s) (.ref (parseRef o s).1) ∧ (parseRef o s).2 <:+ s := by
  simp only [parseRef]
  generalize (if o = '(' then ')' else '}') = cls
  split
  · rename_i e he
    obtain ⟨hm, hpre, _⟩ := lookupFunction_name he
    split
    · exact ⟨trivial, List.nil_suffix⟩
    · rename_i body rest hf
      have hp := findClose_parts hf
      have hsuf : nextToken (s.drop e.name.length) <:+ s :=
        (List.dropWhile_suffix _).trans (List.drop_suffix _ _)
      rw [hp] at hsuf
      have hs2 : s <:+: '$' :: o :: s := ((List.suffix_cons _ _).trans (List.suffix_cons _ _)).isInfix
      refine ⟨⟨hm, hpre.isInfix.trans hs2, ?_⟩, ?_⟩
      · intro a ha
        have h1 := splitArgs_infix _ _ _ _ _ a ha
        have h2 : body <:+: s := (List.prefix_append _ _).isInfix.trans hsuf.isInfix
        have h3 := h1.trans h2
        refine ⟨h3.trans hs2, ?_⟩
        have := h3.length_le
        simp only [List.length_cons]; omega
      · exact ((List.suffix_cons _ _).trans (List.suffix_append _ _)).trans hsuf
  · split
    · exact ⟨trivial, List.nil_suffix⟩
    · rename_i x rest hr
      split
      · split
        · rename_i full rest' hf
          have hp := findClose_parts hf
          have hs2 : s <:+: '$' :: o :: s := ((List.suffix_cons _ _).trans (List.suffix_cons _ _)).isInfix
          have hfs : full <:+: s := by
            conv => rhs; rw [hp]
            exact (List.prefix_append _ _).isInfix
          refine ⟨⟨hfs.trans hs2, ?_⟩, ?_⟩
          · have := hfs.length_le
            simp only [List.length_cons]; omega
          · conv => rhs; rw [hp]
            exact (List.suffix_cons _ _).trans (List.suffix_append _ _)
        · exact ⟨trivial, List.nil_suffix⟩
      · refine ⟨trivial, ?_⟩
        have : x :: rest <:+ s := by rw [← hr]; exact List.dropWhile_suffix _
        exact (List.suffix_cons _ _).trans this

theorem lex_in (s : Str) : ∀ t ∈ lex s, TokIn s t := by
  induction hl : s.length using Nat.strongRecOn generalizing s with
  | ind k ih =>
    intro t ht
    rw [lex.eq_def] at ht
    split at ht
    · simp at ht
    · rename_i c r
      split at ht
      · split at ht
        · simp at ht; subst ht; trivial
        · rename_i d r'
          split at ht
          · rcases List.mem_cons.mp ht with rfl | ht
            · trivial
            · exact (ih r'.length (by simp at hl; omega) r' rfl t ht).grow
                ((List.suffix_cons _ _).trans (List.suffix_cons _ _)).isInfix
          · split at ht
            · have hcd : c = '$' := by assumption
              obtain ⟨h1, h2⟩ := parseRef_in d r'
              rcases List.mem_cons.mp ht with rfl | ht
              · rw [hcd]; exact h1
              · have hlen := h2.length_le
                exact (ih _ (by simp at hl; omega) _ rfl t ht).grow
                  ((h2.trans (List.suffix_cons _ _)).trans (List.suffix_cons _ _)).isInfix
            · rcases List.mem_cons.mp ht with rfl | ht
              · trivial
              · exact (ih r'.length (by simp at hl; omega) r' rfl t ht).grow
                  ((List.suffix_cons _ _).trans (List.suffix_cons _ _)).isInfix
      · rcases List.mem_cons.mp ht with rfl | ht
        · trivial
        · exact (ih r.length (by simp at hl; omega) r rfl t ht).grow (List.suffix_cons _ _).isInfix

theorem strip_infix (a : Str) : stripWhitespace a <:+: a := by
  have h1 : a.dropWhile isSpace <:+ a := List.dropWhile_suffix _
  have h2 : ((a.dropWhile isSpace).reverse.dropWhile isSpace).reverse <+: a.dropWhile isSpace := by
    have := List.dropWhile_suffix isSpace (l := (a.dropWhile isSpace).reverse)
    rw [← List.reverse_prefix] at this
    simpa using this
  exact h2.isInfix.trans h1.isInfix

theorem noCall_infix {a b : Str} (h : NoCall b) (hi : a <:+: b) : NoCall a := fun hc => h (hc.trans hi)

/-! ### Termination -/

/-- The outcome is reached and the state is as before. -/
def Done {α} (r : XRes α) (st : XState) : Prop := r ≠ .deep ∧ ∀ a st', r = .ok a st' → st' = st

theorem done_ok {α} (a : α) (st : XState) : Done (.ok a st) st := ⟨by simp, by rintro _ _ ⟨⟩; rfl⟩
theorem done_fatal {α} (st : XState) : Done (.fatal : XRes α) st := ⟨by simp, by rintro _ _ ⟨⟩⟩
theorem done_bind {α β} {r : XRes α} {k : α → XState → XRes β} {st : XState} (h : Done r st)
    (hk : ∀ a, r = .ok a st → Done (k a st) st) : Done (r.bind k) st := by
  cases r with
  | ok a st' => have := h.2 a st' rfl; subst this; exact hk a rfl
  | fatal => exact done_fatal st
  | deep => exact absurd rfl h.1

/-- What is known of the variables outside the scopes of the expansion: those to be
expanded are among `ids`, their values at most `M` long and without `call`. -/
def Base (ids : List (Nat × Str)) (M : Nat) (base : List (VarSet × Bool)) : Prop :=
  ∀ pre s nip post n v, base = pre ++ (s, nip) :: post → s n = some v → v.recursive = true →
    (post.length, n) ∈ ids ∧ v.value.length ≤ M ∧ NoCall v.value

/-- The scopes of the expansion itself hold simple variables only. -/
def Plain (extra : List (VarSet × Bool)) : Prop :=
  ∀ x ∈ extra, ∀ n v, x.1 n = some v → v.recursive = false ∧ v.append = false

/-- The states in which texts are expanded. -/
def Good (base : List (VarSet × Bool)) (st : XState) : Prop :=
  (∃ extra, st.chain = extra ++ base ∧ Plain extra) ∧ ∀ id, st.count id = 0

/-- The variables that are not being expanded. -/
def free (ids : List (Nat × Str)) (st : XState) : Nat := ids.countP fun id => !st.expanding id

theorem lookupLoc_split {b : Bool} {chain : List (VarSet × Bool)} {n : Str} {i : Nat} {v : Var}
    (h : lookupLoc b chain n = some (i, v)) :
    ∃ pre s nip post, chain = pre ++ (s, nip) :: post ∧ s n = some v ∧ i = post.length := by
  induction chain generalizing b with
  | nil => simp [lookupLoc] at h
  | cons x rest ih =>
    obtain ⟨s, nip⟩ := x
    have step : ∀ b, lookupLoc b rest n = some (i, v) →
        ∃ pre s' nip' post, (s, nip) :: rest = pre ++ (s', nip') :: post ∧ s' n = some v ∧ i = post.length := by
      intro b hb
      obtain ⟨pre, s', nip', post, h1, h2⟩ := ih hb
      exact ⟨(s, nip) :: pre, s', nip', post, by rw [h1]; rfl, h2⟩
    simp only [lookupLoc] at h
    cases hs : s n with
    | none => rw [hs] at h; exact step _ h
    | some w =>
      rw [hs] at h
      simp only at h
      split at h
      · simp only [Option.some.injEq, Prod.mk.injEq] at h
        obtain ⟨rfl, rfl⟩ := h
        exact ⟨[], s, nip, rest, rfl, hs, rfl⟩
      · exact step _ h

theorem variableAppend_split {chain : List (VarSet × Bool)} {n : Str} {b : Bool} {v : Var}
    (h : v ∈ variableAppend chain n b) :
    ∃ pre s nip post, chain = pre ++ (s, nip) :: post ∧ s n = some v := by
  induction chain generalizing b with
  | nil => simp [variableAppend] at h
  | cons x rest ih =>
    obtain ⟨s, nip⟩ := x
    have step : ∀ b, v ∈ variableAppend rest n b →
        ∃ pre s' nip' post, (s, nip) :: rest = pre ++ (s', nip') :: post ∧ s' n = some v := by
      intro b hb
      obtain ⟨pre, s', nip', post, h1, h2⟩ := ih hb
      exact ⟨(s, nip) :: pre, s', nip', post, by rw [h1]; rfl, h2⟩
    simp only [variableAppend] at h
    cases hs : s n with
    | none => rw [hs] at h; exact step _ h
    | some w =>
      rw [hs] at h
      simp only at h
      split at h
      · exact step _ h
      · split at h
        · rcases List.mem_append.mp h with h | h
          · exact step _ h
          · simp at h; subst h; exact ⟨[], s, nip, rest, rfl, hs⟩
        · simp at h; subst h; exact ⟨[], s, nip, rest, rfl, hs⟩

section
variable {ids : List (Nat × Str)} {M : Nat} {base : List (VarSet × Bool)} (hb : Base ids M base)
include hb

/-- A variable to be expanded is one of those outside. -/
theorem good_split {st : XState} (hg : Good base st) {pre : List (VarSet × Bool)} {s : VarSet} {nip : Bool}
    {post : List (VarSet × Bool)} {n : Str} {v : Var} (h : st.chain = pre ++ (s, nip) :: post)
    (hs : s n = some v) (hv : v.recursive = true) :
    (post.length, n) ∈ ids ∧ v.value.length ≤ M ∧ NoCall v.value := by
  obtain ⟨⟨extra, he, hp⟩, _⟩ := hg
  rw [he] at h
  rcases List.append_eq_append_iff.mp h with ⟨x, h1, h2⟩ | ⟨x, h1, h2⟩
  · exact hb x s nip post n v h2 hs hv
  · cases x with
    | nil =>
      simp only [List.nil_append] at h2
      exact hb [] s nip post n v h2.symm hs hv
    | cons y ys =>
      simp only [List.cons_append, List.cons.injEq] at h2
      have := (hp (s, nip) (by rw [h1, ← h2.1]; simp) n v hs).1
      rw [hv] at this; cases this
end

theorem free_mark {ids : List (Nat × Str)} {st : XState} {id : Nat × Str} (hid : id ∈ ids)
    (h : st.expanding id = false) : free ids (st.mark id true) < free ids st := by
  unfold free
  have hle : ∀ l : List (Nat × Str), l.countP (fun i => !(st.mark id true).expanding i) ≤
      l.countP fun i => !st.expanding i := by
    intro l
    apply List.countP_mono_left
    intro x _ hx
    simp only [XState.mark] at hx
    split at hx
    · simp at hx
    · exact hx
  obtain ⟨a, b, rfl⟩ := List.append_of_mem hid
  rw [List.countP_append, List.countP_append, List.countP_cons, List.countP_cons]
  have h1 := hle a
  have h2 := hle b
  have h3 : (!(st.mark id true).expanding id) = false := by simp [XState.mark]
  rw [h3, h]
  simp only [Bool.not_false, if_true]
  simp only [Bool.false_eq_true, if_false]
  omega

theorem mark_mark (st : XState) (id : Nat × Str) (h : st.expanding id = false) :
    (st.mark id true).mark id false = st := by
  obtain ⟨c, m, e, k⟩ := st
  simp only [XState.mark, XState.mk.injEq, true_and, and_true]
  funext i
  by_cases hi : i = id
  · subst hi; simp only [if_true]; exact h.symm
  · simp [hi]

theorem good_mark {base : List (VarSet × Bool)} {st : XState} (h : Good base st) (id : Nat × Str) (b : Bool) :
    Good base (st.mark id b) := h

section
variable (ext : List (VarSet × Bool) → Str → List Str → Option Str)
variable {ids : List (Nat × Str)} {M : Nat} {base : List (VarSet × Bool)} (hb : Base ids M base)
variable {rec : XState → Str → XRes Str} {K L : Nat}
variable (f1 : ∀ st t, Good base st → free ids st = K → NoCall t → t.length < L → Done (rec st t) st)
variable (f2 : ∀ st t, Good base st → free ids st < K → NoCall t → t.length ≤ M → Done (rec st t) st)

include f2 in
theorem appendParts_done (buf : Str) (vs : List Var) (st : XState) (hg : Good base st) (hk : free ids st < K)
    (hv : ∀ v ∈ vs, v.recursive = true → v.value.length ≤ M ∧ NoCall v.value) :
    Done (appendParts rec buf vs st) st := by
  induction vs generalizing buf with
  | nil => exact done_ok _ _
  | cons v vs ih =>
    have ih := fun b => ih b (fun w hw => hv w (by simp [hw]))
    simp only [appendParts]
    generalize (if buf = [] then buf else buf ++ [' ']) = buf
    split
    · rename_i hr
      obtain ⟨h1, h2⟩ := hv v (by simp) hr
      exact done_bind (f2 _ _ hg hk h2 h1) fun _ _ => ih _
    · exact ih _

include hb f2 in
theorem recursivelyExpand_done {st : XState} (hg : Good base st) (hk : free ids st = K) {n : Str} {i : Nat} {v : Var}
    (hl : lookupLoc false st.chain n = some (i, v)) (hv : v.recursive = true) :
    Done (recursivelyExpand rec st (i, n) v) st := by
  obtain ⟨pre, s, nip, post, h1, h2, rfl⟩ := lookupLoc_split hl
  obtain ⟨hid, hlen, hnc⟩ := good_split hb hg h1 h2 hv
  simp only [recursivelyExpand, hg.2, and_true]
  split
  · exact done_fatal _
  · rename_i hexp
    have hexp : st.expanding (post.length, n) = false := by simpa using hexp
    have hfr := free_mark hid hexp
    have hd : Done (if v.append = true then appendParts rec [] (variableAppend (st.mark (post.length, n) true).chain n true)
        (st.mark (post.length, n) true) else rec (st.mark (post.length, n) true) v.value) (st.mark (post.length, n) true) := by
      split
      · apply appendParts_done f2 _ _ _ (good_mark hg _ _) (by omega)
        intro w hw hwr
        obtain ⟨pre', s', nip', post', k1, k2⟩ := variableAppend_split hw
        obtain ⟨_, k3⟩ := good_split hb (good_mark hg _ _) k1 k2 hwr
        exact k3
      · exact f2 _ _ (good_mark hg _ _) (by omega) hnc hlen
    revert hd
    generalize (if v.append = true then appendParts rec [] (variableAppend (st.mark (post.length, n) true).chain n true)
        (st.mark (post.length, n) true) else rec (st.mark (post.length, n) true) v.value) = r
    intro hd
    cases r with
    | deep => exact absurd rfl hd.1
    | fatal => exact done_fatal _
    | ok a st' =>
      have := hd.2 a st' rfl
      subst this
      simp only [XRes.bind]
      rw [mark_mark st _ hexp]
      exact done_ok _ _

include hb f2 in
theorem referenceVariable_done {st : XState} (hg : Good base st) (hk : free ids st = K) (n : Str) :
    Done (referenceVariable rec st n) st := by
  simp only [referenceVariable]
  split
  · exact done_ok _ _
  · rename_i hl
    split
    · exact done_ok _ _
    · split
      · rename_i hv
        exact recursivelyExpand_done hb f2 hg hk hl hv
      · exact done_ok _ _

include hb f2 in
theorem expandNamed_done {st : XState} (hg : Good base st) (hk : free ids st = K) (n : Str) :
    Done (expandNamed rec st n) st := by
  simp only [expandNamed]
  split
  · exact referenceVariable_done hb f2 hg hk _
  · split
    · exact referenceVariable_done hb f2 hg hk _
    · split
      · exact done_ok _ _
      · rename_i hl
        split
        · exact done_ok _ _
        · refine done_bind ?_ fun _ _ => done_ok _ _
          split
          · rename_i hv
            exact recursivelyExpand_done hb f2 hg hk hl hv
          · exact done_ok _ _

include f1 in
theorem expandArgs_done {st : XState} (hg : Good base st) (hk : free ids st = K) (as : List Str)
    (ha : ∀ a ∈ as, NoCall a ∧ a.length < L) : Done (expandArgs rec as st) st := by
  induction as with
  | nil => exact done_ok _ _
  | cons a as ih =>
    have h := ha a (by simp)
    exact done_bind (f1 _ _ hg hk h.1 h.2) fun _ _ =>
      done_bind (ih fun x hx => ha x (by simp [hx])) fun _ _ => done_ok _ _

include f1 in
theorem f1_strip {st : XState} (hg : Good base st) (hk : free ids st = K) {a : Str}
    (ha : NoCall a ∧ a.length < L) : Done (rec st (stripWhitespace a)) st :=
  f1 _ _ hg hk (noCall_infix ha.1 (strip_infix a)) (by have := (strip_infix a).length_le; have := ha.2; omega)

include f1 in
theorem funcOrX_done {st : XState} (hg : Good base st) (hk : free ids st = K) (as : List Str)
    (ha : ∀ a ∈ as, NoCall a ∧ a.length < L) : Done (funcOrX rec as st) st := by
  induction as with
  | nil => exact done_ok _ _
  | cons a as ih =>
    have ih := ih fun x hx => ha x (by simp [hx])
    simp only [funcOrX]
    split
    · exact ih
    · refine done_bind (f1_strip f1 hg hk (ha a (by simp))) fun _ _ => ?_
      split
      · exact ih
      · exact done_ok _ _

include f1 in
theorem funcAndX_done {st : XState} (hg : Good base st) (hk : free ids st = K) (as : List Str)
    (ha : ∀ a ∈ as, NoCall a ∧ a.length < L) : Done (funcAndX rec as st) st := by
  induction as with
  | nil => exact done_ok _ _
  | cons a as ih =>
    have ih := ih fun x hx => ha x (by simp [hx])
    simp only [funcAndX]
    split
    · exact done_ok _ _
    · refine done_bind (f1_strip f1 hg hk (ha a (by simp))) fun _ _ => ?_
      split
      · exact done_ok _ _
      · split
        · exact done_ok _ _
        · exact ih

include f1 in
theorem funcIfX_done {st : XState} (hg : Good base st) (hk : free ids st = K) (as : List Str)
    (ha : ∀ a ∈ as, NoCall a ∧ a.length < L) : Done (funcIfX rec as st) st := by
  cases as with
  | nil => exact done_ok _ _
  | cons a as =>
    simp only [funcIfX]
    refine done_bind (st := st) ?_ fun out _ => ?_
    · split
      · exact done_ok _ _
      · exact f1_strip f1 hg hk (ha a (by simp))
    · split
      · rename_i b hb'
        have hmem : b ∈ as := by
          split at hb'
          · exact List.mem_of_mem_tail (List.mem_of_head? hb')
          · exact List.mem_of_head? hb'
        have h := ha b (by simp [hmem])
        exact f1 _ _ hg hk h.1 h.2
      · exact done_ok _ _

/-- A state with one more scope. -/
def withScope (st : XState) (y : VarSet × Bool) : XState := { st with chain := y :: st.chain }

omit hb f1 f2 in
theorem good_withScope {st : XState} (hg : Good base st) {y : VarSet × Bool} (hy : Plain [y]) :
    Good base (withScope st y) := by
  obtain ⟨⟨extra, he, hp⟩, hc⟩ := hg
  refine ⟨⟨y :: extra, by simp [withScope, he], ?_⟩, hc⟩
  intro x hx
  rcases List.mem_cons.mp hx with rfl | hx
  · exact hy x (by simp)
  · exact hp x hx

omit hb f1 f2 in
theorem bind_withScope (st : XState) {y : VarSet × Bool} (hy : Plain [y]) (n v : Str) :
    ∃ y', (withScope st y).bindSimple n v = withScope st y' ∧ Plain [y'] := by
  obtain ⟨s, nip⟩ := y
  let w : Var := { value := v, recursive := false, origin := .automatic, exportable := exportableName n }
  refine ⟨(s.put n (some w), nip), rfl, ?_⟩
  intro x hx m u hu
  simp only [List.mem_singleton] at hx
  subst hx
  simp only [VarSet.put] at hu
  split at hu
  · simp only [Option.some.injEq] at hu; subst hu; exact ⟨rfl, rfl⟩
  · exact hy (s, nip) (by simp) m u hu

include f1 in
theorem foreachGo_done {st : XState} (hg : Good base st) (hk : free ids st = K) (var body : Str)
    (hbody : NoCall body ∧ body.length < L) (ws : List Str) {y : VarSet × Bool} (hy : Plain [y]) :
    foreachGo rec var body ws (withScope st y) ≠ .deep ∧
    ∀ a st', foreachGo rec var body ws (withScope st y) = .ok a st' → ∃ y', st' = withScope st y' := by
  induction ws generalizing y with
  | nil => exact ⟨by simp [foreachGo], by rintro _ _ ⟨⟩; exact ⟨y, rfl⟩⟩
  | cons w ws ih =>
    obtain ⟨y1, h1, h2⟩ := bind_withScope st hy var w
    simp only [foreachGo]
    rw [h1]
    have hd := f1 (withScope st y1) body (good_withScope hg h2) hk hbody.1 hbody.2
    cases hr : rec (withScope st y1) body with
    | deep => exact absurd hr hd.1
    | fatal => exact ⟨by simp [XRes.bind], by rintro _ _ ⟨⟩⟩
    | ok a st1 =>
      have := hd.2 a st1 hr
      subst this
      obtain ⟨k1, k2⟩ := ih h2
      simp only [XRes.bind]
      cases hf : foreachGo rec var body ws (withScope st y1) with
      | deep => exact absurd hf k1
      | fatal => exact ⟨by simp [XRes.bind], by rintro _ _ ⟨⟩⟩
      | ok b st2 =>
        refine ⟨by simp [XRes.bind], ?_⟩
        rintro _ _ ⟨⟩
        exact k2 b st2 hf

include f1 in
theorem funcForeach_done {st : XState} (hg : Good base st) (hk : free ids st = K) (as : List Str)
    (ha : ∀ a ∈ as, NoCall a ∧ a.length < L) : Done (funcForeach rec as st) st := by
  unfold funcForeach
  split
  · rename_i name list body _
    have hn := ha name (by simp)
    have hl := ha list (by simp)
    have hbd := ha body (by simp)
    refine done_bind (f1 _ _ hg hk hn.1 hn.2) fun name' _ => done_bind (f1 _ _ hg hk hl.1 hl.2) fun list' _ => ?_
    dsimp only
    have hp : Plain [((VarSet.empty, false) : VarSet × Bool)] := by
      intro x hx n v hv
      simp only [List.mem_singleton] at hx
      subst hx
      simp [VarSet.empty] at hv
    obtain ⟨y, h1, h2⟩ := bind_withScope st hp (tokenPrefix (nextToken name')) []
    have h1 : st.push.bindSimple (tokenPrefix (nextToken name')) [] = withScope st y := h1
    rw [h1]
    obtain ⟨k1, k2⟩ := foreachGo_done f1 hg hk (tokenPrefix (nextToken name')) body hbd (tokens list') h2
    cases hf : foreachGo rec (tokenPrefix (nextToken name')) body (tokens list') (withScope st y) with
    | deep => exact absurd hf k1
    | fatal => exact done_fatal _
    | ok a st' =>
      obtain ⟨y', rfl⟩ := k2 a st' hf
      exact done_ok _ st
  · exact done_ok _ _

include f1 in
theorem applyFn_done {st : XState} (hg : Good base st) (hk : free ids st = K) (e : FnEntry) (hne : e.kind ≠ .call)
    (as as' : List Str) (ha : e.expandArgs = false → ∀ a ∈ as, NoCall a ∧ a.length < L) (he : e ∈ fnTable) :
    Done (applyFn ext rec e as st) st := by
  have htab : ∀ e ∈ fnTable, (e.kind = .foreach ∨ e.kind = .if_ ∨ e.kind = .or_ ∨ e.kind = .and_) →
      e.expandArgs = false := by decide
  cases as with
  | nil =>
    simp only [applyFn]
    split
    · exact done_fatal _
    · exact done_ok _ _
  | cons a as =>
    simp only [applyFn]
    split
    · exact done_fatal _
    · split
      · rename_i h; exact funcForeach_done f1 hg hk _ (ha (htab e he (by simp [h])))
      · rename_i h; exact funcIfX_done f1 hg hk _ (ha (htab e he (by simp [h])))
      · rename_i h; exact funcOrX_done f1 hg hk _ (ha (htab e he (by simp [h])))
      · rename_i h; exact funcAndX_done f1 hg hk _ (ha (htab e he (by simp [h])))
      · exact done_ok _ _
      · split
        · exact done_ok _ _
        · exact done_fatal _
      · rename_i h; exact absurd h hne

include hb f1 f2 in
theorem evalToks_done {st : XState} (hg : Good base st) (hk : free ids st = K) (s : Str) (hs : NoCall s)
    (hL : s.length = L) (ts : List Tok) (ht : ∀ t ∈ ts, TokIn s t) : Done (evalToks ext rec ts st) st := by
  have hcall : ∀ e ∈ fnTable, e.kind = .call → e.name = ['c', 'a', 'l', 'l'] := by decide
  induction ts with
  | nil => exact done_ok _ _
  | cons t ts ih =>
    have ih := ih fun x hx => ht x (by simp [hx])
    have ht := ht t (by simp)
    cases t with
    | char c => exact done_bind ih fun _ _ => done_ok _ _
    | var c =>
      exact done_bind (referenceVariable_done hb f2 hg hk _) fun _ _ => done_bind ih fun _ _ => done_ok _ _
    | ref r =>
      refine done_bind ?_ fun _ _ => done_bind ih fun _ _ => done_ok _ _
      cases r with
      | unterminated => exact done_fatal _
      | plain n => exact expandNamed_done hb f2 hg hk _
      | computed x =>
        exact done_bind (f1 _ _ hg hk (noCall_infix hs ht.1) (by have := ht.2; omega)) fun _ _ =>
          expandNamed_done hb f2 hg hk _
      | func e args =>
        obtain ⟨h1, h2, h3⟩ := ht
        have ha : ∀ a ∈ args, NoCall a ∧ a.length < L := fun a ha =>
          ⟨noCall_infix hs (h3 a ha).1, by have := (h3 a ha).2; omega⟩
        have hne : e.kind ≠ .call := by
          intro hc
          rw [hcall e h1 hc] at h2
          exact hs h2
        simp only [evalRef]
        split
        · rename_i hx
          exact done_bind (expandArgs_done f1 hg hk args ha) fun as' _ =>
            applyFn_done ext f1 hg hk e hne as' args (fun h => by rw [hx] at h; cases h) h1
        · exact applyFn_done ext f1 hg hk e hne args args (fun _ => ha) h1
end

theorem expand_done (ext : List (VarSet × Bool) → Str → List Str → Option Str) {ids : List (Nat × Str)} {M : Nat}
    {base : List (VarSet × Bool)} (hb : Base ids M base) (fuel : Nat) (st : XState) (s : Str) (hg : Good base st)
    (hs : NoCall s) (hf : free ids st * (M + 2) + s.length < fuel) : Done (expand ext fuel st s) st := by
  induction fuel generalizing st s with
  | zero => omega
  | succ n ih =>
    refine evalToks_done ext hb (K := free ids st) (L := s.length) ?_ ?_ hg rfl s hs rfl (lex s) (lex_in s)
    · intro st1 t hg1 hk hn hl
      apply ih st1 t hg1 hn
      rw [hk]; omega
    · intro st1 t hg1 hk hn hl
      apply ih st1 t hg1 hn
      have : (free ids st1 + 1) * (M + 2) ≤ free ids st * (M + 2) := Nat.mul_le_mul_right _ hk
      rw [Nat.add_mul] at this
      omega

end Remake
