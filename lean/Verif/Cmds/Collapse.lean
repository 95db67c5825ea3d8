import Verif.Cmds.Spec
set_option linter.unusedVariables false
set_option linter.unusedSimpArgs false
/-! # Lemmas on continuation lines in references -/
namespace Remake

/-- The closing bracket. -/
abbrev closing (o : Char) : Char := if o = '(' then ')' else '}'

theorem collapse_nil (r lag out) : collapseRefs r lag out [] = out.reverse := by
  cases r <;> rw [collapseRefs.eq_def]

theorem collapse_char {c : Char} (h : c ≠ '$') (lag out t) : collapseRefs none lag out (c :: t) = collapseRefs none lag (c :: out) t := by
  rw [collapseRefs.eq_def]; simp only [if_neg h]

theorem collapse_open {o : Char} (h : o = '(' ∨ o = '{') (lag out t) :
    collapseRefs none lag out ('$' :: o :: t) = collapseRefs (some (o, 0, [o])) lag (o :: '$' :: out) t := by
  rw [collapseRefs.eq_def]; simp only [h, if_true]

theorem collapse_dollar (t : Str) (h : t.head? ≠ some '(' ∧ t.head? ≠ some '{') (lag out) :
    collapseRefs none lag out ('$' :: t) = collapseRefs none lag ('$' :: out) t := by
  rw [collapseRefs.eq_def]
  simp only [if_true]
  cases t with
  | nil => rfl
  | cons o t =>
    simp only [List.head?_cons, ne_eq, Option.some.injEq] at h
    simp only [h.1, h.2, or_self, if_false]

theorem collapse_close (o : Char) (orig lag out t) :
    collapseRefs (some (o, 0, orig)) lag out (closing o :: t) = collapseRefs none lag (closing o :: out) t := by
  rw [collapseRefs, if_pos rfl, if_pos rfl]

theorem collapse_close' (o : Char) (n orig lag out t) :
    collapseRefs (some (o, n + 1, orig)) lag out (closing o :: t) = collapseRefs (some (o, n, closing o :: orig)) lag (closing o :: out) t := by
  rw [collapseRefs, if_pos rfl, if_neg (by omega)]; rfl

theorem closing_ne (o : Char) : closing o ≠ '\\' := by
  simp only [closing]; split <;> decide

theorem collapse_quoted (o : Char) (n orig lag out t) (q : collapseQuoted lag orig out = true) :
    collapseRefs (some (o, n, orig)) lag out ('\\' :: '\n' :: t) = collapseRefs (some (o, n, '\\' :: orig)) lag ('\\' :: out) ('\n' :: t) := by
  rw [collapseRefs, if_neg (closing_ne o).symm, if_pos ⟨rfl, rfl⟩, if_pos q]

/-- How much is eaten. -/
def eatenLen (t : Str) : Nat := t.length + 2 - (t.dropWhile isSpace).length

theorem eatenLen_ge (t : Str) : 2 ≤ eatenLen t := by
  have := dropWhile_length_le isSpace t
  rw [eatenLen]; omega

theorem collapse_eat (o : Char) (n orig lag out t) (q : collapseQuoted lag orig out = false) :
    collapseRefs (some (o, n, orig)) lag out ('\\' :: '\n' :: t) =
      collapseRefs (some (o, n, (('\\' :: '\n' :: t).take (eatenLen t)).reverse ++ orig))
        ((dropBlanks (orig.length + eatenLen t) (lag + eatenLen t) out).1 - 1)
        (' ' :: (dropBlanks (orig.length + eatenLen t) (lag + eatenLen t) out).2) (t.dropWhile isSpace) := by
  rw [collapseRefs, if_neg (closing_ne o).symm, if_pos ⟨rfl, rfl⟩, q]
  simp only [Bool.false_eq_true, if_false, List.tail_cons, List.length_cons]
  rfl

theorem collapse_other (o c : Char) (n orig lag out t) (h : c ≠ closing o) (k : ¬(c = '\\' ∧ t.head? = some '\n')) :
    collapseRefs (some (o, n, orig)) lag out (c :: t) = collapseRefs (some (o, if c = o then n + 1 else n, c :: orig)) lag (c :: out) t := by
  rw [collapseRefs, if_neg h, if_neg k]

theorem eaten_eq (t : Str) : ('\\' :: '\n' :: t).take (eatenLen t) = '\\' :: '\n' :: t.takeWhile isSpace := by
  have e1 := List.takeWhile_append_dropWhile (p := isSpace) (l := t)
  have e2 : eatenLen t = (t.takeWhile isSpace).length + 2 := by
    have := congrArg List.length e1
    rw [List.length_append] at this
    rw [eatenLen]; omega
  rw [e2]
  simp only [List.take_succ_cons]
  congr 2
  have e3 := List.take_left (l₁ := t.takeWhile isSpace) (l₂ := t.dropWhile isSpace)
  rw [e1] at e3
  exact e3

theorem eaten_append (t : Str) : ('\\' :: '\n' :: t).take (eatenLen t) ++ t.dropWhile isSpace = '\\' :: '\n' :: t := by
  rw [eaten_eq]; simp

theorem eaten_last (t : Str) : ∃ c, (('\\' :: '\n' :: t).take (eatenLen t)).getLast? = some c ∧ isSpace c = true := by
  rw [eaten_eq]
  cases h : (t.takeWhile isSpace).getLast? with
  | none =>
    rw [List.getLast?_eq_none_iff] at h
    exact ⟨'\n', by rw [h]; rfl, rfl⟩
  | some c =>
    refine ⟨c, ?_, mem_takeWhile_imp (List.mem_of_getLast? h)⟩
    rw [List.getLast?_cons_of_ne_nil (by simp), List.getLast?_cons_of_ne_nil (by intro e; rw [e] at h; cases h), h]

/-- The ways in which the function goes on. -/
theorem collapse_induct (P : Option (Char × Nat × Str) → Nat → Str → Str → Prop)
    (nil : ∀ r lag out, P r lag out [])
    (char : ∀ c lag out t, c ≠ '$' → P none lag (c :: out) t → P none lag out (c :: t))
    (op : ∀ o lag out t, (o = '(' ∨ o = '{') → P (some (o, 0, [o])) lag (o :: '$' :: out) t → P none lag out ('$' :: o :: t))
    (dollar : ∀ lag out t, (t.head? ≠ some '(' ∧ t.head? ≠ some '{') → P none lag ('$' :: out) t → P none lag out ('$' :: t))
    (close : ∀ o orig lag out t, P none lag (closing o :: out) t → P (some (o, 0, orig)) lag out (closing o :: t))
    (close' : ∀ o n orig lag out t, P (some (o, n, closing o :: orig)) lag (closing o :: out) t →
      P (some (o, n + 1, orig)) lag out (closing o :: t))
    (quoted : ∀ o n orig lag out t, collapseQuoted lag orig out = true → P (some (o, n, '\\' :: orig)) lag ('\\' :: out) ('\n' :: t) →
      P (some (o, n, orig)) lag out ('\\' :: '\n' :: t))
    (eat : ∀ o n orig lag out t, collapseQuoted lag orig out = false →
      P (some (o, n, (('\\' :: '\n' :: t).take (eatenLen t)).reverse ++ orig))
        ((dropBlanks (orig.length + eatenLen t) (lag + eatenLen t) out).1 - 1)
        (' ' :: (dropBlanks (orig.length + eatenLen t) (lag + eatenLen t) out).2) (t.dropWhile isSpace) →
      P (some (o, n, orig)) lag out ('\\' :: '\n' :: t))
    (other : ∀ o c n orig lag out t, c ≠ closing o → ¬(c = '\\' ∧ t.head? = some '\n') →
      P (some (o, if c = o then n + 1 else n, c :: orig)) lag (c :: out) t → P (some (o, n, orig)) lag out (c :: t))
    (r : Option (Char × Nat × Str)) (lag : Nat) (out s : Str) : P r lag out s := by
  generalize hn : s.length = m
  induction m using Nat.strongRecOn generalizing r lag out s with
  | ind m ih =>
    subst hn
    have go : ∀ r' lag' out' s', s'.length < s.length → P r' lag' out' s' := fun r' lag' out' s' h => ih _ h r' lag' out' s' rfl
    cases s with
    | nil => exact nil _ _ _
    | cons c t =>
      cases r with
      | none =>
        by_cases h : c = '$'
        · subst h
          by_cases k : t.head? ≠ some '(' ∧ t.head? ≠ some '{'
          · exact dollar _ _ _ k (go _ _ _ _ (by simp))
          · cases t with
            | nil => simp at k
            | cons o t =>
              refine op _ _ _ _ ?_ (go _ _ _ _ (by simp; omega))
              simp only [List.head?_cons, ne_eq, Option.some.injEq] at k
              rcases Decidable.em (o = '(') with e | e
              · exact .inl e
              · right
                apply Decidable.byContradiction
                intro e'
                exact k ⟨e, e'⟩
        · exact char _ _ _ _ h (go _ _ _ _ (by simp))
      | some r =>
        obtain ⟨o, n, orig⟩ := r
        by_cases h : c = closing o
        · subst h
          cases n with
          | zero => exact close _ _ _ _ _ (go _ _ _ _ (by simp))
          | succ n => exact close' _ _ _ _ _ _ (go _ _ _ _ (by simp))
        · by_cases k : c = '\\' ∧ t.head? = some '\n'
          · obtain ⟨k1, k2⟩ := k
            subst k1
            cases t with
            | nil => cases k2
            | cons d t =>
              simp only [List.head?_cons, Option.some.injEq] at k2
              subst k2
              cases q : collapseQuoted lag orig out with
              | true => exact quoted _ _ _ _ _ _ q (go _ _ _ _ (by simp))
              | false =>
                refine eat _ _ _ _ _ _ q (go _ _ _ _ ?_)
                have := dropWhile_length_le isSpace t
                simp only [List.length_cons]; omega
          · exact other _ _ _ _ _ _ _ h k (go _ _ _ _ (by simp))

/-! ## Nothing but white space and backslashes is lost -/

/-- Characters that stay. -/
def solid (c : Char) : Bool := !isSpace c && c != '\\'

theorem dropBlanks_solid (len lag : Nat) (out : Str) : (dropBlanks len lag out).2.filter solid = out.filter solid := by
  induction out generalizing lag with
  | nil => simp [dropBlanks]
  | cons c out ih =>
    rw [dropBlanks]
    split
    · rename_i h
      have : solid c = false := by simp [solid, isSpace, h.2]
      simp [ih, this]
    · rfl

theorem dropWhile_solid (t : Str) : (t.dropWhile isSpace).filter solid = t.filter solid := by
  induction t with
  | nil => rfl
  | cons c t ih =>
    rw [List.dropWhile_cons]
    split
    · rename_i h
      have : solid c = false := by simp [solid, h]
      simp [ih, this]
    · rfl

theorem collapse_solid (s : Str) : (collapseLine s).filter solid = s.filter solid := by
  have := collapse_induct (fun r lag out s => (collapseRefs r lag out s).filter solid = out.reverse.filter solid ++ s.filter solid)
    (by intro r lag out; rw [collapse_nil]; simp)
    (by intro c lag out t h ih; rw [collapse_char h, ih]; simp [List.filter_append]; rw [List.filter_cons]; split <;> simp [*])
    (by intro o lag out t h ih; rw [collapse_open h, ih]; simp [List.filter_append, List.filter_cons]; split <;> split <;> simp)
    (by intro lag out t h ih; rw [collapse_dollar t h, ih]; simp [List.filter_append, List.filter_cons]; split <;> simp)
    (by intro o orig lag out t ih; rw [collapse_close, ih]; simp only [List.reverse_cons, List.filter_append, List.filter_cons]; split <;> simp)
    (by intro o n orig lag out t ih; rw [collapse_close', ih]; simp only [List.reverse_cons, List.filter_append, List.filter_cons]; split <;> simp)
    (by intro o n orig lag out t q ih; rw [collapse_quoted _ _ _ _ _ _ q, ih]; simp [List.filter_append, List.filter_cons, solid])
    (by
      intro o n orig lag out t q ih
      rw [collapse_eat _ _ _ _ _ _ q, ih]
      have e : solid ' ' = false := rfl
      have e1 : solid '\\' = false := rfl
      have e2 : solid '\n' = false := rfl
      simp only [List.reverse_cons, List.filter_append, List.filter_reverse, dropBlanks_solid, dropWhile_solid, List.filter_cons, e, e1, e2,
        List.filter_nil, Bool.false_eq_true, if_false, List.append_nil])
    (by intro o c n orig lag out t h k ih; rw [collapse_other _ _ _ _ _ _ _ h k, ih]; simp only [List.reverse_cons, List.filter_append, List.filter_cons]; split <;> simp)
    none 0 [] s
  simpa [collapseLine] using this

/-! ## The specification step by step -/

theorem joined_nil (r out) : Spec.joined r out [] = out.reverse := by
  cases r <;> rw [Spec.joined.eq_def]

theorem joined_char {c : Char} (h : c ≠ '$') (out t) : Spec.joined none out (c :: t) = Spec.joined none (c :: out) t := by
  rw [Spec.joined.eq_def]; simp only [if_neg h]

theorem joined_open {o : Char} (h : o = '(' ∨ o = '{') (out t) :
    Spec.joined none out ('$' :: o :: t) = Spec.joined (some (o, 0)) (o :: '$' :: out) t := by
  rw [Spec.joined.eq_def]; simp only [h, if_true]

theorem joined_dollar (t : Str) (h : t.head? ≠ some '(' ∧ t.head? ≠ some '{') (out) :
    Spec.joined none out ('$' :: t) = Spec.joined none ('$' :: out) t := by
  rw [Spec.joined.eq_def]
  simp only [if_true]
  cases t with
  | nil => rfl
  | cons o t =>
    simp only [List.head?_cons, ne_eq, Option.some.injEq] at h
    simp only [h.1, h.2, or_self, if_false]

theorem joined_close (o : Char) (out t) :
    Spec.joined (some (o, 0)) out (closing o :: t) = Spec.joined none (closing o :: out) t := by
  rw [Spec.joined, if_pos rfl, if_pos rfl]

theorem joined_close' (o : Char) (n out t) :
    Spec.joined (some (o, n + 1)) out (closing o :: t) = Spec.joined (some (o, n)) (closing o :: out) t := by
  rw [Spec.joined, if_pos rfl, if_neg (by omega)]; rfl

theorem joined_eat (o : Char) (n out t) (q : (out.takeWhile (· = '\\')).length % 2 = 0) :
    Spec.joined (some (o, n)) out ('\\' :: '\n' :: t) = Spec.joined (some (o, n)) (' ' :: out.dropWhile isBlank) (t.dropWhile isSpace) := by
  rw [Spec.joined, if_neg (closing_ne o).symm, if_pos ⟨rfl, rfl, q⟩]; rfl

theorem joined_other (o c : Char) (n out t) (h : c ≠ closing o) (k : ¬(c = '\\' ∧ t.head? = some '\n')) :
    Spec.joined (some (o, n)) out (c :: t) = Spec.joined (some (o, if c = o then n + 1 else n)) (c :: out) t := by
  rw [Spec.joined, if_neg h, if_neg (fun x => k ⟨x.1, x.2.1⟩)]

/-! ## Continuations after an ordinary character -/

/-- No backslash-newline comes after a backslash or white space. -/
def Tame (s : Str) : Prop := ∀ a c b, s = a ++ c :: '\\' :: '\n' :: b → isSpace c = false ∧ c ≠ '\\'

/-- What is known about the text before the current position, inside a reference. -/
structure TameAt (orig out : Str) (pre : Str) : Prop where
  last : ∃ c, orig.head? = some c ∧ pre.getLast? = some c ∧ (isSpace c = false → out.head? = some c)

theorem tame_quoted {lag : Nat} {orig out : Str} {c : Char} (a : orig.head? = some c) (b : out.head? = some c) (n : c ≠ '\\') :
    collapseQuoted lag orig out = false := by
  rw [collapseQuoted, oddBackslashes]
  have : ((List.take lag orig ++ out).take (orig.length - 1)).takeWhile (fun x => decide (x = '\\')) = [] := by
    cases k : orig.length - 1 with
    | zero => rfl
    | succ k =>
      cases lag with
      | zero =>
        cases out with
        | nil => cases b
        | cons d out =>
          simp only [List.head?_cons, Option.some.injEq] at b
          subst b
          simp [n]
      | succ lag =>
        cases orig with
        | nil => cases a
        | cons d orig =>
          simp only [List.head?_cons, Option.some.injEq] at a
          subst a
          simp [n]
  rw [this]; rfl

theorem collapse_tame (s : Str) (h : Tame s) : collapseLine s = Spec.joined none [] s := by
  have key := collapse_induct (fun r lag out t => ∀ pre, s = pre ++ t → (∀ o n orig, r = some (o, n, orig) → TameAt orig out pre) →
    collapseRefs r lag out t = Spec.joined (r.map fun x => (x.1, x.2.1)) out t)
    (by intro r lag out pre _ _; rw [collapse_nil, joined_nil])
    (by
      intro c lag out t hc ih pre e _
      rw [collapse_char hc, ih (pre ++ [c]) (by simp [e]) (fun _ _ _ x => nomatch x)]
      exact (joined_char hc _ _).symm)
    (by
      intro o lag out t ho ih pre e _
      rw [collapse_open ho, ih (pre ++ ['$', o]) (by simp [e]) (by
        intro o' n orig x
        simp only [Option.some.injEq, Prod.mk.injEq] at x
        obtain ⟨rfl, rfl, rfl⟩ := x
        exact ⟨o, rfl, by simp, fun _ => rfl⟩)]
      exact (joined_open ho _ _).symm)
    (by
      intro lag out t ht ih pre e _
      rw [collapse_dollar t ht, ih (pre ++ ['$']) (by simp [e]) (fun _ _ _ x => nomatch x)]
      exact (joined_dollar t ht _).symm)
    (by
      intro o orig lag out t ih pre e _
      rw [collapse_close, ih (pre ++ [closing o]) (by simp [e]) (fun _ _ _ x => nomatch x)]
      exact (joined_close _ _ _).symm)
    (by
      intro o n orig lag out t ih pre e _
      rw [collapse_close', ih (pre ++ [closing o]) (by simp [e]) (by
        intro o' n' orig' x
        simp only [Option.some.injEq, Prod.mk.injEq] at x
        obtain ⟨rfl, rfl, rfl⟩ := x
        exact ⟨closing o, rfl, by simp, fun _ => rfl⟩)]
      exact (joined_close' _ _ _ _).symm)
    (by
      intro o n orig lag out t q ih pre e a
      obtain ⟨c, a1, a2, a3⟩ := (a o n orig rfl).last
      obtain ⟨pre', rfl⟩ := List.getLast?_eq_some_iff.1 a2
      have ht := h pre' c t (by simp [e])
      rw [tame_quoted a1 (a3 ht.1) ht.2] at q
      cases q)
    (by
      intro o n orig lag out t q ih pre e a
      obtain ⟨c, a1, a2, a3⟩ := (a o n orig rfl).last
      obtain ⟨pre', rfl⟩ := List.getLast?_eq_some_iff.1 a2
      have ht := h pre' c t (by simp [e])
      have oh := a3 ht.1
      have nb : isBlank c = false := by
        have := ht.1; simp only [isSpace, Bool.or_eq_false_iff] at this; exact this.1
      have db : dropBlanks (orig.length + eatenLen t) (lag + eatenLen t) out = (lag + eatenLen t, out) := by
        cases out with
        | nil => rfl
        | cons d out =>
          simp only [List.head?_cons, Option.some.injEq] at oh
          subst oh
          rw [dropBlanks, if_neg (by simp [nb])]
      have dw : out.dropWhile isBlank = out := by
        cases out with
        | nil => rfl
        | cons d out =>
          simp only [List.head?_cons, Option.some.injEq] at oh
          subst oh
          rw [List.dropWhile_cons, if_neg (by simp [nb])]
      have tw : (out.takeWhile (· = '\\')).length % 2 = 0 := by
        cases out with
        | nil => rfl
        | cons d out =>
          simp only [List.head?_cons, Option.some.injEq] at oh
          subst oh
          simp [ht.2]
      rw [collapse_eat _ _ _ _ _ _ q]
      rw [db] at ih ⊢
      rw [ih (pre' ++ [c] ++ ('\\' :: '\n' :: t).take (eatenLen t)) (by rw [List.append_assoc, eaten_append]; exact e) (by
        intro o' n' orig' x
        simp only [Option.some.injEq, Prod.mk.injEq] at x
        obtain ⟨rfl, rfl, rfl⟩ := x
        obtain ⟨d, d1, d2⟩ := eaten_last t
        exact ⟨d, by rw [List.head?_append, List.head?_reverse, d1]; rfl,
          by rw [List.getLast?_append, d1]; rfl, fun x => by rw [d2] at x; cases x⟩)]
      simp only [Option.map_some]
      rw [joined_eat _ _ _ _ tw, dw])
    (by
      intro o c n orig lag out t hc k ih pre e _
      rw [collapse_other _ _ _ _ _ _ _ hc k, ih (pre ++ [c]) (by simp [e]) (by
        intro o' n' orig' x
        simp only [Option.some.injEq, Prod.mk.injEq] at x
        obtain ⟨rfl, rfl, rfl⟩ := x
        exact ⟨c, rfl, by simp, fun _ => rfl⟩)]
      exact (joined_other _ _ _ _ _ hc k).symm)
    none 0 [] s
  exact key [] rfl (fun _ _ _ x => nomatch x)

/-! ## One reference with continuations -/

/-- No backslash-newline comes after a backslash. -/
def Unescaped (s : Str) : Prop := ∀ a b, s ≠ a ++ '\\' :: '\\' :: '\n' :: b

/-- No `$` comes after a backslash-newline. -/
def RefsFirst (s : Str) : Prop := ∀ a b, s = a ++ '\\' :: '\n' :: b → '$' ∉ b

theorem dropBlanks_all (o : Char) (ho : isBlank o = false) (w r : Str) (lag len : Nat) (h : lag + (w.length + 1) ≤ len) :
    ∃ k w', dropBlanks len lag (w ++ o :: r) = (lag + k, w' ++ o :: r) ∧ k + w'.length = w.length ∧
      (w ++ o :: r).dropWhile isBlank = w' ++ o :: r := by
  induction w generalizing lag with
  | nil => exact ⟨0, [], by rw [List.nil_append, dropBlanks, if_neg (by simp [ho])]; rfl, rfl, by simp [ho]⟩
  | cons c w ih =>
    rw [List.cons_append, dropBlanks]
    simp only [List.length_cons] at h
    by_cases hc : isBlank c = true
    · obtain ⟨k, w', e1, e2, e3⟩ := ih (lag + 1) (by omega)
      refine ⟨k + 1, w', ?_, by simp only [List.length_cons]; omega, ?_⟩
      · rw [if_pos ⟨by omega, hc⟩, e1]
        congr 1; omega
      · rw [List.dropWhile_cons, if_pos hc, e3]
    · exact ⟨0, c :: w, by rw [if_neg (by simp [hc])]; rfl, by simp, by rw [List.dropWhile_cons, if_neg hc]; rfl⟩

/-- What is known inside a reference: `w` is what has been written after the opening bracket. -/
def OneAt (o : Char) (orig out pre : Str) (lag : Nat) : Prop :=
  isBlank o = false ∧ o ≠ '\\' ∧ ∃ w r, out = w ++ o :: r ∧ orig.length = lag + (w.length + 1) ∧
    ∃ c, orig.head? = some c ∧ pre.getLast? = some c ∧ (c ≠ '\\' → out.head? ≠ some '\\')

theorem one_quoted {o : Char} {lag : Nat} {orig out : Str} {c : Char} (a : orig.head? = some c) (b : out.head? ≠ some '\\') (n : c ≠ '\\') :
    collapseQuoted lag orig out = false := by
  rw [collapseQuoted, oddBackslashes]
  have : ((List.take lag orig ++ out).take (orig.length - 1)).takeWhile (fun x => decide (x = '\\')) = [] := by
    cases k : orig.length - 1 with
    | zero => rfl
    | succ k =>
      cases lag with
      | zero =>
        cases out with
        | nil => rfl
        | cons d out =>
          simp only [List.head?_cons, ne_eq, Option.some.injEq] at b
          simp [b]
      | succ lag =>
        cases orig with
        | nil => cases a
        | cons d orig =>
          simp only [List.head?_cons, Option.some.injEq] at a
          subst a
          simp [n]
  rw [this]; rfl

theorem collapse_one (s : Str) (h : Unescaped s) (hr : RefsFirst s) : collapseLine s = Spec.joined none [] s := by
  have key := collapse_induct (fun r lag out t => ∀ pre, s = pre ++ t → (lag ≠ 0 → '$' ∉ t) →
      (∀ o n orig, r = some (o, n, orig) → OneAt o orig out pre lag) →
    collapseRefs r lag out t = Spec.joined (r.map fun x => (x.1, x.2.1)) out t)
    (by intro r lag out pre _ _ _; rw [collapse_nil, joined_nil])
    (by
      intro c lag out t hc ih pre e l _
      rw [collapse_char hc, ih (pre ++ [c]) (by simp [e]) (fun x y => l x (by simp [y])) (fun _ _ _ x => nomatch x)]
      exact (joined_char hc _ _).symm)
    (by
      intro o lag out t ho ih pre e l _
      have l0 : lag = 0 := Decidable.byContradiction fun x => l x (by simp)
      subst l0
      rw [collapse_open ho, ih (pre ++ ['$', o]) (by simp [e]) (fun x => absurd rfl x) (by
        intro o' n orig x
        simp only [Option.some.injEq, Prod.mk.injEq] at x
        obtain ⟨rfl, rfl, rfl⟩ := x
        refine ⟨by rcases ho with rfl | rfl <;> rfl, by rcases ho with rfl | rfl <;> decide, [], _, rfl, by simp, o, rfl, by simp, ?_⟩
        intro x
        simpa using x)]
      exact (joined_open ho _ _).symm)
    (by
      intro lag out t ht ih pre e l _
      rw [collapse_dollar t ht, ih (pre ++ ['$']) (by simp [e]) (fun x y => l x (by simp [y])) (fun _ _ _ x => nomatch x)]
      exact (joined_dollar t ht _).symm)
    (by
      intro o orig lag out t ih pre e l _
      rw [collapse_close, ih (pre ++ [closing o]) (by simp [e]) (fun x y => l x (by simp [y])) (fun _ _ _ x => nomatch x)]
      exact (joined_close _ _ _).symm)
    (by
      intro o n orig lag out t ih pre e l a
      rw [collapse_close', ih (pre ++ [closing o]) (by simp [e]) (fun x y => l x (by simp [y])) (by
        intro o' n' orig' x
        simp only [Option.some.injEq, Prod.mk.injEq] at x
        obtain ⟨rfl, rfl, rfl⟩ := x
        obtain ⟨b1, b2, w, r, b3, b4, _⟩ := a o (n + 1) orig rfl
        exact ⟨b1, b2, closing o :: w, r, by rw [b3]; rfl, by simp only [List.length_cons, b4]; omega, closing o, rfl, by simp, fun x => by simpa using x⟩)]
      exact (joined_close' _ _ _ _).symm)
    (by
      intro o n orig lag out t q ih pre e l a
      obtain ⟨_, _, _, _, _, _, c, a1, a2, a3⟩ := a o n orig rfl
      obtain ⟨pre', rfl⟩ := List.getLast?_eq_some_iff.1 a2
      have nc : c ≠ '\\' := fun x => h pre' t (by rw [e, x]; simp)
      rw [one_quoted (o := o) a1 (a3 nc) nc] at q
      cases q)
    (by
      intro o n orig lag out t q ih pre e l a
      obtain ⟨b1, b2, w, r, b3, b4, c, a1, a2, a3⟩ := a o n orig rfl
      obtain ⟨pre', rfl⟩ := List.getLast?_eq_some_iff.1 a2
      have nc : c ≠ '\\' := fun x => h pre' t (by rw [e, x]; simp)
      have tw : (out.takeWhile (· = '\\')).length % 2 = 0 := by
        have := a3 nc
        cases out with
        | nil => rfl
        | cons d out =>
          simp only [List.head?_cons, ne_eq, Option.some.injEq] at this
          simp [this]
      have nd : '$' ∉ t := hr _ t e
      obtain ⟨k, w', d1, d2, d3⟩ := dropBlanks_all o b1 w r (lag + eatenLen t) (orig.length + eatenLen t) (by omega)
      rw [collapse_eat _ _ _ _ _ _ q]
      rw [b3, d1] at ih ⊢
      have ge := eatenLen_ge t
      have el : (('\\' :: '\n' :: t).take (eatenLen t)).length = eatenLen t := by
        rw [eaten_eq]
        have e1 := congrArg List.length (List.takeWhile_append_dropWhile (p := isSpace) (l := t))
        rw [List.length_append] at e1
        simp only [List.length_cons, eatenLen]; omega
      rw [ih (pre' ++ [c] ++ ('\\' :: '\n' :: t).take (eatenLen t)) (by rw [List.append_assoc, eaten_append]; exact e)
        (fun _ y => nd ((List.dropWhile_sublist _).mem y)) (by
        intro o' n' orig' x
        simp only [Option.some.injEq, Prod.mk.injEq] at x
        obtain ⟨rfl, rfl, rfl⟩ := x
        obtain ⟨d, f1, f2⟩ := eaten_last t
        refine ⟨b1, b2, ' ' :: w', r, rfl, ?_, d, ?_, ?_, fun _ => by simp⟩
        · rw [List.length_append, List.length_reverse, el]
          simp only [List.length_cons]; omega
        · rw [List.head?_append, List.head?_reverse, f1]; rfl
        · rw [List.getLast?_append, f1]; rfl)]
      simp only [Option.map_some]
      rw [joined_eat _ _ _ _ (by rw [← b3]; exact tw), d3])
    (by
      intro o c n orig lag out t hc k ih pre e l a
      rw [collapse_other _ _ _ _ _ _ _ hc k, ih (pre ++ [c]) (by simp [e]) (fun x y => l x (by simp [y])) (by
        intro o' n' orig' x
        simp only [Option.some.injEq, Prod.mk.injEq] at x
        obtain ⟨rfl, rfl, rfl⟩ := x
        obtain ⟨b1, b2, w, r, b3, b4, _⟩ := a o n orig rfl
        exact ⟨b1, b2, c :: w, r, by rw [b3]; rfl, by simp only [List.length_cons, b4]; omega, c, rfl, by simp, fun x => by simpa using x⟩)]
      exact (joined_other _ _ _ _ _ hc k).symm)
    none 0 [] s
  exact key [] rfl (fun x => absurd rfl x) (fun _ _ _ x => nomatch x)

end Remake
