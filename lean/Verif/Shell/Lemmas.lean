import Verif.Shell.Model
import Verif.Shell.Spec
import Verif.Text.Lemmas
/-! The fast path on escaped text. -/
set_option linter.unusedSimpArgs false
namespace Remake
open Spec

theorem flagTokens_eq (s : Str) : flagTokens s = wordsOf s := by
  fun_induction flagTokens s with
  | case1 s h => rw [wordsOf_token, h]
  | case2 s t r h ih => rw [wordsOf_token, h, ih]

theorem shChars_special (c : Char) : c ∈ shChars ↔ c ∈ shSpecial :=
  ⟨fun h => (show ∀ x ∈ shChars, x ∈ shSpecial by decide) c h,
    fun h => (show ∀ x ∈ shSpecial, x ∈ shChars by decide) c h⟩

/-- A character that the fast path just copies. -/
def ordinary (c : Char) : Prop :=
  c ∉ shChars ∧ c ≠ '=' ∧ c ≠ '\\' ∧ c ≠ '\'' ∧ c ≠ '\n' ∧ isBlank c = false

theorem fast_push {r : Bool} {st : FastState} {c : Char} (s : Str) (hq : st.inq = false)
    (hc : ordinary c) : fastLine r false st (c :: s) = fastLine r false (st.push c) s := by
  obtain ⟨h1, h2, h3, h4, h5, h6⟩ := hc
  rw [fastLine.eq_def]
  simp [hq, h1, h2, h3, h4, h5, h6]

theorem not_sh_backslash : '\\' ∉ shChars := by decide
theorem not_sh_eq : '=' ∉ shChars := by decide
theorem not_sh_newline : '\n' ∉ shChars := by decide
theorem not_sh_quote : '\'' ∉ shChars := by decide
theorem not_sh_blank {c : Char} (h : isBlank c = true) : c ∉ shChars := by
  simp only [isBlank, Bool.or_eq_true, beq_iff_eq] at h
  rcases h with rfl | rfl <;> decide

theorem fast_eq {r o : Bool} {st : FastState} (s : Str) (hq : st.inq = false)
    (hn : st.seenNon = true) :
    fastLine r o st ('=' :: s) = fastLine r o { st.push '=' with hasEq := true } s := by
  rw [fastLine.eq_def]
  simp [hq, hn, not_sh_eq]

theorem fast_bs {r o : Bool} {st : FastState} {d : Char} (s : Str) (hq : st.inq = false)
    (hd : d ≠ '\n') : fastLine r o st ('\\' :: d :: s) = fastLine r o (st.push d) s := by
  rw [fastLine.eq_def]
  simp [hq, hd, not_sh_backslash]

theorem fast_bsnl {r o : Bool} {st : FastState} (s : Str) (hq : st.inq = false) :
    fastLine r o st ('\\' :: '\n' :: s) =
      fastLine r o st (if st.cur.isEmpty then s.dropWhile isBlank else s) := by
  rw [fastLine.eq_def]
  simp [hq, not_sh_backslash]

theorem fast_nl {st : FastState} (s : Str) (hq : st.inq = false) :
    fastLine false false st ('\n' :: s) = fastLine false false (st.push '\n') s := by
  rw [fastLine.eq_def]
  simp [hq, not_sh_newline]

theorem fast_end {r o : Bool} {st : FastState} : fastLine r o st [] = endOfLine st none := by
  rw [fastLine.eq_def]

/-! ### Text written by `escLine` -/

/-- The characters that are left after escaping and reading again. -/
def kept (restp : Bool) : Str → Str
  | [] => []
  | '\\' :: '\n' :: s => '\\' :: '\n' :: kept restp s
  | c :: s => if c = '\n' then (if restp then [] else kept restp s) else c :: kept restp s

theorem escLine_cons (r : Bool) (c : Char) (s : Str) (h : ¬(c = '\\' ∧ s.head? = some '\n')) :
    escLine r (c :: s) =
      if r ∧ c = '\n' then ([], some (c :: s))
      else if c = '\\' ∨ c = '\'' ∨ c = '"' ∨ isSpace c ∨ c ∈ shChars then
        ('\\' :: c :: (escLine r s).1, (escLine r s).2)
      else (c :: (escLine r s).1, (escLine r s).2) := by
  conv => lhs; unfold escLine
  split
  · rename_i h1; cases h1
  · rename_i s' h1
    simp only [List.cons.injEq] at h1
    obtain ⟨rfl, rfl⟩ := h1
    simp at h
  · rename_i c' s' _ h1
    simp only [List.cons.injEq] at h1
    obtain ⟨rfl, rfl⟩ := h1
    rfl

theorem escLine_bsnl (r : Bool) (s : Str) :
    escLine r ('\\' :: '\n' :: s) = ('\\' :: '\\' :: '\n' :: (escLine r s).1, (escLine r s).2) := by
  conv => lhs; unfold escLine
  rfl

theorem kept_cons (r : Bool) (c : Char) (s : Str) (h : ¬(c = '\\' ∧ s.head? = some '\n')) :
    kept r (c :: s) = if c = '\n' then (if r then [] else kept r s) else c :: kept r s := by
  conv => lhs; unfold kept
  split
  · rename_i h1; cases h1
  · rename_i s' h1
    simp only [List.cons.injEq] at h1
    obtain ⟨rfl, rfl⟩ := h1
    simp at h
  · rename_i c' s' _ h1
    simp only [List.cons.injEq] at h1
    obtain ⟨rfl, rfl⟩ := h1
    rfl

theorem kept_bsnl (r : Bool) (s : Str) : kept r ('\\' :: '\n' :: s) = '\\' :: '\n' :: kept r s := by
  conv => lhs; unfold kept
  rfl

/-- Induction over a text by the pieces that `escLine` takes. -/
theorem escInduct {P : Str → Prop} (h0 : P []) (h1 : ∀ s, P s → P ('\\' :: '\n' :: s))
    (h2 : ∀ c s, ¬(c = '\\' ∧ s.head? = some '\n') → P s → P (c :: s)) (s : Str) : P s := by
  generalize hn : s.length = n
  induction n using Nat.strongRecOn generalizing s with
  | ind n ih =>
    match s, hn with
    | [], _ => exact h0
    | c :: s, hn =>
      by_cases hc : c = '\\' ∧ s.head? = some '\n'
      · obtain ⟨rfl, hs⟩ := hc
        match s, hs with
        | d :: s, hs =>
          simp at hs
          subst hs
          exact h1 s (ih s.length (by simp at hn; omega) s rfl)
      · exact h2 c s hc (ih s.length (by simp at hn; omega) s rfl)

theorem kept_command (s : Str) : kept true s = commandText false s := by
  induction s using escInduct with
  | h0 => rfl
  | h1 s ih => rw [kept_bsnl, ih]; simp [commandText]
  | h2 c s h ih =>
    rw [kept_cons _ _ _ h]
    by_cases hc : c = '\n'
    · simp [hc, commandText]
    · rw [if_neg hc, ih]
      simp only [commandText, hc, false_and, if_false]
      by_cases hb : c = '\\'
      · subst hb
        cases s with
        | nil => rfl
        | cons d s =>
          have hd : d ≠ '\n' := by intro e; subst e; simp at h
          simp [commandText, hd]
      · simp [hb]

theorem escLine_rest (s : Str) :
    (∃ r, (escLine true s).2 = some r ∧ s = commandText false s ++ r ∧ r.head? = some '\n') ∨
      ((escLine true s).2 = none ∧ s = commandText false s) := by
  rw [← kept_command]
  induction s using escInduct with
  | h0 => exact .inr ⟨rfl, rfl⟩
  | h1 s ih =>
    rw [escLine_bsnl, kept_bsnl]
    rcases ih with ⟨r, h1, h2, h3⟩ | ⟨h1, h2⟩
    · refine .inl ⟨r, h1, ?_, h3⟩
      rw [List.cons_append, List.cons_append, ← h2]
    · exact .inr ⟨h1, by rw [← h2]⟩
  | h2 c s h ih =>
    rw [escLine_cons _ _ _ h, kept_cons _ _ _ h]
    by_cases hc : c = '\n'
    · subst hc
      exact .inl ⟨'\n' :: s, by simp, by simp, rfl⟩
    · rw [if_neg (by simp [hc]), if_neg hc]
      have e : ∀ a b : Str, (if c = '\\' ∨ c = '\'' ∨ c = '"' ∨ isSpace c ∨ c ∈ shChars then
        (a, (escLine true s).2) else (b, (escLine true s).2)).2 = (escLine true s).2 := by
        intro a b; split <;> rfl
      rw [e]
      rcases ih with ⟨r, h1, h2, h3⟩ | ⟨h1, h2⟩
      · refine .inl ⟨r, h1, ?_, h3⟩
        rw [List.cons_append, ← h2]
      · exact .inr ⟨h1, by rw [← h2]⟩

/-- Escaped text does not begin with a blank. -/
theorem escLine_head (r : Bool) (s : Str) : (escLine r s).1.dropWhile isBlank = (escLine r s).1 := by
  have key : ∀ l : Str, (∀ c, l.head? = some c → isBlank c = false) → l.dropWhile isBlank = l := by
    intro l hl
    cases l with
    | nil => rfl
    | cons c l => rw [List.dropWhile_cons, if_neg (by simp [hl c rfl])]
  apply key
  intro c hc
  induction s using escInduct with
  | h0 => simp [escLine] at hc
  | h1 s _ => rw [escLine_bsnl] at hc; simp at hc; subst hc; decide
  | h2 d s h _ =>
    rw [escLine_cons _ _ _ h] at hc
    split at hc
    · simp at hc
    · split at hc
      · simp at hc; subst hc; decide
      · rename_i h1
        simp at hc
        subst hc
        simp only [not_or, isSpace] at h1
        have := h1.2.2.2.1
        simp only [Bool.or_eq_true, not_or, Bool.not_eq_true] at this
        exact this.1

theorem fast_escLine (r : Bool) (s : Str) (st : FastState) (hq : st.inq = false)
    (hn : st.seenNon = true) :
    ∃ b, fastLine false false st (escLine r s).1 =
      endOfLine { st with cur := (kept r s).reverse ++ st.cur, hasEq := b } none := by
  induction s using escInduct generalizing st with
  | h0 => exact ⟨st.hasEq, by simp [escLine, kept, fast_end]⟩
  | h1 s ih =>
    rw [escLine_bsnl, kept_bsnl, fast_bs _ hq (by decide), fast_nl (st := st.push '\\') _ hq]
    obtain ⟨b, hb⟩ := ih ((st.push '\\').push '\n') hq hn
    exact ⟨b, by rw [hb]; simp [FastState.push]⟩
  | h2 c s h ih =>
    rw [escLine_cons _ _ _ h, kept_cons _ _ _ h]
    by_cases hc : c = '\n'
    · subst hc
      cases r with
      | true => exact ⟨st.hasEq, by simp [fast_end]⟩
      | false =>
        simp only [Bool.false_eq_true, false_and, if_false, if_true]
        rw [if_pos (.inr (.inr (.inr (.inl (by decide)))))]
        simp only
        rw [fast_bsnl _ hq, escLine_head, ite_self]
        exact ih st hq hn
    · rw [if_neg (by simp [hc]), if_neg hc]
      split
      · simp only
        rw [fast_bs _ hq hc]
        obtain ⟨b, hb⟩ := ih (st.push c) hq hn
        exact ⟨b, by rw [hb]; simp [FastState.push]⟩
      · rename_i h1
        simp only [not_or] at h1
        simp only
        by_cases he : c = '='
        · subst he
          rw [fast_eq _ hq hn]
          obtain ⟨b, hb⟩ := ih { st.push '=' with hasEq := true } hq hn
          exact ⟨b, by rw [hb]; simp [FastState.push]⟩
        · have hbl : isBlank c = false := by
            have := h1.2.2.2.1
            simp only [isSpace, Bool.or_eq_true, not_or, Bool.not_eq_true] at this
            exact this.1
          rw [fast_push _ hq ⟨h1.2.2.2.2, he, h1.1, h1.2.1, hc, hbl⟩]
          obtain ⟨b, hb⟩ := ih (st.push c) hq hn
          exact ⟨b, by rw [hb]; simp [FastState.push]⟩

/-! ### SHELL and its flags -/

theorem fast_escShell (sh t : Str) (st : FastState) (hq : st.inq = false)
    (h : ∀ c ∈ sh, isSpace c = false ∧ c ≠ '\'' ∧ c ≠ '\\' ∧ c ≠ '=') :
    fastLine false false st (escShell sh ++ t) =
      fastLine false false { st with cur := sh.reverse ++ st.cur } t := by
  induction sh generalizing st with
  | nil => simp [escShell]
  | cons c sh ih =>
    have hc := h c (by simp)
    have hr := ih (st.push c) hq fun d hd => h d (by simp [hd])
    have hsp := hc.1
    simp only [isSpace, Bool.or_eq_false_iff, isNewlineClass, beq_eq_false_iff_ne] at hsp
    have e : escShell (c :: sh) ++ t =
      (if c ∈ shChars then ['\\', c] else [c]) ++ (escShell sh ++ t) := by
      simp [escShell, List.flatMap_cons]
    rw [e]
    have e2 : { st.push c with cur := sh.reverse ++ (st.push c).cur } =
      { st with cur := (c :: sh).reverse ++ st.cur } := by simp [FastState.push]
    split
    · simp only [List.cons_append, List.nil_append]
      rw [fast_bs _ hq hsp.2.1.1.1, hr, e2]
    · rename_i h1
      simp only [List.cons_append, List.nil_append]
      rw [fast_push _ hq ⟨h1, hc.2.2.2, hc.2.2.1, hc.2.1, hsp.2.1.1.1, hsp.1⟩, hr, e2]

theorem fast_blank {st : FastState} {c : Char} (s : Str) (hq : st.inq = false)
    (hc : isBlank c = true) (hn : st.seenNon = true ∨ st.hasEq = false)
    (hb : st.args ≠ [] ∨ st.cur.reverse ∉ shCmds) :
    fastLine false false st (c :: s) =
      fastLine false false { st with args := st.args ++ [st.cur.reverse], cur := [], lastEmpty := false,
                                     seenNon := st.seenNon || !st.hasEq, hasEq := false }
        (s.dropWhile isBlank) := by
  have h1 := not_sh_blank hc
  have h2 : c ≠ '=' ∧ c ≠ '\\' ∧ c ≠ '\'' ∧ c ≠ '\n' := by
    simp only [isBlank, Bool.or_eq_true, beq_iff_eq] at hc
    rcases hc with rfl | rfl <;> decide
  have h3 : ¬(st.hasEq = true ∧ (!(st.seenNon || !st.hasEq)) = true) := by
    rcases hn with h | h <;> simp [h]
  have h4 : ¬((st.args ++ [st.cur.reverse]).length = 1 ∧ st.cur.reverse ∈ shCmds) := by
    rintro ⟨a, b⟩
    rcases hb with h | h
    · cases hl : st.args with
      | nil => exact h hl
      | cons x l => rw [hl] at a; simp at a
    · exact h b
  rw [fastLine.eq_def]
  simp only [hq, h1, h2, hc, Bool.false_eq_true, if_false, if_true, false_and]
  rw [if_neg h3, if_neg h4]

theorem fast_flags (f e : Str) (he : e.dropWhile isBlank = e)
    (hf : ∀ c ∈ f, c ∉ shChars ∧ c ≠ '\'' ∧ c ≠ '\\' ∧ (isSpace c = true → isBlank c = true)) :
    (∀ st : FastState, st.inq = false → st.seenNon = true → st.args ≠ [] → st.lastEmpty = false →
      st.cur = [] → st.hasEq = false →
      fastLine false false st ((f ++ ' ' :: e).dropWhile isBlank) =
        fastLine false false { st with args := st.args ++ wordsOf f } e) ∧
    (∀ st : FastState, st.inq = false → st.seenNon = true → st.args ≠ [] → st.lastEmpty = false →
      st.cur ≠ [] → (∀ c ∈ st.cur, isSpace c = false) →
      fastLine false false st (f ++ ' ' :: e) =
        fastLine false false { st with args := st.args ++ wordsOf (st.cur.reverse ++ f), cur := [],
                                       hasEq := false } e) := by
  induction f with
  | nil =>
    constructor
    · intro st hq hn ha hl hc hh
      have e1 : isBlank ' ' = true := by decide
      simp only [List.nil_append, List.dropWhile_cons, e1, if_true, he, wordsOf_nil, List.append_nil]
    · intro st hq hn ha hl hc hs
      simp only [List.nil_append, List.append_nil]
      rw [fast_blank _ hq (by decide) (.inl hn) (.inl ha), he,
        wordsOf_word (w := st.cur.reverse) (by simpa using hc) (by simpa using hs)]
      simp [hn, hl]
  | cons c f ih =>
    obtain ⟨ih1, ih2⟩ := ih fun d hd => hf d (by simp [hd])
    have hc := hf c (by simp)
    by_cases hb : isBlank c = true
    · have hsp : isSpace c = true := by simp [isSpace, hb]
      constructor
      · intro st hq hn ha hl hcur hh
        simp only [List.cons_append, List.dropWhile_cons, hb, if_true]
        rw [ih1 st hq hn ha hl hcur hh, wordsOf_cons_space hsp]
      · intro st hq hn ha hl hcur hs
        simp only [List.cons_append]
        rw [fast_blank _ hq hb (.inl hn) (.inl ha)]
        refine (ih1 _ ?_ ?_ ?_ rfl rfl rfl).trans ?_
        · exact hq
        · simp [hn]
        · simp
        rw [wordsOf_word_sep f (w := st.cur.reverse) (by simpa using hcur) (by simpa using hs) hsp]
        simp [hn, hl]
    · have hsp : isSpace c = false := by
        cases h : isSpace c
        · rfl
        · exact absurd (hc.2.2.2 h) hb
      have hnl : c ≠ '\n' := by intro e; subst e; exact absurd hsp (by decide)
      have hb' : isBlank c = false := by simpa using hb
      have step : ∀ st : FastState, st.inq = false → st.seenNon = true → ∃ b : Bool,
          fastLine false false st (c :: (f ++ ' ' :: e)) =
            fastLine false false { st.push c with hasEq := b } (f ++ ' ' :: e) := by
        intro st hq hn
        by_cases he' : c = '='
        · subst he'
          exact ⟨true, fast_eq _ hq hn⟩
        · exact ⟨st.hasEq, fast_push _ hq ⟨hc.1, he', hc.2.2.1, hc.2.1, hnl, hb'⟩⟩
      constructor
      · intro st hq hn ha hl hcur hh
        simp only [List.cons_append, List.dropWhile_cons, hb', Bool.false_eq_true, if_false]
        obtain ⟨b, h1⟩ := step st hq hn
        rw [h1, ih2 { st.push c with hasEq := b } hq hn ha hl (by simp [FastState.push]) (by simp [FastState.push, hcur, hsp])]
        simp [FastState.push, hcur, hh]
      · intro st hq hn ha hl hcur hs
        simp only [List.cons_append]
        obtain ⟨b, h1⟩ := step st hq hn
        rw [h1, ih2 { st.push c with hasEq := b } hq hn ha hl (by simp [FastState.push]) (by
          intro d hd
          simp only [FastState.push, List.mem_cons] at hd
          rcases hd with rfl | hd
          · exact hsp
          · exact hs d hd)]
        simp [FastState.push]

/-- The line built for the shell, read again. -/
theorem fast_shellLine (sh flags : Str) (r : Bool) (s : Str) (hs : plainShell sh) (hc : sh ∉ shCmds)
    (hf : plainFlags flags) (hk : kept r s ≠ []) :
    fastLine false false {} (escShell sh ++ ' ' :: flags ++ ' ' :: (escLine r s).1) =
      .args (sh :: wordsOf flags ++ [kept r s]) none := by
  have hf' : ∀ c ∈ flags, c ∉ shChars ∧ c ≠ '\'' ∧ c ≠ '\\' ∧ (isSpace c = true → isBlank c = true) :=
    fun c h => ⟨fun h' => (hf c h).1 ((shChars_special c).1 h'), (hf c h).2⟩
  rw [List.append_assoc, fast_escShell _ _ _ rfl hs.2, List.cons_append]
  simp only [List.append_nil]
  rw [fast_blank _ rfl (by decide) (.inr rfl) (.inr (by simpa using hc))]
  rw [(fast_flags flags _ (escLine_head r s) hf').1 _ rfl rfl (by simp) rfl rfl rfl]
  obtain ⟨b, hb⟩ := fast_escLine r s
    { args := [] ++ [sh.reverse.reverse] ++ wordsOf flags, cur := [], inq := false, lastEmpty := false,
      hasEq := false, seenNon := true } rfl rfl
  refine Eq.trans hb ?_
  unfold endOfLine
  simp [hk]

end Remake
