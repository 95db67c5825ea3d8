import Verif.Shell.Sim2
/-! The remaining text, `.ONESHELL`, the end of the recursion. -/
set_option linter.unusedSimpArgs false
namespace Remake
open Spec

theorem commandText_false {p : Bool} {s : Str} (h : s.head? ≠ some '\n') :
    commandText p s = commandText false s := by
  cases s with
  | nil => rfl
  | cons c s =>
    have : c ≠ '\n' := by simpa using h
    simp [commandText, this]

theorem commandText_blanks (b s : Str) (hb : ∀ c ∈ b, isBlank c = true) :
    commandText false (b ++ s) = b ++ commandText false s := by
  induction b with
  | nil => rfl
  | cons c b ih =>
    have hc := hb c (by simp)
    have h1 : c ≠ '\n' ∧ c ≠ '\\' := by
      simp only [isBlank, Bool.or_eq_true, beq_iff_eq] at hc
      rcases hc with rfl | rfl <;> decide
    simp [commandText, h1.1, h1.2, ih fun d hd => hb d (by simp [hd])]

theorem shCmds_last : ∀ w ∈ shCmds, w.getLast? ≠ some '\\' := by decide +kernel

/-- When the fast path gives up at a newline, that newline ends the command. -/
theorem slow_rest (n : Nat) : ∀ (s : Str), s.length ≤ n → ∀ (st : FastState) (p : Bool) (r : Str),
    fastLine true false st s = .slow (some r) →
    (p = true → st.inq = false ∧ st.cur.head? = some '\\') → commandText p s ≠ s := by
  have endnone : ∀ (st : FastState) r, endOfLine st none ≠ .slow (some r) := by
    intro st r h
    unfold endOfLine at h
    dsimp only at h
    generalize (if (!st.cur.isEmpty || st.lastEmpty) = true then st.args ++ [st.cur.reverse]
      else st.args) = l' at h
    split at h
    · cases h
    · split at h <;> cases h
  induction n with
  | zero =>
    intro s hs st p r h hp
    have : s = [] := List.eq_nil_of_length_eq_zero (by omega)
    subst this
    rw [fast_end] at h
    exact (endnone _ _ h).elim
  | succ n ih =>
    intro s hs st p r h hp
    cases s with
    | nil =>
      rw [fast_end] at h
      exact (endnone _ _ h).elim
    | cons c s =>
      simp only [List.length_cons] at hs
      rw [fastLine.eq_def] at h
      simp only at h
      have step : c ≠ '\n' ∨ p = true → commandText (c = '\\') s ≠ s → commandText p (c :: s) ≠ c :: s := by
        intro h1 h2
        rw [commandText, if_neg (by
          rintro ⟨a, b⟩
          rcases h1 with h | h
          · exact h a
          · rw [h] at b; cases b)]
        simpa using h2
      by_cases hq : st.inq = true
      · rw [if_pos hq] at h
        have hpf : p = false := by
          cases p with
          | false => rfl
          | true => have := (hp rfl).1; rw [hq] at this; cases this
        by_cases hc : c = '\''
        · subst hc
          rw [if_pos rfl] at h
          exact step (.inl (by decide)) (ih s (by omega) _ false r h (by simp))
        · rw [if_neg hc] at h
          by_cases hb : c = '\\' ∧ s.head? = some '\n'
          · rw [if_pos hb] at h
            obtain ⟨rfl, hb⟩ := hb
            match s, hb with
            | d :: s, hb =>
              simp only [List.head?_cons, Option.some.injEq] at hb
              subst hb
              simp only [List.tail_cons] at h
              simp only [List.length_cons] at hs
              have := ih s (by omega) _ false r h (by simp)
              simpa [commandText] using this
          · rw [if_neg hb] at h
            split at h
            · rename_i h2
              rw [commandText, if_pos ⟨h2.1, hpf⟩]
              simp
            · rename_i h2
              have hn : c ≠ '\n' := by simpa using h2
              have := ih s (by omega) _ false r h (by simp)
              refine step (.inl hn) ?_
              by_cases hbs : c = '\\'
              · rw [commandText_false (by
                  intro h
                  exact hb ⟨hbs, h⟩)]
                exact this
              · simpa [hbs] using this
      · rw [if_neg hq] at h
        have hq' : st.inq = false := by simpa using hq
        by_cases h1 : c ∈ shChars
        · rw [if_pos h1] at h; cases h
        rw [if_neg h1, if_neg (by simp)] at h
        by_cases h2 : c = '='
        · rw [if_pos h2] at h
          subst h2
          split at h
          · cases h
          · exact step (.inl (by decide)) (ih s (by omega) _ false r h (by simp))
        rw [if_neg h2] at h
        by_cases h3 : c = '\\'
        · rw [if_pos h3] at h
          subst h3
          cases s with
          | nil =>
            simp only at h
            rw [fast_end] at h
            exact (endnone _ _ h).elim
          | cons d s =>
            simp only at h
            simp only [List.length_cons] at hs
            by_cases hd : d = '\n'
            · subst hd
              rw [if_pos rfl] at h
              have : commandText false s ≠ s := by
                split at h
                · have hlen := dropWhile_length_le isBlank s
                  have := ih (s.dropWhile isBlank) (by omega) _ false r h (by simp)
                  intro e
                  apply this
                  have hdrop : s = s.takeWhile isBlank ++ s.dropWhile isBlank :=
                    (List.takeWhile_append_dropWhile).symm
                  rw [hdrop, commandText_blanks _ _ (fun c hc => mem_takeWhile_imp hc)] at e
                  exact List.append_cancel_left e
                · exact ih s (by omega) _ false r h (by simp)
              simpa [commandText] using this
            · rw [if_neg hd] at h
              have := ih s (by omega) _ (d = '\\') r h (by
                intro h
                simp only [decide_eq_true_eq] at h
                exact ⟨hq', by simp [FastState.push, h]⟩)
              simpa [commandText, hd] using this
        rw [if_neg h3] at h
        have e3 : decide (c = '\\') = false := by simpa using h3
        by_cases h4 : c = '\''
        · rw [if_pos h4] at h
          refine step (.inl (by rw [h4]; decide)) ?_
          rw [e3]
          exact ih s (by omega) _ false r h (by simp)
        rw [if_neg h4] at h
        by_cases h5 : c = '\n'
        · rw [if_pos h5, if_pos trivial] at h
          subst h5
          cases p with
          | false => simp [commandText]
          | true =>
            exfalso
            obtain ⟨-, hcur⟩ := hp rfl
            cases hcu : st.cur with
            | nil => rw [hcu] at hcur; simp at hcur
            | cons x xs =>
              rw [hcu] at hcur
              simp only [List.head?_cons, Option.some.injEq] at hcur
              subst hcur
              unfold endOfLine at h
              rw [hq', hcu] at h
              simp only [Bool.false_eq_true, if_false, List.isEmpty_cons, Bool.not_false, Bool.true_or,
                if_true, List.length_append, List.length_cons, List.length_nil] at h
              split at h
              · rename_i h6
                have h7 : st.args = [] := List.eq_nil_of_length_eq_zero (by omega)
                have h8 := shCmds_last _ h6.2
                rw [h7] at h8
                simp at h8
              · cases h
        rw [if_neg h5] at h
        by_cases h6 : isBlank c = true
        · rw [if_pos h6] at h
          split at h
          · cases h
          split at h
          · cases h
          have hlen := dropWhile_length_le isBlank s
          have := ih (s.dropWhile isBlank) (by omega) _ false r h (by simp)
          refine step (.inl h5) ?_
          rw [e3]
          intro e
          apply this
          have hdrop : s = s.takeWhile isBlank ++ s.dropWhile isBlank :=
            (List.takeWhile_append_dropWhile).symm
          rw [hdrop, commandText_blanks _ _ (fun c hc => mem_takeWhile_imp hc)] at e
          exact List.append_cancel_left e
        · rw [if_neg h6] at h
          refine step (.inl h5) ?_
          rw [e3]
          exact ih s (by omega) _ false r h (by simp)

/-! ### `.ONESHELL` -/

theorem scriptLines_ne (e : Bool) (s : Str) : scriptLines e s ≠ [] := by
  cases s with
  | nil => simp [scriptLines]
  | cons c s =>
    rw [scriptLines]
    split
    · simp
    · split <;> simp

theorem oneShellStrip_text (s : Str) :
    (∀ e, oneShellStrip false e s = "\n".toList.intercalate
      ((scriptLines e s).head (scriptLines_ne e s) :: ((scriptLines e s).tail.map fun l =>
        l.dropWhile fun c => isBlank c || c == '-' || c == '@' || c == '+'))) ∧
    oneShellStrip true false s = scriptText s := by
  have ic1 : ∀ (a : Str) (l : List Str), l ≠ [] →
      "\n".toList.intercalate (a :: l) = a ++ '\n' :: "\n".toList.intercalate l := by
    intro a l hl
    cases l with
    | nil => exact absurd rfl hl
    | cons b l => simp [List.intercalate, List.intersperse]
  have ic2 : ∀ (c : Char) (a : Str) (l : List Str),
      "\n".toList.intercalate ((c :: a) :: l) = c :: "\n".toList.intercalate (a :: l) := by
    intro c a l
    cases l <;> simp [List.intercalate, List.intersperse]
  induction s with
  | nil =>
    refine ⟨fun e => ?_, ?_⟩ <;> simp [oneShellStrip, scriptText, scriptLines, List.intercalate, List.intersperse]
  | cons c s ih =>
    obtain ⟨ih1, ih2⟩ := ih
    have hnl : scriptText ('\n' :: s) = '\n' :: scriptText s := by
      unfold scriptText
      rw [scriptLines, if_pos ⟨rfl, rfl⟩, List.map_cons, ic1 _ _ (by simp [scriptLines_ne])]
      rfl
    have h1 : ∀ e, oneShellStrip false e (c :: s) = "\n".toList.intercalate
      ((scriptLines e (c :: s)).head (scriptLines_ne e (c :: s)) :: ((scriptLines e (c :: s)).tail.map fun l =>
        l.dropWhile fun c => isBlank c || c == '-' || c == '@' || c == '+')) := by
      intro e
      rw [oneShellStrip, if_neg (by simp)]
      by_cases hc : c = '\n' ∧ e = false
      · obtain ⟨rfl, rfl⟩ := hc
        rw [if_neg (by decide), if_pos (by simp), ih2]
        have e1 : scriptLines false ('\n' :: s) = [] :: scriptLines false s := by
          rw [scriptLines, if_pos ⟨rfl, rfl⟩]
        simp only [e1, List.head_cons, List.tail_cons]
        rw [ic1 _ _ (by simp [scriptLines_ne])]
        rfl
      · cases hl : scriptLines (c = '\\' ∧ e = false) s with
        | nil => exact absurd hl (scriptLines_ne _ _)
        | cons l ls =>
          have e1 : scriptLines e (c :: s) = (c :: l) :: ls := by
            rw [scriptLines, if_neg hc, hl]
          simp only [e1, List.head_cons, List.tail_cons]
          rw [ic2]
          congr 1
          have e2 : oneShellStrip false (c = '\\' ∧ e = false) s = "\n".toList.intercalate
            (l :: (ls.map fun l => l.dropWhile fun c => isBlank c || c == '-' || c == '@' || c == '+')) := by
            rw [ih1]
            simp only [hl, List.head_cons, List.tail_cons]
          rw [← e2]
          by_cases hb : c = '\\'
          · rw [if_pos hb]
            cases e <;> simp [hb]
          · rw [if_neg hb]
            by_cases hn : c = '\n'
            · rw [if_neg (by simpa [hn] using hc)]
              simp [hb]
            · rw [if_neg (by simp [hn])]
              simp [hb]
    refine ⟨h1, ?_⟩
    by_cases hp : isBlank c = true ∨ c = '-' ∨ c = '@' ∨ c = '+'
    · rw [oneShellStrip, if_pos ⟨rfl, hp⟩, ih2]
      have hb : c ≠ '\\' ∧ c ≠ '\n' := by
        simp only [isBlank, Bool.or_eq_true, beq_iff_eq] at hp
        rcases hp with (rfl | rfl) | rfl | rfl | rfl <;> decide
      have hp' : (isBlank c || c == '-' || c == '@' || c == '+') = true := by
        simpa [or_assoc] using hp
      unfold scriptText
      rw [scriptLines, if_neg (by simp [hb.2])]
      have : decide (c = '\\' ∧ (false : Bool) = false) = false := by simp [hb.1]
      rw [this]
      cases hl : scriptLines false s with
      | nil => exact absurd hl (scriptLines_ne _ _)
      | cons l ls =>
        simp only [List.map_cons, List.dropWhile_cons]
        rw [if_pos hp']
    · have e0 : oneShellStrip true false (c :: s) = oneShellStrip false false (c :: s) := by
        conv => lhs; rw [oneShellStrip, if_neg (by simpa using hp)]
        conv => rhs; rw [oneShellStrip, if_neg (by simp)]
      rw [e0]
      have h1f := h1 false
      unfold scriptText
      rcases hl : scriptLines false (c :: s) with _ | ⟨l, ls⟩
      · exact absurd hl (scriptLines_ne _ _)
      · simp only [hl, List.head_cons, List.tail_cons] at h1f
        rw [h1f, List.map_cons]
        congr 2
        by_cases hc : c = '\n'
        · subst hc
          rw [scriptLines, if_pos ⟨rfl, rfl⟩] at hl
          simp only [List.cons.injEq] at hl
          rw [← hl.1]
          rfl
        · rw [scriptLines, if_neg (by simp [hc])] at hl
          split at hl
          · simp only [List.cons.injEq] at hl
            rw [← hl.1, List.dropWhile_cons, if_neg]
            simpa [or_assoc] using hp
          · simp only [List.cons.injEq] at hl
            rw [← hl.1, List.dropWhile_cons, if_neg]
            simpa [or_assoc] using hp

/-! ### The recursion -/

/-- The line built for the default shell is always read by the fast path. -/
theorem fast_default (posix r : Bool) (s : Str) : ∃ l,
    fastLine false false {} (escShell defaultShell ++ ' ' :: (if posix then "-ec".toList else "-c".toList) ++
      ' ' :: (escLine r s).1) = .args l none := by
  have hs : plainShell defaultShell := ⟨by decide, by decide⟩
  have hf : plainFlags (if posix then "-ec".toList else "-c".toList) := by
    cases posix <;> (unfold plainFlags; decide)
  by_cases hk : kept r s = []
  · generalize (if posix then "-ec".toList else "-c".toList) = flags at hf
    have hf' : ∀ c ∈ flags, c ∉ shChars ∧ c ≠ '\'' ∧ c ≠ '\\' ∧ (isSpace c = true → isBlank c = true) :=
      fun c h => ⟨fun h' => (hf c h).1 ((shChars_special c).1 h'), (hf c h).2⟩
    rw [List.append_assoc, fast_escShell _ _ _ rfl hs.2, List.cons_append]
    simp only [List.append_nil]
    rw [fast_blank _ rfl (by decide) (.inr rfl) (.inr (by decide +kernel))]
    rw [(fast_flags flags _ (escLine_head r s) hf').1 _ rfl rfl (by simp) rfl rfl rfl]
    obtain ⟨b, hb⟩ := fast_escLine r s
      { args := [] ++ [defaultShell.reverse.reverse] ++ wordsOf flags, cur := [], inq := false, lastEmpty := false,
        hasEq := false, seenNon := true } rfl rfl
    refine ⟨[defaultShell] ++ wordsOf flags, Eq.trans hb ?_⟩
    unfold endOfLine
    simp only [hk, List.reverse_nil, List.nil_append, List.isEmpty_nil, Bool.not_true, Bool.or_self, Bool.false_eq_true, if_false]
    rw [if_neg]
    · simp
    · rintro ⟨-, h⟩
      revert h
      simp only [List.reverse_reverse, List.nil_append, List.cons_append, List.headD_cons]
      decide +kernel
  · exact ⟨_, fast_shellLine _ _ r s hs (by decide +kernel) hf hk⟩

end Remake
