import Verif.Shell.Lemmas
/-! The fast path and the token recognition of the shell, side by side. -/
set_option linter.unusedSimpArgs false
namespace Remake
open Spec

variable {last : Str} {ws : List Str} {cur : Option Str}

theorem tok_qend (s : Str) : shTokens last ws cur true ('\'' :: s) = shTokens last ws cur false s := by
  conv => lhs; unfold shTokens
  simp

theorem tok_q {c : Char} (s : Str) (h : c ≠ '\'') : shTokens last ws cur true (c :: s) =
    shTokens last ws (some (cur.getD [] ++ [c])) true s := by
  conv => lhs; unfold shTokens
  simp [h]

theorem tok_bsnl (s : Str) : shTokens last ws cur false ('\\' :: '\n' :: s) =
    shTokens last ws cur false s := by
  conv => lhs; unfold shTokens
  rfl

theorem tok_bs {c : Char} (s : Str) (h : c ≠ '\n') : shTokens last ws cur false ('\\' :: c :: s) =
    shTokens last ws (some (cur.getD [] ++ [c])) false s := by
  conv => lhs; unfold shTokens
  split
  · rename_i h1; cases h1
  · rename_i h1 _; cases h1
  · rename_i h1; simp at h1; exact absurd h1.1 h
  · simp_all
  · rename_i h1; simp at h1
  · rename_i h2 _ _ h4
    simp only [List.cons.injEq] at h4
    exact (h2 _ _ h4.1.symm h4.2.symm).elim

theorem tok_other {c : Char} (s : Str) (h : c ≠ '\\') : shTokens last ws cur false (c :: s) =
    if c ∈ shSpecial ∨ c = '\n' then none
    else if c = '\'' then shTokens last ws (some (cur.getD [])) true s
    else if isBlank c then shTokens last (flushWord ws cur) none false s
    else if c = '=' ∧ ws = [] then none
    else shTokens last ws (some (cur.getD [] ++ [c])) false s := by
  conv => lhs; unfold shTokens
  split
  · rename_i h1; cases h1
  · rename_i h1 _; cases h1
  · rename_i h1; simp at h1; exact absurd h1.1 h
  · simp_all
  · rename_i h1; simp at h1; exact absurd h1.1 h
  · rename_i h1 h2 h3 h4
    simp at h4
    obtain ⟨rfl, rfl⟩ := h4
    rfl

theorem tok_blank {c : Char} (s : Str) (h : isBlank c = true) : shTokens last ws cur false (c :: s) =
    shTokens last (flushWord ws cur) none false s := by
  have h2 : c ≠ '\\' ∧ c ∉ shSpecial ∧ c ≠ '\n' ∧ c ≠ '\'' := by
    simp only [isBlank, Bool.or_eq_true, beq_iff_eq] at h
    rcases h with rfl | rfl <;> decide
  rw [tok_other _ h2.1, if_neg (by simp [h2]), if_neg h2.2.2.2, if_pos h]

theorem tok_blanks (s : Str) (ws : List Str) :
    shTokens last ws none false s = shTokens last ws none false (s.dropWhile isBlank) := by
  induction s with
  | nil => rfl
  | cons c s ih =>
    rw [List.dropWhile_cons]
    split
    · rename_i h; rw [tok_blank _ h]; exact ih
    · rfl

theorem dropWhile_nil_all {p : Char → Bool} {l : Str} : l.dropWhile p = [] ↔ ∀ x ∈ l, p x = true := by
  induction l with
  | nil => simp
  | cons a l ih =>
    rw [List.dropWhile_cons]
    split
    · rename_i h; simp [ih, h]
    · rename_i h; simp [h]

theorem tok_end : shTokens last ws cur false [] = some (flushWord ws cur) := by
  unfold shTokens; rfl

theorem tok_bsend : shTokens [] ws cur false ['\\'] = some (flushWord ws cur) := by
  unfold shTokens
  split
  · simp_all
  · simp_all
  · simp_all
  · simp_all
  · simp_all
  · rename_i h3 _ h4
    simp only [List.cons.injEq] at h4
    exact (h3 h4.1.symm h4.2.symm).elim

/-- The states correspond: `w` is the word of the shell. -/
structure Match (st : FastState) (p : Option Char) (s : Str) (w : Option Str) : Prop where
  first : st.seenNon = true ↔ st.args ≠ []
  noEq : st.args = [] → st.hasEq = false
  none : w = none → st.cur = [] ∧ st.lastEmpty = false ∧ st.inq = false ∧
    ∀ c, s.head? = some c → isBlank c = false
  some : ∀ v, w = some v → v = st.cur.reverse ∧
    (st.cur = [] → st.inq = true ∨ st.lastEmpty = true ∧ p = some '\'')

/-- No quote stands just before a backslash-newline. -/
def noQuoteNl (s : Str) : Prop := ∀ a b, s ≠ a ++ '\'' :: '\\' :: '\n' :: b

theorem noQuoteNl_tail {c : Char} {s : Str} (h : noQuoteNl (c :: s)) : noQuoteNl s :=
  fun a b e => h (c :: a) b (by rw [e]; rfl)

theorem noQuoteNl_drop {a s : Str} (h : noQuoteNl (a ++ s)) : noQuoteNl s :=
  fun x b e => h (a ++ x) b (by rw [e]; simp)

theorem endOfLine_match {st : FastState} {p : Option Char} {s : Str} {w : Option Str} {l : List Str}
    {r r' : Option Str} (m : Match st p s w) (h : endOfLine st r' = .args l r) :
    r = r' ∧ st.inq = false ∧ l = flushWord st.args w := by
  unfold endOfLine at h
  split at h
  · cases h
  · rename_i hq
    simp only [Bool.not_eq_true] at hq
    dsimp only at h
    generalize hl : (if (!st.cur.isEmpty || st.lastEmpty) = true then st.args ++ [st.cur.reverse]
      else st.args) = l' at h
    split at h
    · cases h
    simp only [Fast.args.injEq] at h
    refine ⟨h.2.symm, hq, ?_⟩
    rw [← h.1, ← hl]
    cases w with
    | none =>
      obtain ⟨h1, h2, -⟩ := m.none rfl
      simp [h1, h2, flushWord]
    | some v =>
      obtain ⟨h1, h2⟩ := m.some v rfl
      by_cases hc : st.cur = []
      · rcases h2 hc with h3 | h3
        · rw [hq] at h3; cases h3
        · simp [hc, h3.1, flushWord, h1]
      · simp [hc, flushWord, h1]

theorem fast_sim (n : Nat) : ∀ (s : Str), s.length ≤ n → ∀ (st : FastState) (p : Option Char) (w : Option Str)
    (l : List Str) (r : Option Str), fastLine true false st s = .args l r → Match st p s w →
    (∀ c, p = some c → noQuoteNl (c :: s)) → noQuoteNl s →
    ∃ cmd, s = cmd ++ r.getD [] ∧ (∀ x, r = some x → x.head? = some '\n') ∧
      shTokens [] st.args w st.inq cmd = some l := by
  induction n with
  | zero =>
    intro s hs st p w l r h m hp hn
    have : s = [] := List.eq_nil_of_length_eq_zero (by omega)
    subst this
    rw [fast_end] at h
    obtain ⟨rfl, h2, rfl⟩ := endOfLine_match m h
    exact ⟨[], rfl, by simp, by rw [h2, tok_end]⟩
  | succ n ih =>
    intro s hs st p w l r h m hp hn
    cases s with
    | nil =>
      rw [fast_end] at h
      obtain ⟨rfl, h2, rfl⟩ := endOfLine_match m h
      exact ⟨[], rfl, by simp, by rw [h2, tok_end]⟩
    | cons c s =>
      simp only [List.length_cons] at hs
      have hn' := noQuoteNl_tail hn
      rw [fastLine.eq_def] at h
      simp only at h
      -- the recursive calls that just take `c`
      have take : ∀ (st' : FastState) (w' : Option Str), fastLine true false st' s = .args l r →
          Match st' (some c) s w' →
          (∀ t, shTokens [] st.args w st.inq (c :: t) = shTokens [] st'.args w' st'.inq t) →
          ∃ cmd, c :: s = cmd ++ r.getD [] ∧ (∀ x, r = some x → x.head? = some '\n') ∧
            shTokens [] st.args w st.inq cmd = some l := by
        intro st' w' h' m' ht
        obtain ⟨cmd, e1, e2, e3⟩ := ih s (by omega) st' (some c) w' l r h' m'
          (fun d hd => by simp only [Option.some.injEq] at hd; subst hd; exact hn) hn'
        exact ⟨c :: cmd, by rw [e1]; rfl, e2, by rw [ht]; exact e3⟩
      by_cases hq : st.inq = true
      · -- in a quoted string
        obtain ⟨v, rfl⟩ : ∃ v, w = some v := by
          cases w with
          | none => have := (m.none rfl).2.2.1; rw [hq] at this; cases this
          | some v => exact ⟨v, rfl⟩
        obtain ⟨rfl, -⟩ := m.some v rfl
        rw [if_pos hq] at h
        by_cases hc : c = '\''
        · subst hc
          rw [if_pos rfl] at h
          refine take _ (some st.cur.reverse) h ⟨m.first, m.noEq, by simp, ?_⟩ ?_
          · intro v hv
            simp only [Option.some.injEq] at hv
            exact ⟨hv.symm, fun h => .inr ⟨by simp only at h; simp [h], rfl⟩⟩
          · intro t; rw [hq, tok_qend]
        · rw [if_neg hc] at h
          by_cases hb : c = '\\' ∧ s.head? = some '\n'
          · rw [if_pos hb] at h
            obtain ⟨rfl, hb⟩ := hb
            match s, hb with
            | d :: s, hb =>
              simp only [List.head?_cons, Option.some.injEq] at hb
              subst hb
              simp only [List.tail_cons] at h
              simp only [List.length_cons] at hs
              obtain ⟨cmd, e1, e2, e3⟩ := ih s (by omega) _ (some '\n')
                (some ((st.push '\\').push '\n').cur.reverse) l r h
                ⟨m.first, m.noEq, by simp, fun v hv => ⟨by simpa using hv.symm, fun h => by
                  simp [FastState.push] at h⟩⟩
                (fun d hd => by simp only [Option.some.injEq] at hd; subst hd; exact hn') (noQuoteNl_tail hn')
              refine ⟨'\\' :: '\n' :: cmd, by rw [e1]; rfl, e2, ?_⟩
              rw [hq, tok_q _ (by decide), tok_q _ (by decide)]
              have e4 : ((st.push '\\').push '\n').inq = true := hq
              rw [e4] at e3
              rw [← e3]
              simp [FastState.push]
          · rw [if_neg hb] at h
            split at h
            · rename_i hnl
              obtain ⟨-, h2, -⟩ := endOfLine_match m h
              rw [hq] at h2; cases h2
            · refine take _ (some (st.push c).cur.reverse) h ⟨m.first, m.noEq, by simp, ?_⟩ ?_
              · intro v hv
                exact ⟨by simpa using hv.symm, fun h => by simp [FastState.push] at h⟩
              · intro t
                rw [hq, tok_q _ hc]
                have e4 : (st.push c).inq = true := hq
                rw [e4]
                simp [FastState.push]
      · rw [if_neg hq] at h
        have hq' : st.inq = false := by simpa using hq
        by_cases h1 : c ∈ shChars
        · rw [if_pos h1] at h; cases h
        have h1' : c ∉ shSpecial := fun h => h1 ((shChars_special c).2 h)
        rw [if_neg h1, if_neg (by simp)] at h
        have cur_eq : w.getD [] = st.cur.reverse := by
          cases w with
          | none => rw [(m.none rfl).1]; rfl
          | some v => exact (m.some v rfl).1
        -- pushing a character
        have push : ∀ (b : Bool), (st.args = [] → b = false) → c ≠ '\\' → c ≠ '\n' → c ≠ '\'' → isBlank c = false →
            (c = '=' → st.args ≠ []) → fastLine true false { st.push c with hasEq := b } s = .args l r →
            ∃ cmd, c :: s = cmd ++ r.getD [] ∧ (∀ x, r = some x → x.head? = some '\n') ∧
              shTokens [] st.args w st.inq cmd = some l := by
          intro b hb a1 a2 a3 a4 a5 h
          refine take _ (some (st.push c).cur.reverse) h ⟨m.first, hb, by simp, ?_⟩ ?_
          · intro v hv
            exact ⟨by simpa using hv.symm, fun h => by simp [FastState.push] at h⟩
          · intro t
            have e4 : (st.push c).inq = false := hq'
            rw [hq', tok_other _ a1, if_neg (by simp [h1', a2]), if_neg a3, if_neg (by simp [a4]),
              if_neg (fun h => a5 h.1 h.2), cur_eq]
            simp only [e4]
            simp [FastState.push]
        by_cases h2 : c = '='
        · rw [if_pos h2] at h
          subst h2
          split at h
          · cases h
          · rename_i h3
            simp only [Bool.not_eq_true', Bool.not_eq_false] at h3
            have ha := m.first.1 h3
            exact push true (fun e => absurd e ha) (by decide) (by decide) (by decide) (by decide)
              (fun _ => ha) h
        rw [if_neg h2] at h
        by_cases h3 : c = '\\'
        · rw [if_pos h3] at h
          subst h3
          cases s with
          | nil =>
            simp only at h
            rw [fast_end] at h
            obtain ⟨rfl, h4, rfl⟩ := endOfLine_match m h
            exact ⟨['\\'], rfl, by simp, by rw [hq', tok_bsend]⟩
          | cons d s =>
            simp only at h
            simp only [List.length_cons] at hs
            by_cases hd : d = '\n'
            · subst hd
              rw [if_pos rfl] at h
              have hpr : w = none ∨ st.cur ≠ [] := by
                cases w with
                | none => exact .inl rfl
                | some v =>
                  refine .inr fun hc => ?_
                  rcases (m.some v rfl).2 hc with h4 | ⟨-, h4⟩
                  · rw [hq'] at h4; cases h4
                  · exact hp _ h4 [] s rfl
              by_cases hc : st.cur = []
              · have hw : w = none := hpr.resolve_right (fun h => h hc)
                subst hw
                rw [if_pos (by simp [hc])] at h
                have hlen := dropWhile_length_le isBlank s
                have hdrop : s = s.takeWhile isBlank ++ s.dropWhile isBlank :=
                  (List.takeWhile_append_dropWhile).symm
                have hnn : noQuoteNl (s.dropWhile isBlank) := by
                  have := noQuoteNl_tail hn'
                  rw [hdrop] at this
                  exact noQuoteNl_drop this
                obtain ⟨cmd, e1, e2, e3⟩ := ih (s.dropWhile isBlank) (by omega) st none none l r h
                  ⟨m.first, m.noEq, fun _ => ⟨hc, (m.none rfl).2.1, hq', fun c hc => by
                    have h5 := List.head?_dropWhile_not isBlank s
                    rw [hc] at h5
                    simpa using h5⟩, by simp⟩
                  (by simp) hnn
                refine ⟨'\\' :: '\n' :: (s.takeWhile isBlank ++ cmd), ?_, e2, ?_⟩
                · conv => lhs; rw [hdrop, e1]
                  simp
                · rw [hq'] at e3 ⊢
                  rw [tok_bsnl, tok_blanks]
                  rw [tok_blanks] at e3
                  rw [List.dropWhile_append, if_pos]
                  · exact e3
                  · rw [List.isEmpty_iff, dropWhile_nil_all]
                    intro x hx
                    exact mem_takeWhile_imp hx
              · rw [if_neg (by simpa using hc)] at h
                obtain ⟨cmd, e1, e2, e3⟩ := ih s (by omega) st (some '\n') w l r h
                  ⟨m.first, m.noEq, fun e => absurd (m.none e).1 hc, fun v hv =>
                    ⟨(m.some v hv).1, fun h => absurd h hc⟩⟩
                  (fun d hd => by simp only [Option.some.injEq] at hd; subst hd; exact hn')
                  (noQuoteNl_tail hn')
                refine ⟨'\\' :: '\n' :: cmd, by rw [e1]; rfl, e2, ?_⟩
                rw [hq'] at e3 ⊢
                rw [tok_bsnl, e3]
            · rw [if_neg hd] at h
              obtain ⟨cmd, e1, e2, e3⟩ := ih s (by omega) (st.push d) (some d)
                (some (st.push d).cur.reverse) l r h
                ⟨m.first, m.noEq, by simp, fun v hv => ⟨by simpa using hv.symm, fun h => by
                  simp [FastState.push] at h⟩⟩
                (fun x hx => by simp only [Option.some.injEq] at hx; subst hx; exact hn')
                (noQuoteNl_tail hn')
              refine ⟨'\\' :: d :: cmd, by rw [e1]; rfl, e2, ?_⟩
              have e4 : (st.push d).inq = false := hq'
              rw [e4] at e3
              rw [hq', tok_bs _ hd, cur_eq, ← e3]
              simp [FastState.push]
        rw [if_neg h3] at h
        by_cases h4 : c = '\''
        · rw [if_pos h4] at h
          subst h4
          refine take _ (some st.cur.reverse) h ⟨m.first, m.noEq, by simp, ?_⟩ ?_
          · intro v hv
            simp only [Option.some.injEq] at hv
            exact ⟨hv.symm, fun _ => .inl rfl⟩
          · intro t
            rw [hq', tok_other _ (by decide), if_neg (by decide), if_pos rfl, cur_eq]
        rw [if_neg h4] at h
        by_cases h5 : c = '\n'
        · rw [if_pos h5, if_pos trivial] at h
          subst h5
          obtain ⟨rfl, -, rfl⟩ := endOfLine_match m h
          exact ⟨[], by simp, by simp, by rw [hq', tok_end]⟩
        rw [if_neg h5] at h
        by_cases h6 : isBlank c = true
        · rw [if_pos h6] at h
          obtain ⟨v, rfl⟩ : ∃ v, w = some v := by
            cases w with
            | none => exact absurd h6 (by simp [(m.none rfl).2.2.2 c rfl])
            | some v => exact ⟨v, rfl⟩
          obtain ⟨rfl, -⟩ := m.some v rfl
          split at h
          · cases h
          split at h
          · cases h
          rename_i h7 h8
          have hlen := dropWhile_length_le isBlank s
          have hdrop : s = s.takeWhile isBlank ++ s.dropWhile isBlank :=
            (List.takeWhile_append_dropWhile).symm
          have hnn : noQuoteNl (s.dropWhile isBlank) := by
            have := hn'
            rw [hdrop] at this
            exact noQuoteNl_drop this
          have hsn : (st.seenNon || !st.hasEq) = true := by
            by_cases ha : st.args = []
            · simp [m.noEq ha]
            · simp [m.first.2 ha]
          obtain ⟨cmd, e1, e2, e3⟩ := ih (s.dropWhile isBlank) (by omega) _ none none l r h
            ⟨by simp [hsn], by simp, fun _ => ⟨rfl, rfl, hq', fun c hc => by
              have h5 := List.head?_dropWhile_not isBlank s
              rw [hc] at h5
              simpa using h5⟩, by simp⟩
            (by simp) hnn
          refine ⟨c :: (s.takeWhile isBlank ++ cmd), ?_, e2, ?_⟩
          · conv => lhs; rw [hdrop, e1]
            simp
          · simp only [hq'] at e3
            rw [hq', tok_blank _ h6, tok_blanks]
            rw [tok_blanks] at e3
            rw [List.dropWhile_append, if_pos]
            · exact e3
            · rw [List.isEmpty_iff, dropWhile_nil_all]
              intro x hx
              exact mem_takeWhile_imp hx
        · rw [if_neg h6] at h
          exact push st.hasEq m.noEq h3 h5 h4 (by simpa using h6) (fun e => absurd e h2) h

end Remake
