import Verif.Shell.Sim
/-! Whatever the fast path accepts is a simple command. -/
set_option linter.unusedSimpArgs false
namespace Remake
open Spec

theorem endOfLine_some {st : FastState} {l : List Str} {r r' : Option Str}
    (h : endOfLine st r' = .args l r) : r = r' ∧ st.inq = false := by
  unfold endOfLine at h
  split at h
  · cases h
  · rename_i hq
    dsimp only at h
    generalize (if (!st.cur.isEmpty || st.lastEmpty) = true then st.args ++ [st.cur.reverse]
      else st.args) = l' at h
    split at h
    · cases h
    simp only [Fast.args.injEq] at h
    exact ⟨h.2.symm, by simpa using hq⟩

/-- Reading blanks outside quotes keeps the words. -/
theorem tok_blanks_ex (b : Str) (hb : ∀ c ∈ b, isBlank c = true) (ws : List Str) (w : Option Str) :
    ∃ ws' w', (ws ≠ [] → ws' ≠ []) ∧ ∀ cmd,
      shTokens [] ws w false (b ++ cmd) = shTokens [] ws' w' false cmd := by
  induction b generalizing ws w with
  | nil => exact ⟨ws, w, id, fun _ => rfl⟩
  | cons c b ih =>
    obtain ⟨ws', w', q1, q2⟩ := ih (fun d hd => hb d (by simp [hd])) (flushWord ws w) none
    exact ⟨ws', w', fun h => q1 (by cases w <;> simp [flushWord, h]), fun cmd => by
      rw [List.cons_append, tok_blank _ (hb c (by simp)), q2]⟩

/-- The states of `fast_isSome`. -/
structure Sees (st : FastState) (s : Str) (ws : List Str) (w : Option Str) : Prop where
  seen : st.seenNon = true → ws ≠ []
  word : st.cur ≠ [] → w ≠ none
  start : ws = [] → w = none → st.inq = false ∧ ∀ c, s.head? = some c → isBlank c = false

theorem fast_isSome (n : Nat) : ∀ (s : Str), s.length ≤ n → ∀ (st : FastState) (l : List Str)
    (r : Option Str), fastLine true false st s = .args l r → ∀ ws w, Sees st s ws w →
    ∃ cmd, s = cmd ++ r.getD [] ∧ (∀ x, r = some x → x.head? = some '\n') ∧
      (shTokens [] ws w st.inq cmd).isSome := by
  induction n with
  | zero =>
    intro s hs st l r h ws w m
    have : s = [] := List.eq_nil_of_length_eq_zero (by omega)
    subst this
    rw [fast_end] at h
    obtain ⟨rfl, h2⟩ := endOfLine_some h
    exact ⟨[], rfl, by simp, by rw [h2, tok_end]; rfl⟩
  | succ n ih =>
    intro s hs st l r h ws w m
    cases s with
    | nil =>
      rw [fast_end] at h
      obtain ⟨rfl, h2⟩ := endOfLine_some h
      exact ⟨[], rfl, by simp, by rw [h2, tok_end]; rfl⟩
    | cons c s =>
      simp only [List.length_cons] at hs
      rw [fastLine.eq_def] at h
      simp only at h
      have take : ∀ (st' : FastState) (v : Str), fastLine true false st' s = .args l r →
          (st'.seenNon = true → ws ≠ []) →
          (∀ t, shTokens [] ws w st.inq (c :: t) = shTokens [] ws (some v) st'.inq t) →
          ∃ cmd, c :: s = cmd ++ r.getD [] ∧ (∀ x, r = some x → x.head? = some '\n') ∧
            (shTokens [] ws w st.inq cmd).isSome := by
        intro st' v h' m' ht
        obtain ⟨cmd, e1, e2, e3⟩ := ih s (by omega) st' l r h' ws (some v) ⟨m', by simp, by simp⟩
        exact ⟨c :: cmd, by rw [e1]; rfl, e2, by rw [ht]; exact e3⟩
      by_cases hq : st.inq = true
      · rw [if_pos hq] at h
        by_cases hc : c = '\''
        · subst hc
          rw [if_pos rfl] at h
          cases w with
          | some v =>
            refine take _ v h m.seen ?_
            intro t; rw [hq, tok_qend]
          | none =>
            have hws : ws ≠ [] := by
              intro e
              have := (m.start e rfl).1
              rw [hq] at this; cases this
            obtain ⟨cmd, e1, e2, e3⟩ := ih s (by omega) _ l r h ws none ⟨fun _ => hws, m.word, fun e => absurd e hws⟩
            exact ⟨'\'' :: cmd, by rw [e1]; rfl, e2, by rw [hq, tok_qend]; exact e3⟩
        · rw [if_neg hc] at h
          by_cases hb : c = '\\' ∧ s.head? = some '\n'
          · rw [if_pos hb] at h
            obtain ⟨rfl, hb⟩ := hb
            match s, hb with
            | d :: s, hb =>
              simp only [List.head?_cons, Option.some.injEq] at hb
              subst hb
              simp only [List.tail_cons] at h
              simp only [List.length_cons] at hs
              obtain ⟨cmd, e1, e2, e3⟩ := ih s (by omega) _ l r h ws
                (some ((some (w.getD [] ++ ['\\'])).getD [] ++ ['\n'])) ⟨m.seen, by simp, by simp⟩
              refine ⟨'\\' :: '\n' :: cmd, by rw [e1]; rfl, e2, ?_⟩
              rw [hq, tok_q _ (by decide), tok_q _ (by decide)]
              have e4 : ((st.push '\\').push '\n').inq = true := hq
              rw [e4] at e3
              exact e3
          · rw [if_neg hb] at h
            split at h
            · obtain ⟨-, h2⟩ := endOfLine_some h
              rw [hq] at h2; cases h2
            · refine take _ (w.getD [] ++ [c]) h m.seen ?_
              intro t
              have e4 : (st.push c).inq = true := hq
              rw [hq, tok_q _ hc, e4]
      · rw [if_neg hq] at h
        have hq' : st.inq = false := by simpa using hq
        by_cases h1 : c ∈ shChars
        · rw [if_pos h1] at h; cases h
        have h1' : c ∉ shSpecial := fun h => h1 ((shChars_special c).2 h)
        rw [if_neg h1, if_neg (by simp)] at h
        have push : ∀ (b : Bool), c ≠ '\\' → c ≠ '\n' → c ≠ '\'' → isBlank c = false →
            (c = '=' → ws ≠ []) → fastLine true false { st.push c with hasEq := b } s = .args l r →
            ∃ cmd, c :: s = cmd ++ r.getD [] ∧ (∀ x, r = some x → x.head? = some '\n') ∧
              (shTokens [] ws w st.inq cmd).isSome := by
          intro b a1 a2 a3 a4 a5 h
          refine take _ (w.getD [] ++ [c]) h m.seen ?_
          intro t
          have e4 : (st.push c).inq = false := hq'
          rw [hq', tok_other _ a1, if_neg (by simp [h1', a2]), if_neg a3, if_neg (by simp [a4]),
            if_neg (fun h => a5 h.1 h.2)]
          simp only [e4]
        by_cases h2 : c = '='
        · rw [if_pos h2] at h
          subst h2
          split at h
          · cases h
          · rename_i h3
            simp only [Bool.not_eq_true', Bool.not_eq_false] at h3
            exact push true (by decide) (by decide) (by decide) (by decide) (fun _ => m.seen h3) h
        rw [if_neg h2] at h
        by_cases h3 : c = '\\'
        · rw [if_pos h3] at h
          subst h3
          cases s with
          | nil =>
            simp only at h
            rw [fast_end] at h
            obtain ⟨rfl, h4⟩ := endOfLine_some h
            exact ⟨['\\'], rfl, by simp, by rw [hq', tok_bsend]; rfl⟩
          | cons d s =>
            simp only at h
            simp only [List.length_cons] at hs
            by_cases hd : d = '\n'
            · subst hd
              rw [if_pos rfl] at h
              have hlen := dropWhile_length_le isBlank s
              have hdrop : s = s.takeWhile isBlank ++ s.dropWhile isBlank :=
                (List.takeWhile_append_dropWhile).symm
              have nb : ∀ c, (s.dropWhile isBlank).head? = some c → isBlank c = false := fun c hc => by
                have h5 := List.head?_dropWhile_not isBlank s
                rw [hc] at h5
                simpa using h5
              by_cases hc : st.cur = []
              · rw [if_pos (by simp [hc])] at h
                -- the shell reads the blanks, make does not
                have hpre : ∃ ws' w', Sees st (s.dropWhile isBlank) ws' w' ∧ ∀ cmd,
                    shTokens [] ws w false (s.takeWhile isBlank ++ cmd) = shTokens [] ws' w' false cmd := by
                  have := tok_blanks_ex (s.takeWhile isBlank) (fun c hc => mem_takeWhile_imp hc) ws w
                  obtain ⟨ws', w', q1, q2⟩ := this
                  exact ⟨ws', w', ⟨fun h => q1 (m.seen h), fun e => absurd hc e, fun _ _ => ⟨hq', nb⟩⟩, q2⟩
                obtain ⟨ws', w', m', ht⟩ := hpre
                obtain ⟨cmd, e1, e2, e3⟩ := ih (s.dropWhile isBlank) (by omega) st l r h ws' w' m'
                refine ⟨'\\' :: '\n' :: (s.takeWhile isBlank ++ cmd), ?_, e2, ?_⟩
                · conv => lhs; rw [hdrop, e1]
                  simp
                · rw [hq'] at e3 ⊢
                  rw [tok_bsnl, ht]
                  exact e3
              · rw [if_neg (by simpa using hc)] at h
                obtain ⟨cmd, e1, e2, e3⟩ := ih s (by omega) st l r h ws w
                  ⟨m.seen, m.word, fun _ b => absurd b (m.word hc)⟩
                refine ⟨'\\' :: '\n' :: cmd, by rw [e1]; rfl, e2, ?_⟩
                rw [hq'] at e3 ⊢
                rw [tok_bsnl]
                exact e3
            · rw [if_neg hd] at h
              obtain ⟨cmd, e1, e2, e3⟩ := ih s (by omega) (st.push d) l r h ws (some (w.getD [] ++ [d]))
                ⟨m.seen, by simp, by simp⟩
              refine ⟨'\\' :: d :: cmd, by rw [e1]; rfl, e2, ?_⟩
              have e4 : (st.push d).inq = false := hq'
              rw [e4] at e3
              rw [hq', tok_bs _ hd]
              exact e3
        rw [if_neg h3] at h
        by_cases h4 : c = '\''
        · rw [if_pos h4] at h
          subst h4
          refine take _ (w.getD []) h m.seen ?_
          intro t
          rw [hq', tok_other _ (by decide), if_neg (by decide), if_pos rfl]
        rw [if_neg h4] at h
        by_cases h5 : c = '\n'
        · rw [if_pos h5, if_pos trivial] at h
          subst h5
          obtain ⟨rfl, -⟩ := endOfLine_some h
          exact ⟨[], by simp, by simp, by rw [hq', tok_end]; rfl⟩
        rw [if_neg h5] at h
        by_cases h6 : isBlank c = true
        · rw [if_pos h6] at h
          split at h
          · cases h
          split at h
          · cases h
          have hne : flushWord ws w ≠ [] := by
            cases w with
            | some v => simp [flushWord]
            | none =>
              intro e
              have := (m.start e rfl).2 c rfl
              rw [h6] at this; cases this
          have hlen := dropWhile_length_le isBlank s
          have hdrop : s = s.takeWhile isBlank ++ s.dropWhile isBlank :=
            (List.takeWhile_append_dropWhile).symm
          obtain ⟨cmd, e1, e2, e3⟩ := ih (s.dropWhile isBlank) (by omega) _ l r h (flushWord ws w) none
            ⟨fun _ => hne, by simp, fun e => absurd e hne⟩
          refine ⟨c :: (s.takeWhile isBlank ++ cmd), ?_, e2, ?_⟩
          · conv => lhs; rw [hdrop, e1]
            simp
          · simp only [hq'] at e3
            rw [hq', tok_blank _ h6, tok_blanks]
            rw [tok_blanks] at e3
            rw [List.dropWhile_append, if_pos]
            · exact e3
            · rw [List.isEmpty_iff, dropWhile_nil_all]
              intro x hx
              exact mem_takeWhile_imp hx
        · rw [if_neg h6] at h
          exact push st.hasEq h3 h5 h4 (by simpa using h6) (fun e => absurd e h2) h

end Remake
