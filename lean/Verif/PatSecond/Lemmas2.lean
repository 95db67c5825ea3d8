import Verif.PatSecond.Lemmas

/-! # The loop over the words -/
set_option linter.unusedVariables false
set_option linter.unusedSimpArgs false
namespace Remake
open Spec

theorem nextToken_of_begins {w : Str} (h : Begins w) (t : Str) : nextToken (w ++ t) = w ++ t := by
  obtain ⟨c, cs, rfl, hc⟩ := h
  unfold nextToken
  rw [List.cons_append, List.dropWhile_cons_of_neg (by simp [hc])]

theorem nextWordGo_stop {c : Char} (h : c = nul ∨ c = ' ' ∨ c = '\t') (p : Str) : nextWordGo (c :: p) = some ([], c :: p) := by
  rw [nextWordGo.eq_def]; simp only [h, if_true]

theorem nextWordGo_bar (p : Str) : nextWordGo ('|' :: p) = some (['|'], p) := by
  rw [nextWordGo.eq_def]
  have e : ¬('|' = nul ∨ '|' = ' ' ∨ '|' = '\t') := by decide
  simp only [e, if_false, if_true]

/-- A word that begins here. -/
theorem getNextWord_of {sp t w rest : Str} (hs : Spaces sp) (hb : ∃ c cs, t = c :: cs ∧ isSpace c = false ∧ c ≠ nul)
    (h : nextWordGo t = some (w, rest)) : getNextWord (sp ++ t) = .word w rest := by
  obtain ⟨c, cs, rfl, hc, hn⟩ := hb
  unfold getNextWord
  have : nextToken (sp ++ c :: cs) = c :: cs := by
    rw [nextToken_spaces hs]
    unfold nextToken
    rw [List.dropWhile_cons_of_neg (by simp [hc])]
  rw [this]
  simp only [hn, if_false, h]

theorem getNextWord_none {sp after : Str} (hs : Spaces sp) : getNextWord (sp ++ nul :: after) = .none := by
  unfold getNextWord
  rw [nextToken_spaces hs]
  unfold nextToken
  rw [List.dropWhile_cons_of_neg (by decide)]
  simp

theorem pieces_ne_bar {w : Str} (h : Pieces w) : w ≠ ['|'] := by
  rintro rfl
  cases h with
  | char _ _ _ h _ _ => exact h rfl

theorem begins_first {w : Str} (hb : Begins w) (hn : nul ∉ w) (t : Str) : ∃ c cs, w ++ t = c :: cs ∧ isSpace c = false ∧ c ≠ nul := by
  obtain ⟨c, cs, rfl, hc⟩ := hb
  exact ⟨c, cs ++ t, rfl, hc, fun h => hn (by simp [h])⟩

theorem secondLoop_word {env : FsEnv} {ex : Str → Str} {dir : Option Str} {room : Nat} {oo oo' : Bool} {mem w rest : Str}
    {ps : List (Str × Bool)} (h : getNextWord mem = .word w rest) (h1 : ¬(oo = false ∧ w = ['|']))
    (h2 : (fillWord dir.isSome w).length + 1 ≤ room)
    (h3 : wordNames env (if '%' ∈ w then dir else none) oo (ex (cString (fillWord dir.isSome w))) = some (ps, oo')) :
    secondLoop env ex dir room oo mem = match secondLoop env ex dir room oo' rest with
      | .done l => .done (ps ++ l)
      | r => r := by
  rw [secondLoop.eq_def]
  split
  · rename_i h'; rw [h] at h'; cases h'
  · rename_i h'; rw [h] at h'; cases h'
  · rename_i w' r' h'
    rw [h] at h'; cases h'
    rw [if_neg h1, if_neg (by omega)]
    simp only [h3]
    cases secondLoop env ex dir room oo' rest <;> rfl

theorem wordMeans_names (env : FsEnv) {g ex : Str → Str} (hg : ∀ w, Stripped w (g w)) {dir : Option Str} {oo oo' : Bool} {w : Str}
    {ps : List (Str × Bool)} (hn : nul ∉ w) (h : WordMeans g ex dir oo w ps oo') :
    wordNames env (if '%' ∈ w then dir else none) oo (ex (cString (fillWord dir.isSome w))) = some (ps, oo') := by
  obtain ⟨t, ht, hl⟩ := h
  rw [fillWord_spec ht, cString_id (filled_no_nul ht hn)]
  refine wordNames_spec env hg _ ?_
  by_cases hp : '%' ∈ w
  · simpa [hp] using hl
  · simpa [hp] using hl

theorem secondLoop_spec (env : FsEnv) {g ex : Str → Str} (hg : ∀ w, Stripped w (g w)) {dir : Option Str} {oo : Bool} {t : Str}
    {ps : List (Str × Bool)} (h : SecondText g ex dir oo t ps) {room : Nat} (hr : t.length + 5 ≤ room) (after : Str) :
    secondLoop env ex dir room oo (t ++ nul :: after) = .done ps := by
  induction h with
  | done hs =>
    rw [secondLoop.eq_def]
    split
    · rename_i h'; rw [getNextWord_none hs] at h'; cases h'
    · rfl
    · rename_i h'; rw [getNextWord_none hs] at h'; cases h'
  | @bar sp rest ps hs _ ih =>
    have hw : getNextWord (sp ++ '|' :: rest ++ nul :: after) = .word ['|'] (rest ++ nul :: after) := by
      rw [List.append_assoc, List.cons_append]
      exact getNextWord_of hs ⟨_, _, rfl, by decide, by decide⟩ (nextWordGo_bar _)
    rw [secondLoop.eq_def]
    split
    · rename_i h'; rw [hw] at h'; cases h'
    · rename_i h'; rw [hw] at h'; cases h'
    · rename_i h'; rw [hw] at h'; cases h'
      rw [if_pos ⟨rfl, rfl⟩]
      exact ih (by simp at hr; omega)
  | @word oo oo' sp w rest ps qs hs hb hp hrest hm _ ih =>
    have hn := pieces_no_nul hp
    have hw : getNextWord (sp ++ w ++ rest ++ nul :: after) = .word w (rest ++ nul :: after) := by
      rw [List.append_assoc, List.append_assoc]
      refine getNextWord_of hs (begins_first hb hn _) ?_
      rw [nextWordGo_pieces hp]
      rcases hrest with rfl | ⟨b, r, rfl, hbl⟩
      · rw [List.nil_append, nextWordGo_stop (.inl rfl)]; simp
      · rw [List.cons_append, nextWordGo_stop (.inr (by simpa [isBlank] using hbl))]; simp
    have hl := filled_length (filled_exists dir.isSome w)
    simp only [List.length_append] at hr
    rw [secondLoop_word hw (fun h => pieces_ne_bar hp h.2) (by omega) (wordMeans_names env hg hn hm), ih (by omega)]
  | @wordBar oo oo' sp w rest ps qs hs hb hp hm _ ih =>
    have hn := pieces_no_nul hp
    have hn' : nul ∉ w ++ ['|'] := by simp [hn]; decide
    have hw : getNextWord (sp ++ w ++ '|' :: rest ++ nul :: after) = .word (w ++ ['|']) (rest ++ nul :: after) := by
      rw [List.append_assoc, List.append_assoc]
      refine getNextWord_of hs ?_ ?_
      · rcases hb with hb | ⟨rfl, _⟩
        · exact begins_first hb hn _
        · exact ⟨_, _, rfl, by decide, by decide⟩
      · rw [nextWordGo_pieces hp, List.cons_append, nextWordGo_bar]; simp
    have hl := filled_length (filled_exists dir.isSome (w ++ ['|']))
    simp only [List.length_append, List.length_cons, List.length_nil] at hr hl
    rw [secondLoop_word hw ?_ (by omega) (wordMeans_names env hg hn' hm), ih (by omega)]
    rintro ⟨h1, h2⟩
    have : w = [] := by
      have := congrArg List.length h2
      simp at this; exact this
    subst this
    rcases hb with ⟨c, cs, h, _⟩ | ⟨_, h⟩
    · cases h
    · rw [h1] at h; cases h

/-! ## A dollar sign at the end -/

theorem nextWordGo_dollar_nul (p : Str) : nextWordGo ('$' :: nul :: p) = (nextWordGo p).map fun r => ('$' :: nul :: r.1, r.2) := by
  rw [nextWordGo.eq_def]
  have e : ¬('$' = nul ∨ '$' = ' ' ∨ '$' = '\t') := by decide
  have e2 : ¬ ('$' = '|') := by decide
  have e3 : ¬ (nul = '(' ∨ nul = '{') := by decide
  simp only [e, e2, e3, if_false, if_true]

theorem nextWordGo_long {a : Str} (h : ∀ c ∈ a, c ≠ nul ∧ c ≠ ' ' ∧ c ≠ '\t' ∧ c ≠ '|' ∧ c ≠ '$') (p : Str) :
    nextWordGo (a ++ p) = (nextWordGo p).map fun r => (a ++ r.1, r.2) := by
  have : Pieces a := by
    induction a with
    | nil => exact .nil
    | cons c a ih =>
      obtain ⟨h1, h2, h3, h4, h5⟩ := h c (by simp)
      exact .char h1 h2 h3 h4 h5 (ih fun x hx => h x (by simp [hx]))
  exact nextWordGo_pieces this p

theorem fillWord_length_ge (d : Bool) (w : Str) : w.length ≤ (fillWord d w).length := by
  rcases filled_exists d w with ⟨_, h⟩ | ⟨a, b, h, _, h'⟩
  · rw [h]; omega
  · rw [h']; have := congrArg List.length h
    cases d <;> simp at this ⊢ <;> omega

theorem fillWord_append_nul (d : Bool) (w : Str) : fillWord d (w ++ [nul]) = fillWord d w ++ [nul] := by
  rcases filled_exists d w with ⟨h1, h⟩ | ⟨a, b, h, ha, h'⟩
  · rw [h]
    exact fillWord_spec (.inl ⟨by simp [h1]; decide, rfl⟩)
  · rw [h', h]
    exact fillWord_spec (.inr ⟨a, b ++ [nul], by simp, ha, by simp⟩)

theorem cString_append_nul {s : Str} (h : nul ∉ s) (t : Str) : cString (s ++ nul :: t) = s := by
  unfold cString
  induction s with
  | nil => rw [List.nil_append, List.takeWhile_cons_of_neg (by simp)]
  | cons c s ih =>
    simp at h
    rw [List.cons_append, List.takeWhile_cons_of_pos (by simpa using fun h' => h.1 h'.symm), ih h.2]

end Remake
