import Verif.FileFn.Spec

/-! # Lemmas about the function `file` -/
set_option linter.unusedSimpArgs false
namespace Remake
open Spec

theorem nextToken_white {ws name : Str} (hw : FileWhite ws) (hn : FileName name) : nextToken (ws ++ name) = name := by
  obtain ⟨c, rest, rfl, hc⟩ := hn
  induction ws with
  | nil => simp [nextToken, List.dropWhile, hc]
  | cons d ws ih =>
    have := ih (fun x hx => hw x (List.mem_cons_of_mem _ hx))
    simp only [nextToken, List.cons_append] at this ⊢
    rw [List.dropWhile_cons, if_pos (hw d (List.mem_cons_self ..))]
    exact this

theorem nextToken_white_nil {ws : Str} (hw : FileWhite ws) : nextToken ws = [] := by
  induction ws with
  | nil => rfl
  | cons d ws ih =>
    have := ih (fun x hx => hw x (List.mem_cons_of_mem _ hx))
    simp only [nextToken] at this ⊢
    rw [List.dropWhile_cons, if_pos (hw d (List.mem_cons_self ..))]
    exact this

/-- A string is white space and then nothing or a name. -/
theorem fileToken_split (s : Str) : ∃ ws, s = ws ++ nextToken s ∧ FileWhite ws ∧ (nextToken s = [] ∨ FileName (nextToken s)) := by
  induction s with
  | nil => exact ⟨[], rfl, (fun _ h => nomatch h), Or.inl rfl⟩
  | cons c s ih =>
    by_cases hc : isSpace c = true
    · obtain ⟨ws, h1, h2, h3⟩ := ih
      have e : nextToken (c :: s) = nextToken s := by simp [nextToken, List.dropWhile, hc]
      rw [e]
      refine ⟨c :: ws, by rw [List.cons_append, ← h1], ?_, h3⟩
      intro x hx
      rcases List.mem_cons.1 hx with rfl | hx
      · exact hc
      · exact h2 x hx
    · have e : nextToken (c :: s) = c :: s := by simp [nextToken, List.dropWhile, hc]
      rw [e]
      exact ⟨[], rfl, (fun _ h => nomatch h), Or.inr ⟨c, s, rfl, by simpa using hc⟩⟩

theorem endsIn_iff (c : Char) (t : Str) : EndsIn c t ↔ t.getLast? = some c := by
  constructor
  · rintro ⟨u, rfl⟩; simp
  · intro h
    have hne : t ≠ [] := by rintro rfl; simp at h
    refine ⟨t.dropLast, ?_⟩
    rw [List.getLast?_eq_some_getLast hne] at h
    have := List.dropLast_concat_getLast hne
    rw [← Option.some.inj h]; exact this.symm

theorem fileLine_spec (t : Str) : AsLines t (fileLine t) := by
  unfold fileLine AsLines
  rw [endsIn_iff]
  by_cases h : t.getLast? = some '\n'
  · have : t ≠ [] := by rintro rfl; simp at h
    simp [h, this]
  · simp [h]

theorem asLines_unique {t l l' : Str} (h : AsLines t l) (h' : AsLines t l') : l = l' := by
  rcases h with ⟨a, rfl⟩ | ⟨a, rfl⟩ <;> rcases h' with ⟨b, rfl⟩ | ⟨b, rfl⟩ <;> first | rfl | exact absurd ‹EndsIn _ _› ‹_›

theorem cutEol_unique {c r r' : Str} (h : CutEol c r) (h' : CutEol c r') : r = r' := by
  have hn : ∀ u : Str, EndsIn '\n' (u ++ ['\r', '\n']) := fun u => ⟨u ++ ['\r'], by simp⟩
  rcases h with rfl | ⟨rfl, h⟩ | ⟨rfl, h⟩ <;> rcases h' with e | ⟨e, h'⟩ | ⟨e, h'⟩
  · simpa using e
  · exfalso; apply h'
    have e2 : r ++ ['\r'] ++ ['\n'] = r' ++ ['\n'] := by simpa using e
    exact ⟨r, (List.append_cancel_right e2).symm⟩
  · exact absurd (hn _) h'
  · exfalso; apply h
    have e2 : r ++ ['\n'] = r' ++ ['\r'] ++ ['\n'] := by simpa using e
    exact ⟨r', List.append_cancel_right e2⟩
  · exact List.append_cancel_right e
  · exact absurd ⟨_, rfl⟩ h'
  · exact absurd (e ▸ hn _) h
  · exact absurd (e ▸ ⟨_, rfl⟩) h
  · exact e

theorem getLast?_append_ne (a : Str) {b : Str} (h : b ≠ []) : (a ++ b).getLast? = b.getLast? := by
  rw [List.getLast?_append, List.getLast?_eq_some_getLast h]; rfl

@[simp] theorem outPut_text (move : Nat → Nat → Nat) (b : OutBuf) (s : Str) : (outPut move b s).text = b.text ++ s := by
  unfold outPut; split <;> rfl

theorem freadLoop_text (move : Nat → Nat → Nat) (content : Str) (b : OutBuf) : (freadLoop move content b).text = b.text ++ content := by
  induction h : content.length using Nat.strongRecOn generalizing content b with
  | _ n ih =>
    rw [freadLoop]
    by_cases h1 : content.length < 1024
    · rw [if_pos h1]
      by_cases h2 : content.length > 0
      · rw [if_pos h2]; simp
      · rw [if_neg h2]
        have : content = [] := List.eq_nil_of_length_eq_zero (by omega)
        simp [this]
    · rw [if_neg h1, ih (content.drop 1024).length (by rw [List.length_drop]; omega) _ _ rfl, outPut_text, List.append_assoc,
        List.take_append_drop]

/-- If all fits the buffer does not move. -/
theorem freadLoop_fits (move : Nat → Nat → Nat) (content : Str) (b : OutBuf) (h : b.text.length + content.length + 5 ≤ b.len) :
    freadLoop move content b = { b with text := b.text ++ content } := by
  induction hl : content.length using Nat.strongRecOn generalizing content b with
  | _ n ih =>
    rw [freadLoop]
    by_cases h1 : content.length < 1024
    · rw [if_pos h1]
      by_cases h2 : content.length > 0
      · rw [if_pos h2, outPut, if_neg (by omega)]
      · rw [if_neg h2]
        have : content = [] := List.eq_nil_of_length_eq_zero (by omega)
        simp [this]
    · rw [if_neg h1]
      have e : outPut move b (content.take 1024) = { b with text := b.text ++ content.take 1024 } := by
        rw [outPut, if_neg (by rw [List.length_take]; omega)]
      rw [e, ih (content.drop 1024).length (by rw [List.length_drop]; omega) _ _ (by simp; omega) rfl]
      simp

/-- A buffer that is never moved down is not lower than before. -/
theorem freadLoop_base (move : Nat → Nat → Nat) (hm : ∀ a n, a ≤ move a n) (content : Str) (b : OutBuf) :
    b.base ≤ (freadLoop move content b).base := by
  induction hl : content.length using Nat.strongRecOn generalizing content b with
  | _ n ih =>
    have hp : ∀ s, b.base ≤ (outPut move b s).base := by
      intro s; unfold outPut; split
      · exact hm _ _
      · exact Nat.le_refl _
    rw [freadLoop]
    by_cases h1 : content.length < 1024
    · rw [if_pos h1]; split
      · exact hp _
      · exact Nat.le_refl _
    · rw [if_neg h1]
      exact Nat.le_trans (hp _) (ih (content.drop 1024).length (by rw [List.length_drop]; omega) _ _ rfl)

/-- What is cut off when the pointer of before is not above the place where the text begins now. -/
theorem cutNewline_spec (preo : Nat) (b : OutBuf) (t content : Str) (ht : b.text = t ++ content)
    (hlo : preo ≤ b.base + t.length) (hhi : preo = b.base + t.length ∨ content ≠ ['\n'] ∧ content ≠ [] ∨ ¬ EndsIn '\r' t ∧ content ≠ []) :
    ∃ r, CutEol content r ∧ (cutNewline preo b).text = t ++ r := by
  by_cases hc : content = []
  · subst hc
    refine ⟨[], Or.inr (Or.inr ⟨rfl, ?_⟩), ?_⟩
    · rw [endsIn_iff]; simp
    · have : preo = b.base + t.length := by rcases hhi with h | h | h <;> simp_all
      unfold cutNewline OutBuf.ptr
      rw [if_neg (by rw [ht]; simp; omega), ht]
  · have hl : 0 < content.length := List.length_pos_iff.2 hc
    have hlast : b.text.getLast? = content.getLast? := by rw [ht, getLast?_append_ne _ hc]
    unfold cutNewline
    by_cases hn : content.getLast? = some '\n'
    · obtain ⟨u, rfl⟩ := (endsIn_iff _ _).2 hn
      have hd : b.text.dropLast = t ++ u := by rw [ht, ← List.append_assoc, List.dropLast_concat]
      rw [if_pos ⟨by unfold OutBuf.ptr; rw [ht]; simp; omega, by rw [hlast, hn]⟩]
      simp only [OutBuf.ptr, hd]
      by_cases hu : u = []
      · subst hu
        refine ⟨[], Or.inr (Or.inl ⟨rfl, by rw [endsIn_iff]; simp⟩), ?_⟩
        rw [if_neg]
        intro ⟨h1, h2⟩
        rcases hhi with h | h | h
        · simp at h1; omega
        · exact h.1 rfl
        · exact h.1 ((endsIn_iff _ _).2 (by simpa using h2))
      · rw [getLast?_append_ne _ hu]
        have hul : 0 < u.length := List.length_pos_iff.2 hu
        by_cases hr : u.getLast? = some '\r'
        · rw [if_pos ⟨by simp; omega, hr⟩]
          obtain ⟨v, rfl⟩ := (endsIn_iff _ _).2 hr
          exact ⟨v, Or.inl (by simp), by simp only [← List.append_assoc, List.dropLast_concat]⟩
        · rw [if_neg (fun h => hr h.2)]
          exact ⟨u, Or.inr (Or.inl ⟨rfl, fun h => hr ((endsIn_iff _ _).1 h)⟩), rfl⟩
    · rw [if_neg (fun h => hn (hlast ▸ h.2))]
      exact ⟨content, Or.inr (Or.inr ⟨rfl, fun h => hn ((endsIn_iff _ _).1 h)⟩), ht⟩

theorem fileName_ne_nil {n : Str} (h : FileName n) : n ≠ [] := by obtain ⟨c, r, rfl, _⟩ := h; simp

/-- The function called with an operation and a name. -/
theorem funcFile_asks (errs : FileErrs) (move : Nat → Nat → Nat) {arg name : Str} {op : FileOp} (h : Asks arg op name) (t : Option Str)
    (files : Str → Option Str) (b : OutBuf) : ∃ fn, nextToken fn = name ∧ funcFile errs move arg t files b = match op with
      | .write => fileWrite errs false fn t files b
      | .append => fileWrite errs true fn t files b
      | .read => fileRead errs move fn t files b := by
  obtain ⟨ws, rfl, hw, hn, hq⟩ := h
  refine ⟨ws ++ name, nextToken_white hw hn, ?_⟩
  cases op with
  | append => rfl
  | read => rfl
  | write =>
    simp only [FileOp.chars, List.cons_append, List.nil_append, funcFile]
    split
    · rename_i fn e
      exfalso
      cases ws with
      | nil => exact hq rfl rfl _ e
      | cons c ws =>
        have : c = '>' := by simpa using (List.cons.inj e).1
        have h2 := hw c (List.mem_cons_self ..)
        rw [this] at h2; exact absurd h2 (by decide)
    · rfl

/-- Every argument is one of these. -/
theorem arg_cases (arg : Str) : ((∀ rest, arg ≠ '>' :: rest) ∧ (∀ rest, arg ≠ '<' :: rest)) ∨
    (∃ op ws, FileWhite ws ∧ arg = FileOp.chars op ++ ws) ∨ ∃ op name, Asks arg op name := by
  have key : ∀ op fn, arg = FileOp.chars op ++ fn → (op = .write → ∀ rest, fn ≠ '>' :: rest) →
      (∃ op ws, FileWhite ws ∧ arg = FileOp.chars op ++ ws) ∨ ∃ op name, Asks arg op name := by
    intro op fn e hq
    obtain ⟨ws, h1, h2, h3⟩ := fileToken_split fn
    rcases h3 with h3 | h3
    · exact Or.inl ⟨op, ws, h2, by rw [e, h1, h3]; simp [nextToken_white_nil, h2]⟩
    · refine Or.inr ⟨op, nextToken fn, ws, by rw [List.append_assoc, ← h1, e], h2, h3, ?_⟩
      intro ho hws rest hr
      apply hq ho rest
      rw [h1, hws, hr]; simp [nextToken, List.dropWhile, isSpace, isBlank, isNewlineClass]
  by_cases h1 : ∃ rest, arg = '>' :: rest
  · obtain ⟨rest, e⟩ := h1
    by_cases h2 : ∃ r, rest = '>' :: r
    · obtain ⟨r, e2⟩ := h2
      exact Or.inr (key .append r (by rw [e, e2]; rfl) (fun h => by cases h))
    · exact Or.inr (key .write rest (by rw [e]; rfl) (fun _ r hr => h2 ⟨r, hr⟩))
  · by_cases h3 : ∃ rest, arg = '<' :: rest
    · obtain ⟨rest, e⟩ := h3
      exact Or.inr (key .read rest (by rw [e]; rfl) (fun h => by cases h))
    · exact Or.inl ⟨fun r hr => h1 ⟨r, hr⟩, fun r hr => h3 ⟨r, hr⟩⟩

end Remake
