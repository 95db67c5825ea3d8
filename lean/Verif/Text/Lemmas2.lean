import Verif.Text.Lemmas
import Verif.Quote.Lemmas
set_option linter.unusedVariables false
/-! More helper lemmas for the text functions: strip, join, file-name parts, subst,
patterns, filter, sort. -/
namespace Remake
open Spec

/-! ### strip and join -/

theorem stripGo_eq (o : Str) (d : Bool) (p : Str) :
    stripGo o d p = (o ++ (wordsOf p).flatMap (fun w => w ++ [' ']), d || !(wordsOf p).isEmpty) := by
  fun_induction stripGo o d p with
  | case1 o d p h => rw [wordsOf_token, h]; simp
  | case2 o d p w r h ih => rw [ih, wordsOf_token p, h]; simp

theorem killLast_words (ws : List Str) :
    killLast (!ws.isEmpty) (ws.flatMap (fun w => w ++ [' '])) = unwords ws := by
  unfold killLast
  cases ws with
  | nil => simp [unwords]
  | cons w ws => simpa using dropLast_flatMap_space (w :: ws) (by simp)

theorem joinGo_eq (o : Str) (d : Bool) (l1 l2 : Str) :
    joinGo o d l1 l2 = (o ++ (zipLong (wordsOf l1) (wordsOf l2)).flatMap (fun w => w ++ [' ']),
      d || !(zipLong (wordsOf l1) (wordsOf l2)).isEmpty) := by
  fun_induction joinGo o d l1 l2 with
  | case1 o d l1 l2 h1 h2 =>
    rw [wordsOf_token l1, wordsOf_token l2, h1, h2]; simp [zipLong]
  | case2 o d l1 l2 t r1 h1 h2 ih =>
    rw [ih, wordsOf_token l1, h1, wordsOf_token l2, h2]
    have : ∀ as : List Str, zipLong as [] = as := by intro as; cases as <;> rfl
    simp [this]
  | case3 o d l1 l2 p r2 h1 h2 ih =>
    rw [ih, wordsOf_token l1, h1, wordsOf_token l2, h2]
    simp [zipLong]
  | case4 o d l1 l2 t r1 p r2 h1 h2 ih =>
    rw [ih, wordsOf_token l1, h1, wordsOf_token l2, h2]
    simp [zipLong]

/-! ### file names -/

theorem backScan_append (stop : Char → Bool) (w : Str) :
    (backScan stop w).1 ++ (backScan stop w).2 = w := by
  unfold backScan
  rw [← List.reverse_append, List.takeWhile_append_dropWhile, List.reverse_reverse]

theorem backScan_tail (stop : Char → Bool) (w : Str) : ∀ c ∈ (backScan stop w).2, stop c = false := by
  intro c hc
  unfold backScan at hc
  simp only [List.mem_reverse] at hc
  simpa using mem_takeWhile_imp hc

theorem backScan_last (stop : Char → Bool) (w : Str) (c : Char)
    (h : (backScan stop w).1.getLast? = some c) : stop c = true := by
  unfold backScan at h
  rw [List.getLast?_reverse] at h
  have hne : w.reverse.dropWhile (fun c => !stop c) ≠ [] := by intro h'; rw [h'] at h; simp at h
  have h1 := List.head_dropWhile_not (fun c => !stop c) (l := w.reverse) hne
  rw [List.head?_eq_some_head hne] at h
  simp only [Option.some.injEq] at h
  rw [h] at h1; simpa using h1

theorem getLast?_none {l : Str} (h : l.getLast? = none) : l = [] := by simpa using h

theorem DirSplit_unique {w d n d' n' : Str} (h : DirSplit w d n) (h' : DirSplit w d' n') :
    d = d' ∧ n = n' := by
  obtain ⟨h1, h2, h3⟩ := h
  obtain ⟨h1', h2', h3'⟩ := h'
  rw [h1] at h1'
  rcases List.append_eq_append_iff.mp h1' with ⟨x, hx, hy⟩ | ⟨x, hx, hy⟩
  · cases x with
    | nil => simp at hx hy; exact ⟨hx.symm, hy⟩
    | cons y ys =>
      exfalso
      rcases h3' with h | h
      · rw [h] at hx; simp at hx
      · rw [hx, List.getLast?_append] at h
        have : '/' ∈ (y :: ys) := by
          apply List.mem_of_getLast?
          rw [List.getLast?_eq_some_getLast (by simp)] at h ⊢
          simpa using h
        exact h2 (by rw [hy]; exact List.mem_append_left _ this)
  · cases x with
    | nil => simp at hx hy; exact ⟨hx, hy.symm⟩
    | cons y ys =>
      exfalso
      rcases h3 with h | h
      · rw [h] at hx; simp at hx
      · rw [hx, List.getLast?_append] at h
        have : '/' ∈ (y :: ys) := by
          apply List.mem_of_getLast?
          rw [List.getLast?_eq_some_getLast (by simp)] at h ⊢
          simpa using h
        exact h2' (by rw [hy]; exact List.mem_append_left _ this)

theorem getLast?_dropLast {l : Str} {c : Char} (h : l.getLast? = some c) :
    l = l.dropLast ++ [c] := by
  have hne : l ≠ [] := by intro h'; rw [h'] at h; simp at h
  rw [List.getLast?_eq_some_getLast hne] at h
  simp only [Option.some.injEq] at h
  rw [← h]; exact (List.dropLast_concat_getLast hne).symm

end Remake
