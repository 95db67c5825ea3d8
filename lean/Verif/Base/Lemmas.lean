import Verif.Base.Chars
/-! Helper lemmas about the token scanner. -/
namespace Remake

theorem dropWhile_length_le {α} (p : α → Bool) (l : List α) :
    (l.dropWhile p).length ≤ l.length := by
  induction l with
  | nil => simp
  | cons a l ih => simp only [List.dropWhile_cons]; split <;> simp <;> omega

theorem mem_takeWhile_imp {α} {p : α → Bool} {l : List α} {x : α} (h : x ∈ l.takeWhile p) :
    p x = true := by
  induction l with
  | nil => simp at h
  | cons a l ih =>
    rw [List.takeWhile_cons] at h
    split at h
    · rename_i ha
      simp only [List.mem_cons] at h
      rcases h with rfl | h
      · exact ha
      · exact ih h
    · simp at h

theorem findNextToken_lt {s t r : Str} (h : findNextToken s = some (t, r)) :
    r.length < s.length := by
  unfold findNextToken at h
  split at h
  · cases h
  · rename_i p hp
    simp only [Option.some.injEq, Prod.mk.injEq] at h
    obtain ⟨-, rfl⟩ := h
    unfold nextToken at hp
    have h1 := dropWhile_length_le isSpace s
    match hq : s.dropWhile isSpace with
    | [] => exact absurd hq hp
    | c :: cs =>
      have hc : isSpace c = false := by
        have := List.head_dropWhile_not isSpace (l := s) (by simp [hq])
        simpa [hq] using this
      unfold endOfToken nextToken
      rw [hq, List.dropWhile_cons]
      simp only [hc, Bool.not_false, if_true]
      have := dropWhile_length_le (fun c => !isSpace c) cs
      rw [hq] at h1
      simp at h1
      omega

end Remake
