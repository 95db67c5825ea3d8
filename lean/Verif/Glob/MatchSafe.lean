import Verif.Glob.Match
/-! No read beyond the end of the pattern. -/
set_option linter.unusedVariables false
namespace Remake

theorem suffix_cons_of {q p : Str} (c : Char) (h : q <:+ p) : q <:+ c :: p := h.trans (List.suffix_cons c p)

theorem suffix_tail (p : Str) : p.tail <:+ p := List.tail_suffix p

theorem skipClass_suffix : ∀ (s r : Str), skipClass s = some r → (':' :: r) <:+ s
  | [], _, h => by cases h
  | c :: s, r, h => by
    rw [skipClass] at h
    split at h
    · rename_i hc
      cases h
      rw [hc.1]
      exact List.suffix_refl _
    · exact suffix_cons_of c (skipClass_suffix s r h)

theorem className_suffix (str p n r : Str) (h : className str p = .name n r) : r <:+ p := by
  fun_induction className str p with
  | case1 => cases h
  | case2 => cases h
  | case3 => cases h; exact suffix_cons_of _ (suffix_tail _)
  | case4 => cases h
  | case5 str hs c p h1 h2 ih => exact suffix_cons_of _ (ih h)

theorem skipMatched_suffix (ne : Bool) (c : Option Char) (p q : Str) (h : skipMatched ne c p = .at q) : q <:+ p := by
  fun_induction skipMatched ne c p with
  | case1 => cases h; exact List.suffix_refl _
  | case2 => cases h
  | case3 => cases h
  | case4 => cases h
  | case5 => exact suffix_cons_of _ (suffix_cons_of _ (‹_ → _› h))
  | case6 => cases h
  | case7 => cases h
  | case8 =>
    have h1 := ‹_ → _› h
    have h2 := skipClass_suffix _ _ ‹skipClass _ = _›
    exact suffix_cons_of _ ((suffix_cons_of _ (suffix_cons_of _ h1)).trans (h2.trans (suffix_tail _)))
  | case9 => exact suffix_cons_of _ (‹_ → _› h)

theorem skipMatched_undef (ne : Bool) (c : Option Char) (p : Str) (h : skipMatched ne c p = .undef) : [':'] <:+ p := by
  fun_induction skipMatched ne c p with
  | case1 => cases h
  | case2 => cases h
  | case3 => cases h
  | case4 => cases h
  | case5 => exact suffix_cons_of _ (suffix_cons_of _ (‹_ → _› h))
  | case6 => cases h
  | case7 =>
    have h2 := skipClass_suffix _ _ ‹skipClass _ = _›
    exact suffix_cons_of _ (h2.trans (suffix_tail _))
  | case8 =>
    have h1 := ‹_ → _› h
    have h2 := skipClass_suffix _ _ ‹skipClass _ = _›
    exact suffix_cons_of _ ((suffix_cons_of _ (suffix_cons_of _ h1)).trans (h2.trans (suffix_tail _)))
  | case9 => exact suffix_cons_of _ (‹_ → _› h)

theorem bracketNext_suffix (p : Str) : (bracketNext p).rest <:+ p := by
  cases p with
  | nil => exact List.suffix_refl _
  | cons c p =>
    rw [bracketNext]
    split <;> exact List.suffix_cons c p

theorem bracketRange_suffix (fn cold e : Char) (p : Str) : (bracketRange fn cold e p).rest <:+ p := by
  rw [bracketRange]
  split
  · exact List.suffix_refl _
  · exact bracketNext_suffix p

theorem bracketChar_suffix (ne : Bool) (fn cold : Char) (p : Str) : (bracketChar ne fn cold p).rest <:+ p := by
  rw [bracketChar]
  split
  · exact List.suffix_refl _
  · split
    · cases p with
      | nil => simp_all
      | cons x p =>
        simp only [List.tail_cons]
        cases p with
        | nil => exact List.nil_suffix
        | cons e p =>
          simp only
          split
          · cases p with
            | nil => exact List.nil_suffix
            | cons e' p =>
              exact suffix_cons_of _ (suffix_cons_of _ (suffix_cons_of _ (bracketRange_suffix fn cold e' p)))
          · exact suffix_cons_of _ (suffix_cons_of _ (bracketRange_suffix fn cold e p))
    · exact bracketNext_suffix p

theorem bracketStep_suffix (ne : Bool) (fn c : Char) (p : Str) : (bracketStep ne fn c p).rest <:+ p := by
  unfold bracketStep
  split
  · cases p with
    | nil => exact List.nil_suffix
    | cons x p =>
      simp only
      split
      · exact List.suffix_cons x p
      · split <;> exact List.suffix_cons x p
  · split
    · rename_i h
      cases p with
      | nil => simp at h
      | cons x p =>
        simp only [List.tail_cons]
        split
        · exact List.nil_suffix
        · exact bracketChar_suffix ne fn '[' (x :: p)
        · rename_i str q hq
          have := className_suffix _ _ _ _ hq
          split <;> exact suffix_cons_of x this
    · exact bracketChar_suffix ne fn c p

theorem bracketLoop_suffix (ne : Bool) (fn c : Char) (p : Str) : (bracketLoop ne fn c p).rest <:+ p := by
  fun_induction bracketLoop ne fn c p with
  | case1 c p c' p' h ih =>
    have := bracketStep_suffix ne fn c p
    rw [h] at this
    exact ih.trans this
  | case2 c p _ => exact bracketStep_suffix ne fn c p

/-- What a bracket leaves is the end of the pattern; it reads beyond the pattern only when the pattern ends with a colon. -/
theorem bracketBody_suffix (ne neg : Bool) (fn : Char) (p : Str) : (∀ q, bracketBody ne neg fn p = .at q → q <:+ p) ∧
    (bracketBody ne neg fn p = .undef → [':'] <:+ p) := by
  cases p with
  | nil => exact ⟨fun q h => (by cases h), fun h => (by cases h)⟩
  | cons c p1 =>
    rw [bracketBody]
    have h2 := bracketLoop_suffix ne fn c p1
    cases hb : bracketLoop ne fn c p1 with
    | fail => exact ⟨fun q h => (by cases h), fun h => (by cases h)⟩
    | next => exact ⟨fun q h => (by cases h), fun h => (by cases h)⟩
    | miss r =>
      rw [hb] at h2
      simp only [BrTest.rest] at h2 ⊢
      cases neg
      · exact ⟨fun q h => (by cases h), fun h => (by cases h)⟩
      · exact ⟨fun q h => (by cases h; exact suffix_cons_of _ h2), fun h => (by cases h)⟩
    | hit c2 r =>
      rw [hb] at h2
      simp only [BrTest.rest] at h2 ⊢
      cases hs : skipMatched ne (some c2) r with
      | noMatch => exact ⟨fun q h => (by cases h), fun h => (by cases h)⟩
      | undef => exact ⟨fun q h => (by cases h), fun _ => suffix_cons_of _ ((skipMatched_undef _ _ _ hs).trans h2)⟩
      | «at» r2 =>
        have h3 := skipMatched_suffix _ _ _ _ hs
        cases neg
        · exact ⟨fun q h => (by cases h; exact suffix_cons_of _ (h3.trans h2)), fun h => (by cases h)⟩
        · exact ⟨fun q h => (by cases h), fun h => (by cases h)⟩

theorem bracket_suffix (fl : FnFlags) (fn : Char) (p : Str) : (∀ q, bracket fl fn p = .at q → q <:+ p) ∧
    (bracket fl fn p = .undef → [':'] <:+ p) := by
  unfold bracket
  have := bracketBody_suffix fl.noescape (bracketNot fl p) fn (if bracketNot fl p then p.tail else p)
  have hs : (if bracketNot fl p then p.tail else p) <:+ p := by
    split
    · exact suffix_tail p
    · exact List.suffix_refl _
  exact ⟨fun q h => (this.1 q h).trans hs, fun h => (this.2 h).trans hs⟩

theorem starLoop_suffix (fl : FnFlags) : ∀ (p : Str) (lead : Bool) (n : Str) (l : Bool) (p' n' : Str)
    (_ : starLoop fl lead p n = some (l, p', n')), p' <:+ p
  | [], lead, n, l, p', n', h => by
    cases h; exact List.suffix_refl _
  | c :: p, lead, n, l, p', n', h => by
    unfold starLoop at h
    split at h
    · split at h
      · cases h
      · split at h
        · cases n with
          | nil => cases h
          | cons x n => exact suffix_cons_of _ (starLoop_suffix fl p _ _ _ _ _ h)
        · exact suffix_cons_of _ (starLoop_suffix fl p _ _ _ _ _ h)
    · cases h; exact List.suffix_refl _

theorem tryFrom_safe (stop : Char → Bool) (f : Bool → Str → Option Bool) (hf : ∀ l n, f l n ≠ none) :
    ∀ (n : Str) (lead : Bool), tryFrom stop f lead n ≠ none := by
  intro n
  induction n with
  | nil => intro _ h; cases h
  | cons x n ih =>
    intro lead h
    rw [tryFrom] at h
    split at h
    · cases h
    · split at h
      · rename_i hn
        exact hf _ _ hn
      · cases h
      · exact ih _ h

/-- Matching never reads beyond a pattern that does not end with a colon. -/
theorem fnmatchFrom_safe (fl : FnFlags) (period : Bool) : ∀ (k : Nat) (p : Str), p.length ≤ k → ¬ [':'] <:+ p →
    ∀ (nlp lead : Bool) (n : Str), fnmatchFrom fl period nlp lead p n ≠ none := by
  intro k
  induction k with
  | zero =>
    intro p hk hp nlp lead n
    have : p = [] := List.length_eq_zero_iff.1 (Nat.le_zero.1 hk)
    subst this
    rw [fnmatchFrom.eq_def]
    simp
  | succ k ih =>
    intro p hk hp nlp lead n
    cases p with
    | nil => rw [fnmatchFrom.eq_def]; simp
    | cons c p =>
      have hp' : ¬ [':'] <:+ p := fun h => hp (suffix_cons_of _ h)
      have hk' : p.length ≤ k := by simp at hk; omega
      have sub : ∀ q, q <:+ p → ∀ nlp lead n, fnmatchFrom fl period nlp lead q n ≠ none := fun q hq =>
        ih q (Nat.le_trans hq.length_le hk') fun h => hp' (h.trans hq)
      have self := sub p (List.suffix_refl _)
      rw [fnmatchFrom.eq_def]
      simp only
      split
      · split
        · simp
        · split
          · simp
          · exact self _ _ _
      · split
        · split
          · simp
          · rename_i d p
            split
            · simp
            · split
              · exact sub p (List.suffix_cons d p) _ _ _
              · simp
        · split
          · split
            · simp
            · split
              · simp
              · simp
              · rename_i l c' p' n' hs
                have hsuf := starLoop_suffix fl _ _ _ _ _ _ hs
                split
                · exact tryFrom_safe _ _ (fun l n => sub _ hsuf _ _ _) _ _
                · split
                  · split
                    · simp
                    · exact sub _ ((List.suffix_cons c' p').trans hsuf) _ _ _
                  · refine tryFrom_safe _ _ (fun l n => ?_) _ _
                    split <;> split
                    · exact sub _ hsuf _ _ _
                    · simp
                    · exact sub _ hsuf _ _ _
                    · simp
          · split
            · split
              · simp
              · split
                · simp
                · split
                  · simp
                  · rename_i hb
                    exact absurd ((bracket_suffix fl _ p).2 hb) hp'
                  · rename_i q hb
                    exact sub q ((bracket_suffix fl _ p).1 q hb) _ _ _
            · split
              · simp
              · split
                · exact self _ _ _
                · simp

end Remake
