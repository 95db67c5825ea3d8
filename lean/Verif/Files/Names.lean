import Verif.Files.Model
import Verif.Files.Spec
/-! Lemmas about the three ways in which leading `./` are stripped. -/
set_option linter.unusedSimpArgs false
namespace Remake
open Spec

theorem stripSeq_dot (c : Char) (t : Str) :
    stripSeq ('.' :: '/' :: c :: t) = stripSeq (dropSlashes (c :: t)) := by
  rw [stripSeq.eq_def]
  simp

theorem stripLookup_dot (c : Char) (t : Str) :
    stripLookup ('.' :: '/' :: c :: t) = stripLookup (dropSlashes (c :: t)) := by
  rw [stripLookup.eq_def]; simp

theorem stripCommand_dot (t : Str) :
    stripCommand ('.' :: '/' :: t) = stripCommand (dropSlashes t) := by
  rw [stripCommand.eq_def]; simp

theorem strip_other {s : Str} (h : ¬ ['.', '/'] <+: s) :
    stripSeq s = s ∧ stripLookup s = s ∧ stripCommand s = s := by
  refine ⟨?_, ?_, ?_⟩
  · rw [stripSeq.eq_def]
    split
    · exact absurd ⟨_, rfl⟩ h
    · rfl
  · rw [stripLookup.eq_def]
    split
    · exact absurd ⟨_, rfl⟩ h
    · rfl
  · rw [stripCommand.eq_def]
    split
    · exact absurd ⟨_, rfl⟩ h
    · rfl

theorem strip_two : stripSeq ['.', '/'] = ['.', '/'] ∧ stripLookup ['.', '/'] = ['.', '/'] ∧
    stripCommand ['.', '/'] = [] := by
  refine ⟨?_, ?_, ?_⟩
  · rw [stripSeq.eq_def]; simp
  · rw [stripLookup.eq_def]; simp
  · rw [stripCommand.eq_def]; simp [dropSlashes]; rw [stripCommand.eq_def]

theorem stripSeq_eq_lookup (s : Str) : stripSeq s = stripLookup s := by
  generalize hn : s.length = n
  induction n using Nat.strongRecOn generalizing s with
  | _ n ih =>
    by_cases h : ['.', '/'] <+: s
    · obtain ⟨t, rfl⟩ := h
      cases t with
      | nil => exact strip_two.1.trans strip_two.2.1.symm
      | cons c t =>
        simp only [List.cons_append, List.nil_append] at *
        rw [stripSeq_dot, stripLookup_dot]
        have := dropSlashes_length (c :: t)
        exact ih _ (by simp at hn this ⊢; omega) _ rfl
    · rw [(strip_other h).1, (strip_other h).2.1]

theorem seqName_eq_lookup (s : Str) : seqName s = lookupName s := by
  simp [seqName, lookupName, stripSeq_eq_lookup]

/-- The result of stripping without the length condition. -/
theorem commandStrip_eq (s : Str) :
    (if stripCommand s = [] then ['.', '/'] else stripCommand s) = lookupName s := by
  generalize hn : s.length = n
  induction n using Nat.strongRecOn generalizing s with
  | _ n ih =>
    by_cases h : ['.', '/'] <+: s
    · obtain ⟨t, rfl⟩ := h
      cases t with
      | nil =>
        rw [List.append_nil, strip_two.2.2]
        simp [lookupName, strip_two.2.1]
      | cons c t =>
        simp only [List.cons_append, List.nil_append] at *
        have := dropSlashes_length (c :: t)
        have h2 := ih _ (by simp at hn this ⊢; omega) (dropSlashes (c :: t)) rfl
        rw [stripCommand_dot, h2]
        simp [lookupName, stripLookup_dot]
    · simp [lookupName, (strip_other h).2.1, (strip_other h).2.2]

theorem dropSlashes_split (t : Str) :
    ∃ k, t = List.replicate k '/' ++ dropSlashes t ∧ (dropSlashes t).head? ≠ some '/' := by
  unfold dropSlashes
  induction t with
  | nil => exact ⟨0, rfl, by simp⟩
  | cons c cs ih =>
    obtain ⟨k, h1, h2⟩ := ih
    by_cases h : c = '/'
    · refine ⟨k + 1, ?_, ?_⟩
      · rw [List.dropWhile_cons_of_pos (by simp [h]), List.replicate_succ, List.cons_append, ← h1, h]
      · rw [List.dropWhile_cons_of_pos (by simp [h])]; exact h2
    · refine ⟨0, ?_, ?_⟩
      · rw [List.dropWhile_cons_of_neg (by simp [h])]; rfl
      · rw [List.dropWhile_cons_of_neg (by simp [h])]; simpa using h

theorem dropSlashes_replicate {r : Str} (k : Nat) (h : r.head? ≠ some '/') :
    dropSlashes (List.replicate k '/' ++ r) = r := by
  unfold dropSlashes
  induction k with
  | zero =>
    cases r with
    | nil => rfl
    | cons c cs => rw [List.replicate_zero, List.nil_append, List.dropWhile_cons_of_neg]; simpa using h
  | succ k ih => rw [List.replicate_succ, List.cons_append, List.dropWhile_cons_of_pos (by simp), ih]

/-- What `stripCommand` leaves. -/
theorem stripCommand_spec (s : Str) : ∃ d, s = d ++ stripCommand s ∧ Dots d ∧
    (d ≠ [] → (stripCommand s).head? ≠ some '/') ∧ ¬ ['.', '/'] <+: stripCommand s := by
  generalize hn : s.length = n
  induction n using Nat.strongRecOn generalizing s with
  | _ n ih =>
    by_cases h : ['.', '/'] <+: s
    · obtain ⟨t, rfl⟩ := h
      simp only [List.cons_append, List.nil_append] at *
      obtain ⟨k, hk, hh⟩ := dropSlashes_split t
      have := dropSlashes_length t
      obtain ⟨d, h1, h2, h3, h4⟩ := ih _ (by simp at hn this ⊢; omega) (dropSlashes t) rfl
      rw [stripCommand_dot]
      refine ⟨'.' :: '/' :: (List.replicate k '/' ++ d), ?_, .more h2, fun _ => ?_, h4⟩
      · simp only [List.cons_append, List.append_assoc, ← h1, ← hk]
      · by_cases hd : d = []
        · subst hd; rw [List.nil_append] at h1; rw [← h1]; exact hh
        · exact h3 hd
    · rw [(strip_other h).2.2]
      exact ⟨[], rfl, .nil, fun h => absurd rfl h, h⟩

theorem lookupName_stripped (s : Str) : Stripped s (lookupName s) := by
  obtain ⟨d, h1, h2, h3, h4⟩ := stripCommand_spec s
  exact ⟨d, _, h1, h2, h3, h4, (commandStrip_eq s).symm⟩

/-- There is only one way to strip a name. -/
theorem stripCommand_dots {d : Str} (hd : Dots d) : ∀ {r : Str},
    (d ≠ [] → r.head? ≠ some '/') → ¬ ['.', '/'] <+: r → stripCommand (d ++ r) = r := by
  induction hd with
  | nil => intro r _ h; rw [List.nil_append]; exact (strip_other h).2.2
  | @more k d hd ih =>
    intro r h1 h2
    have h1 := h1 (by simp)
    simp only [List.cons_append, List.append_assoc]
    rw [stripCommand_dot, dropSlashes_replicate, ih (fun _ => h1) h2]
    cases hd with
    | nil => simpa using h1
    | more _ => simp

theorem stripped_unique {s n : Str} (h : Stripped s n) : n = lookupName s := by
  obtain ⟨d, r, rfl, h2, h3, h4, rfl⟩ := h
  rw [← commandStrip_eq, stripCommand_dots h2 h3 h4]

theorem lookupName_idem (s : Str) : lookupName (lookupName s) = lookupName s := by
  rw [← commandStrip_eq s]
  obtain ⟨d, h1, h2, h3, h4⟩ := stripCommand_spec s
  split
  · simp [lookupName, strip_two.2.1]
  · rename_i h
    simp [lookupName, (strip_other h4).2.1, h]

end Remake
