import Verif.Cmds.Spec
set_option linter.unusedVariables false
set_option linter.unusedSimpArgs false
/-! # Lemmas on the deletion of targets -/
namespace Remake

/-- A list of targets is gone through. -/
theorem deleteTargets_spec (ok : Str → Bool) (d : Disk) (fs : List DFile) (n : Str) :
    ((∃ f ∈ fs, f.name = n ∧ Spec.Doomed d f) → ok n = true → fs.foldl (deleteTarget ok) d n = none) ∧
    (¬ (∃ f ∈ fs, f.name = n ∧ Spec.Doomed d f) ∨ ok n = false → fs.foldl (deleteTarget ok) d n = d n) := by
  induction fs generalizing d with
  | nil =>
    refine ⟨?_, fun _ => rfl⟩
    rintro ⟨f, h, _⟩; cases h
  | cons f fs ih =>
    rw [List.foldl_cons]
    have one : (f.name = n ∧ Spec.Doomed d f ∧ ok n = true → deleteTarget ok d f n = none) ∧
        (¬ (f.name = n ∧ Spec.Doomed d f ∧ ok n = true) → deleteTarget ok d f n = d n) := by
      refine ⟨?_, ?_⟩
      · rintro ⟨rfl, ⟨h1, h2, h3, i, h4, h5, h6⟩, h7⟩
        simp [deleteTarget, h1, h2, h3, h4, h5, h6, Disk.unlink, h7]
      · intro h
        rw [deleteTarget]
        split
        · rfl
        · rename_i h1
          simp only [Bool.or_eq_true, not_or, Bool.not_eq_true] at h1
          split
          · rfl
          · rename_i h2
            cases e : d f.name with
            | none => rfl
            | some i =>
              simp only
              split
              · rename_i h3
                simp only [Bool.and_eq_true, decide_eq_true_eq] at h3
                rw [Disk.unlink, if_neg]
                rintro ⟨h4, h5⟩
                subst h4
                exact h ⟨rfl, ⟨h1.1, h1.2, h2, i, e, h3.1, h3.2⟩, h5⟩
              · rfl
    -- what becomes of the others
    have same : deleteTarget ok d f n = d n → ∀ g : DFile, g.name = n → (Spec.Doomed (deleteTarget ok d f) g ↔ Spec.Doomed d g) := by
      intro e g hg
      simp only [Spec.Doomed, hg, e]
    have gone : d n = none → fs.foldl (deleteTarget ok) d n = none := by
      intro e
      exact ((ih d).2 (.inl (by rintro ⟨g, _, hg, _, _, _, i, h, _⟩; rw [hg, e] at h; cases h))).trans e
    have gone' : deleteTarget ok d f n = none → fs.foldl (deleteTarget ok) (deleteTarget ok d f) n = none := by
      intro e
      exact ((ih _).2 (.inl (by rintro ⟨g, _, hg, _, _, _, i, h, _⟩; rw [hg, e] at h; cases h))).trans e
    refine ⟨?_, ?_⟩
    · rintro ⟨g, hg, hn, hd⟩ hok
      by_cases hf : f.name = n ∧ Spec.Doomed d f ∧ ok n = true
      · exact gone' (one.1 hf)
      · have e := one.2 hf
        rcases List.mem_cons.1 hg with hg | hg
        · subst hg; exact absurd ⟨hn, hd, hok⟩ hf
        · exact (ih _).1 ⟨g, hg, hn, (same e g hn).2 hd⟩ hok
    · intro h
      have hf : ¬ (f.name = n ∧ Spec.Doomed d f ∧ ok n = true) := by
        rintro ⟨h1, h2, h3⟩
        rcases h with h | h
        · exact h ⟨f, by simp, h1, h2⟩
        · rw [h3] at h; cases h
      have e := one.2 hf
      rw [(ih _).2, e]
      rcases h with h | h
      · left
        rintro ⟨g, hg, hn, hd⟩
        exact h ⟨g, by simp [hg], hn, (same e g hn).1 hd⟩
      · exact .inr h

/-- The targets of a child that have not been seen to before. -/
def childTargets (c : DChild) : List DFile := if c.deleted || decide (c.pid < 0) then [] else c.file :: c.also

theorem deleteChild_eq (ok : Str → Bool) (d : Disk) (c : DChild) :
    (deleteChildTargets ok d c).1 = (childTargets c).foldl (deleteTarget ok) d := by
  rw [deleteChildTargets, childTargets]
  split <;> rfl

theorem interrupt_eq (ok : Str → Bool) (d : Disk) (cs : List DChild) :
    (interruptChildren ok d cs).1 = (cs.flatMap childTargets).foldl (deleteTarget ok) d := by
  induction cs generalizing d with
  | nil => rfl
  | cons c cs ih =>
    simp only [interruptChildren, List.flatMap_cons, List.foldl_append]
    rw [ih, deleteChild_eq]

theorem unlink_fold (ok : Str → Bool) (p : DFile → Bool) (d : Disk) (fs : List DFile) (n : Str) :
    fs.foldl (fun d f => if p f then d.unlink ok f.name else d) d n =
      if (fs.any fun f => p f && decide (f.name = n)) && ok n then none else d n := by
  induction fs generalizing d with
  | nil => rfl
  | cons f fs ih =>
    rw [List.foldl_cons, ih, List.any_cons]
    cases hp : p f
    · simp
    · by_cases hn : f.name = n
      · subst hn
        cases hk : ok f.name <;> simp [Disk.unlink, hk]
      · have : ¬ n = f.name := fun h => hn h.symm
        simp [hn, Disk.unlink, this]

end Remake
