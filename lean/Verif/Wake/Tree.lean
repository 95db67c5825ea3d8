import Verif.Wake.Progress
/-! # Sleeping and waking up: all makes of a job server (C125) -/
set_option linter.unusedVariables false
set_option linter.unusedSimpArgs false
namespace Remake
open Spec

/-- All makes that jobs of `m` have started fulfil `P`. -/
def StartedMakes (m : WMake) (P : Nat → Prop) : Prop := ∀ k ∈ m.kids, ∀ subs, k.proc = .runs subs → ∀ j ∈ subs, P j

theorem started_init (trad : Bool) (P : Nat → Prop) : StartedMakes (WMake.init trad) P := by
  intro k hk; simp [WMake.init] at hk

theorem started_free {m : WMake} {P : Nat → Prop} (h : StartedMakes m P) : StartedMakes m.free.1 P := by
  unfold WMake.free
  split <;> exact h

theorem started_kids {m m' : WMake} {P : Nat → Prop} (h : StartedMakes m P) (e : ∀ k ∈ m'.kids, k ∈ m.kids ∨ k.proc = .runs [] ∨ k.proc = .unstarted ∨ k.proc = .ended) :
    StartedMakes m' P := by
  intro k hk subs hp j hj
  rcases e k hk with h1 | h1 | h1 | h1
  · exact h k h1 subs hp j hj
  · rw [h1] at hp; cases hp; cases hj
  · rw [h1] at hp; cases hp
  · rw [h1] at hp; cases hp

theorem started_startJob {m : WMake} {P : Nat → Prop} {more : Nat} {high : Bool} {s : WStarted} (h : StartedMakes m P) :
    StartedMakes (m.startJob more high s).1 P := by
  unfold WMake.startJob
  split
  · exact h
  · cases s with
    | runs =>
      refine started_kids h ?_
      intro k hk
      rcases List.mem_cons.1 hk with h1 | h1
      · rw [h1]; simp
      · exact .inl h1
    | unstarted =>
      refine started_kids h ?_
      intro k hk
      rcases List.mem_cons.1 hk with h1 | h1
      · rw [h1]; simp
      · exact .inl h1
    | finished => exact started_free h

theorem started_own {calm : Bool} {m m' : WMake} {p p' : Nat} {P : Nat → Prop} (h : StartedMakes m P) (hs : WOwn calm m p m' p') :
    StartedMakes m' P := by
  cases hs with
  | again hr hk ho hm hst =>
    rename_i i k started
    refine started_kids h ?_
    intro x hx
    obtain ⟨j, hj⟩ := List.mem_iff_getElem?.1 hx
    simp only [WMake.again, List.getElem?_modify] at hj
    by_cases hij : i = j
    · subst hij
      rw [hk] at hj
      simp only [if_true, Option.map_eq_map, Option.map_some, Option.some.injEq] at hj
      right; rw [← hj]
      cases started <;> simp
    · simp [hij] at hj
      left; exact List.mem_of_getElem? hj
  | remove hr hk ho =>
    refine started_free (started_kids h ?_)
    intro x hx
    exact .inl (List.mem_of_mem_eraseIdx hx)
  | queueStart hp hw hst => exact started_startJob (m := WMake.dequeue _ _ _) h
  | start hp hst => exact started_startJob (m := { m with tokens := m.tokens + 1, pc := .busy }) h
  | _ => exact h

theorem started_env {m m' : WMake} {P : Nat → Prop} (h : StartedMakes m P) (hs : WEnv m m') : StartedMakes m' P := by
  cases hs with
  | ends hk =>
    refine started_kids h ?_
    intro x hx
    rcases List.mem_or_eq_of_mem_set hx with h1 | h1
    · exact .inl h1
    · rw [h1]; simp
  | _ => exact h

theorem free_trad (m : WMake) : m.free.1.trad = m.trad := by
  unfold WMake.free; split <;> rfl

theorem startJob_trad (m : WMake) (more : Nat) (high : Bool) (s : WStarted) : (m.startJob more high s).1.trad = m.trad := by
  unfold WMake.startJob
  split
  · rfl
  · cases s with
    | finished => exact free_trad m
    | _ => rfl

theorem reach_trad {trad calm : Bool} {m : WMake} {p : Nat} (h : WReach trad calm m p) : m.trad = trad := by
  induction h with
  | init => rfl
  | own _ hs ih =>
    cases hs with
    | remove => exact (free_trad _).trans ih
    | queueStart => exact (startJob_trad _ _ _ _).trans ih
    | start => exact (startJob_trad _ _ _ _).trans ih
    | _ => exact ih
  | env _ hs ih => cases hs <;> exact ih
  | enters j _ hk hp ih => exact ih
  | pipe _ _ ih => exact ih

/-- A make of a job server, taken by itself. -/
theorem reach_of_tree {calm : Bool} {slots : Nat} {w : WWorld} (h : WTree calm slots w) : ∀ (i : Nat) (m : WMake), w.makes[i]? = some m → WReach m.trad calm m w.pipe := by
  have key : ∀ (i : Nat) (m : WMake), w.makes[i]? = some m → ∃ trad, WReach trad calm m w.pipe := by
    induction h with
    | init =>
      intro i m hm
      cases i with
      | zero => simp at hm; subst hm; exact ⟨_, .init⟩
      | succ i => simp at hm
    | own hw hi ho ih =>
      rename_i w i m m' p'
      intro j x hx
      by_cases hij : i = j
      · subst hij
        have hl : i < w.makes.length := (List.getElem?_eq_some_iff.1 hi).1
        simp only [List.getElem?_set, hl, if_true, Option.some.injEq] at hx
        subst hx
        obtain ⟨t, h1⟩ := ih i m hi
        exact ⟨t, .own h1 ho⟩
      · simp only [List.getElem?_set, hij, if_false] at hx
        obtain ⟨t, h1⟩ := ih j x hx
        exact ⟨t, .pipe _ h1⟩
    | env hw hi ho ih =>
      rename_i w i m m'
      intro j x hx
      by_cases hij : i = j
      · subst hij
        have hl : i < w.makes.length := (List.getElem?_eq_some_iff.1 hi).1
        simp only [List.getElem?_set, hl, if_true, Option.some.injEq] at hx
        subst hx
        obtain ⟨t, h1⟩ := ih i m hi
        exact ⟨t, .env h1 ho⟩
      · simp only [List.getElem?_set, hij, if_false] at hx
        exact ih j x hx
    | enters hw hi hk hp ih =>
      rename_i w i m n k subs trad
      have hl : i < w.makes.length := (List.getElem?_eq_some_iff.1 hi).1
      intro j x hx
      by_cases hjl : j < w.makes.length
      · rw [List.getElem?_append_left (by simpa using hjl)] at hx
        by_cases hij : i = j
        · subst hij
          simp only [List.getElem?_set, hl, if_true, Option.some.injEq] at hx
          subst hx
          obtain ⟨t, h1⟩ := ih i m hi
          exact ⟨t, .enters _ h1 hk hp⟩
        · simp only [List.getElem?_set, hij, if_false] at hx
          exact ih j x hx
      · rw [List.getElem?_append_right (by simpa using hjl)] at hx
        have hx' : x = WMake.init trad := by
          have := List.mem_of_getElem? hx
          simpa using this
        subst hx'
        exact ⟨trad, .init⟩
  intro i m hm
  obtain ⟨t, h1⟩ := key i m hm
  rw [reach_trad h1]
  exact h1

/-- Every make of a job server is a make by itself, and was started before the makes that its jobs start. -/
theorem tree_inv {calm : Bool} {slots : Nat} {w : WWorld} (h : WTree calm slots w) :
    ∀ i m, w.makes[i]? = some m → WakeInv calm m ∧ StartedMakes m fun j => i < j ∧ j < w.makes.length := by
  induction h with
  | init =>
    intro i m hm
    cases i with
    | zero => simp at hm; subst hm; exact ⟨winv_init _ _, started_init _ _⟩
    | succ i => simp at hm
  | own hw hi ho ih =>
    rename_i w i m m' p'
    intro j x hx
    by_cases hij : i = j
    · subst hij
      have hl : i < w.makes.length := (List.getElem?_eq_some_iff.1 hi).1
      simp only [List.getElem?_set, hl, if_true, Option.some.injEq, List.length_set] at hx ⊢
      subst hx
      obtain ⟨h1, h2⟩ := ih i m hi
      exact ⟨winv_own h1 ho, started_own h2 ho⟩
    · simp only [List.getElem?_set, hij, if_false, List.length_set] at hx ⊢
      exact ih j x hx
  | env hw hi ho ih =>
    rename_i w i m m'
    intro j x hx
    by_cases hij : i = j
    · subst hij
      have hl : i < w.makes.length := (List.getElem?_eq_some_iff.1 hi).1
      simp only [List.getElem?_set, hl, if_true, Option.some.injEq, List.length_set] at hx ⊢
      subst hx
      obtain ⟨h1, h2⟩ := ih i m hi
      exact ⟨winv_env h1 ho, started_env h2 ho⟩
    · simp only [List.getElem?_set, hij, if_false, List.length_set] at hx ⊢
      exact ih j x hx
  | enters hw hi hk hp ih =>
    rename_i w i m n k subs trad
    have hl : i < w.makes.length := (List.getElem?_eq_some_iff.1 hi).1
    have more : ∀ x j, (StartedMakes x fun a => j < a ∧ a < w.makes.length) → StartedMakes x fun a => j < a ∧ a < w.makes.length + 1 :=
      fun x j h k hk subs hp a ha => ⟨(h k hk subs hp a ha).1, Nat.lt_succ_of_lt (h k hk subs hp a ha).2⟩
    intro j x hx
    simp only [List.length_append, List.length_set, List.length_singleton]
    by_cases hjl : j < w.makes.length
    · rw [List.getElem?_append_left (by simpa using hjl)] at hx
      by_cases hij : i = j
      · subst hij
        simp only [List.getElem?_set, hl, if_true, Option.some.injEq] at hx
        subst hx
        obtain ⟨h1, h2⟩ := ih i m hi
        refine ⟨winv_enters h1 hk hp, ?_⟩
        intro y hy sb hsb a ha
        rcases List.mem_or_eq_of_mem_set hy with h3 | h3
        · exact more _ _ h2 y h3 sb hsb a ha
        · rw [h3] at hsb
          cases hsb
          rcases List.mem_cons.1 ha with e | e
          · subst e; exact ⟨hl, by omega⟩
          · exact more _ _ h2 k (List.mem_of_getElem? hk) subs hp a e
      · simp only [List.getElem?_set, hij, if_false] at hx
        obtain ⟨h1, h2⟩ := ih j x hx
        exact ⟨h1, more _ _ h2⟩
    · rw [List.getElem?_append_right (by simpa using hjl)] at hx
      have hx' : x = WMake.init trad := by
        have := List.mem_of_getElem? hx
        simpa using this
      subst hx'
      exact ⟨winv_init _ _, started_init _ _⟩

end Remake
