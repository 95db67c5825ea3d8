import Verif.Files.Merge
/-! The outcome of all mentions of one target. -/
set_option linter.unusedSimpArgs false
namespace Remake
open Spec

/-- A mention, as the specification sees it. -/
def Ment.mention (m : Ment) : Mention PreReq := ⟨m.deps, m.cmds⟩

theorem withRecipe_some {m : Mention PreReq} (ms : List (Mention PreReq)) (h : m.recipe.isSome) :
    withRecipe (m :: ms) = withRecipe ms ++ m.deps ∧ withoutRecipe (m :: ms) = withoutRecipe ms := by
  have h2 : m.recipe.isNone = false := by cases hm : m.recipe <;> simp_all
  simp [withRecipe, withoutRecipe, h, h2]

theorem withRecipe_none {m : Mention PreReq} (ms : List (Mention PreReq)) (h : m.recipe = none) :
    withRecipe (m :: ms) = withRecipe ms ∧ withoutRecipe (m :: ms) = m.deps ++ withoutRecipe ms := by
  simp [withRecipe, withoutRecipe, h]

/-- The record after single-colon mentions. -/
def singleCore (c : FCore) (ms : List (Mention PreReq)) : FCore :=
  { deps := withRecipe ms ++ c.deps ++ withoutRecipe ms
    cmds := (recipes ms).getLast?.or c.cmds
    isTarget := c.isTarget || !ms.isEmpty }

theorem single_run {n : Str} (h1 : n ≠ dotSuffixes) (h2 : n ≠ dotDefault) : ∀ (ms : List Ment)
    (c : FCore), (∀ m ∈ ms, m.double = false) →
    viewRun n (false, [c]) ms = some (false, [singleCore c (ms.map Ment.mention)]) := by
  intro ms
  induction ms with
  | nil => intro c _; simp [viewRun, singleCore, withRecipe, withoutRecipe, recipes]
  | cons m ms ih =>
    intro c h
    have hm := h m (by simp)
    simp only [viewRun, viewStep, hm, Bool.false_eq_true, if_false, List.getLast?_singleton,
      Option.getD_some, Option.bind_some, List.map_cons]
    rw [ih _ fun x hx => h x (by simp [hx])]
    congr 2
    simp only [coreSingle, h1, h2, false_and, if_false, List.cons.injEq, and_true]
    unfold singleCore
    simp only [List.isEmpty_cons, Bool.not_false, Bool.or_true, Bool.true_or, FCore.mk.injEq, and_true]
    cases hc : m.cmds with
    | none =>
      have := withRecipe_none (m := m.mention) (ms.map Ment.mention) hc
      rw [this.1, this.2]
      simp [mergeReqs, Ment.mention, recipes, hc]
    | some r =>
      have := withRecipe_some (m := m.mention) (ms.map Ment.mention) (by simp [Ment.mention, hc])
      rw [this.1, this.2]
      simp only [mergeReqs, Option.isSome_some, if_true, List.append_assoc, true_and, Ment.mention]
      have h3 : recipes ((m.mention) :: (ms.map Ment.mention)) =
          r :: recipes (ms.map Ment.mention) := by simp [recipes, Ment.mention, hc]
      have h4 : (⟨m.deps, m.cmds⟩ : Mention PreReq) = m.mention := rfl
      rw [h4, h3, List.getLast?_cons]
      cases hl : (recipes (ms.map Ment.mention)).getLast? <;> simp

/-- A list of records that has been mentioned as a target. -/
def Touched (v : Bool × List FCore) : Prop := v.1 = true ∨ v.2.any (·.isTarget) = true

theorem step_touched {n : Str} {v v' : Bool × List FCore} {m : Ment} (h : viewStep n v m = some v') :
    v'.1 = m.double ∧ Touched v' ∧ (Touched v → v.1 = m.double) := by
  obtain ⟨d, es⟩ := v
  unfold viewStep at h
  cases hm : m.double with
  | true =>
    simp only [hm, if_true] at h
    cases d with
    | true => simp only [if_true] at h; cases h; exact ⟨rfl, .inl rfl, fun _ => rfl⟩
    | false =>
      simp only [Bool.false_eq_true, if_false] at h
      split at h
      · cases h
      · rename_i hn
        cases h
        refine ⟨rfl, .inl rfl, fun ht => ?_⟩
        rcases ht with ht | ht
        · cases ht
        · exact absurd ht hn
  | false =>
    simp only [hm, Bool.false_eq_true, if_false] at h
    cases d with
    | true => simp at h
    | false =>
      simp only [Bool.false_eq_true, if_false] at h
      cases h
      exact ⟨rfl, .inr (by simp [coreSingle]), fun _ => rfl⟩

theorem run_touched {n : Str} : ∀ (ms : List Ment) (v v' : Bool × List FCore), Touched v →
    viewRun n v ms = some v' → (∀ m ∈ ms, m.double = v.1) ∧ v'.1 = v.1 := by
  intro ms
  induction ms with
  | nil => intro v v' _ h; cases h; exact ⟨by simp, rfl⟩
  | cons m ms ih =>
    intro v v' ht h
    simp only [viewRun] at h
    cases hs : viewStep n v m with
    | none => rw [hs] at h; cases h
    | some u =>
      rw [hs] at h
      obtain ⟨a, b, c⟩ := step_touched hs
      obtain ⟨d, e⟩ := ih u v' b h
      refine ⟨?_, by rw [e, a, c ht]⟩
      intro x hx
      rcases List.mem_cons.1 hx with rfl | hx
      · exact (c ht).symm
      · rw [d x hx, a, c ht]

/-- All mentions use the same kind of rule. -/
theorem run_uniform {n : Str} {ms : List Ment} {v v' : Bool × List FCore}
    (h : viewRun n v ms = some v') : ∀ m ∈ ms, ∀ m' ∈ ms, m.double = m'.double := by
  cases ms with
  | nil => simp
  | cons m ms =>
    simp only [viewRun] at h
    cases hs : viewStep n v m with
    | none => rw [hs] at h; cases h
    | some u =>
      rw [hs] at h
      obtain ⟨a, b, -⟩ := step_touched hs
      obtain ⟨d, -⟩ := run_touched ms u v' b h
      have key : ∀ x ∈ m :: ms, x.double = u.1 := by
        intro x hx
        rcases List.mem_cons.1 hx with rfl | hx
        · exact a.symm
        · exact d x hx
      intro x hx y hy
      rw [key x hx, key y hy]

theorem double_run {n : Str} : ∀ (ms : List Ment) (cs : List FCore), (∀ m ∈ ms, m.double = true) →
    viewRun n (true, cs) ms =
      some (true, cs ++ ms.map fun m => ⟨m.deps, m.cmds, true⟩) := by
  intro ms
  induction ms with
  | nil => intro cs _; simp [viewRun]
  | cons m ms ih =>
    intro cs h
    simp only [viewRun, viewStep, h m (by simp), if_true, Option.bind_some]
    rw [ih _ fun x hx => h x (by simp [hx])]
    simp only [List.map_cons, List.append_assoc, List.singleton_append]
    congr 4
    unfold coreDouble mergeReqs emptyCore
    split <;> simp

theorem double_run_first {n : Str} {ms : List Ment} {c : FCore} (hms : ms ≠ [])
    (h : ∀ m ∈ ms, m.double = true) (h1 : c.isTarget = false) (h2 : c.deps = []) :
    viewRun n (false, [c]) ms = some (true, ms.map fun m => ⟨m.deps, m.cmds, true⟩) := by
  cases ms with
  | nil => exact absurd rfl hms
  | cons m ms =>
    simp only [viewRun, viewStep, h m (by simp), if_true, Option.bind_some, Bool.false_eq_true,
      if_false, List.any_cons, List.any_nil, h1, Bool.or_false, List.getLast?_singleton,
      Option.getD_some]
    rw [double_run _ _ fun x hx => h x (by simp [hx])]
    simp only [List.dropLast_singleton, List.nil_append, List.map_cons, List.singleton_append]
    congr 3
    unfold coreDouble mergeReqs
    rw [h2]
    split <;> simp

/-- Warnings at single-colon mentions. -/
theorem single_warns {n : Str} (h2 : n ≠ dotDefault) : ∀ (ms : List Ment)
    (c : FCore), (∀ m ∈ ms, m.double = false) → (c.cmds.isSome → c.isTarget = true) →
    viewWarns n (false, [c]) ms =
      changes (c.cmds.toList ++ recipes (ms.map Ment.mention)) := by
  intro ms
  induction ms with
  | nil => intro c _ _; cases c.cmds <;> simp [viewWarns, changes, recipes]
  | cons m ms ih =>
    intro c h ht
    have hm := h m (by simp)
    simp only [viewWarns, viewStep, viewWarn, hm, Bool.false_eq_true, if_false,
      List.getLast?_singleton, Option.getD_some, Option.map_some]
    rw [ih _ (fun x hx => h x (by simp [hx])) (fun _ => rfl)]
    simp only [coreSingle, h2, false_and, if_false]
    cases hc : m.cmds with
    | none =>
      have : recipes ((m :: ms).map Ment.mention) = recipes (ms.map Ment.mention) := by
        simp [recipes, Ment.mention, hc]
      rw [this]
      cases c.cmds <;> simp
    | some r =>
      have : recipes ((m :: ms).map Ment.mention) = r :: recipes (ms.map Ment.mention) := by
        simp [recipes, Ment.mention, hc]
      rw [this]
      cases hcc : c.cmds with
      | none => simp
      | some o =>
        have ht := ht (by simp [hcc])
        simp only [Option.isSome_some, if_true, Option.toList_some, List.singleton_append]
        by_cases hro : r = o
        · subst hro; simp [changes]
        · simp [changes, hro, Ne.symm hro, ht]

/-- `.SUFFIXES:` with nothing after it forgets what was there. -/
theorem suffixes_run : ∀ (ms : List Ment) (c : FCore), (∀ m ∈ ms, m.double = false) →
    (∀ m ∈ ms, m.deps ≠ []) →
    ∃ c', viewRun dotSuffixes (false, [c]) ms = some (false, [c']) ∧
      c'.deps = withRecipe (ms.map Ment.mention) ++ c.deps ++ withoutRecipe (ms.map Ment.mention) := by
  intro ms
  induction ms with
  | nil => intro c _ _; exact ⟨c, rfl, by simp [withRecipe, withoutRecipe]⟩
  | cons m ms ih =>
    intro c h hd
    have hm := h m (by simp)
    have hmd := hd m (by simp)
    simp only [viewRun, viewStep, hm, Bool.false_eq_true, if_false, List.getLast?_singleton,
      Option.getD_some, Option.bind_some, List.map_cons]
    obtain ⟨c', e1, e2⟩ := ih (coreSingle dotSuffixes m c) (fun x hx => h x (by simp [hx]))
      (fun x hx => hd x (by simp [hx]))
    refine ⟨c', e1, ?_⟩
    rw [e2]
    simp only [coreSingle, hmd, and_false, if_false]
    cases hc : m.cmds with
    | none =>
      have := withRecipe_none (m := m.mention) (ms.map Ment.mention) hc
      rw [this.1, this.2]
      simp [mergeReqs, Ment.mention]
    | some r =>
      have := withRecipe_some (m := m.mention) (ms.map Ment.mention) (by simp [Ment.mention, hc])
      rw [this.1, this.2]
      simp [mergeReqs, Ment.mention]

end Remake
