import Verif.Update.Props2
import Verif.Update.Near
/-!
# Updating targets: only what the goals need (C117)
-/
namespace Remake
set_option linter.unusedVariables false
open Spec

variable (e : Env) (G : Graph) (goals : List Nat) (n k : Nat)

theorem sameFile_of_entries {f x : Nat} (h : x ∈ G.entries f) : SameFile G f x := by
  unfold Graph.entries at h
  cases hc : (G.rule f).colons with
  | none =>
    rw [hc] at h
    exact .inl (List.mem_singleton.mp h).symm
  | some c =>
    rw [hc] at h
    refine .inr ⟨by rw [hc]; exact nofun, ?_⟩
    rw [hc]
    exact (of_decide_eq_true (List.mem_filter.mp h).2).symm

theorem SameFile_trans {x y z : Nat} (h : SameFile G x y) (h' : SameFile G y z) : SameFile G x z := by
  rcases h with h | h
  · exact h ▸ h'
  · rcases h' with h' | h'
    · exact h' ▸ .inr h
    · exact .inr ⟨h.1, h.2.trans h'.2⟩

theorem Leads_same {x y z : Nat} (h : Leads G x y) (h' : SameFile G y z) : Leads G x z := by
  cases h with
  | refl a => exact .refl (SameFile_trans G a h')
  | step a b c => exact .step a b (SameFile_trans G c h')

theorem together_of_mates {f g : Nat} (h : g ∈ G.mates f) : MadeTogether G f g := by
  unfold Graph.mates at h
  cases hc : (G.rule f).group with
  | none =>
    rw [hc] at h
    exact nomatch h
  | some c =>
    rw [hc] at h
    refine .inr ⟨by rw [hc]; exact nofun, ?_⟩
    rw [hc]
    exact (of_decide_eq_true (List.mem_filter.mp (List.mem_reverse.mp h)).2).symm

theorem initial_near :
    Near (fun f => ∃ g ∈ goals, Leads G g f) (fun f => ∃ g ∈ goals, ∃ y, Leads G g y ∧ MadeTogether G y f)
      (fun n => ∃ g ∈ goals, ∃ y, Leads G g y ∧ MadeTogether G y (n / G.width)) G.initial := by
  refine ⟨fun ev a => (nomatch a), fun x a => (nomatch a), fun g d a b => ?_, fun n x a b => ?_, fun f a x b => ?_, fun f a g b => ?_, fun f a => ?_⟩
  · simp only [Graph.initial] at b
    split at b
    · cases b
    · cases b
      simp only [Nat.mul_div_cancel _ G.width_pos]
      exact a
  · obtain ⟨g, hg, y, hy, ht⟩ := a
    obtain ⟨h1, h2, h3⟩ := initial_dep b
    refine ⟨⟨g, hg, .step hy ⟨_, ht, h2⟩ (.inl rfl)⟩, fun m hm => ⟨g, hg, y, hy, ?_⟩⟩
    obtain ⟨h4, h5⟩ := h3 m hm
    rw [h4, (div_step (Nat.lt_of_lt_of_le h5 (Nat.le_of_lt (Graph.width_lt _)))).1]
    exact ht
  · obtain ⟨g, hg, hl⟩ := a
    have b : x ∈ G.entries ((G.entries f).headD f) := b
    rw [Graph.entries_eq (G.head_mem f)] at b
    exact ⟨g, hg, Leads_same G hl (sameFile_of_entries G b)⟩
  · obtain ⟨g', hg, hl⟩ := a
    exact ⟨g', hg, f, hl, together_of_mates G b⟩
  · obtain ⟨g, hg, hl⟩ := a
    exact ⟨g, hg, f, hl, .inl rfl⟩

/-- What is known of all the runs. -/
theorem near_run : ∀ ev ∈ trace (run e G goals n k),
    EvIn (fun f => ∃ g ∈ goals, Leads G g f) (fun f => ∃ g ∈ goals, ∃ y, Leads G g y ∧ MadeTogether G y f) ev := by
  have := sat_log (o := run e G goals n k)
    (p := fun l => ∀ ev ∈ l, EvIn (fun f => ∃ g ∈ goals, Leads G g f) (fun f => ∃ g ∈ goals, ∃ y, Leads G g y ∧ MadeTogether G y f) ev)
    (run_sat e G goals n k (wp_mono (updateGoals_near n k goals _ (initial_near G goals) (fun g hg => ⟨g, hg, .refl (.inl rfl)⟩))
      (fun _ _ q => q.log) (fun _ q => q.log) (fun _ q => q.log)))
  simpa using this

/-- **C117.** No recipe is started but those of the goals and of what following prerequisites leads to
from them: in every graph, with double-colon rules, grouped targets, intermediate files and cycles; for
every schedule and outside world, with every combination of the options, in every run, whether it comes to
an end or not. -/
theorem C117_started (f : Nat) (h : .start f ∈ trace (run e G goals n k)) : ∃ g ∈ goals, Leads G g f :=
  near_run e G goals n k _ h

/-- **C117.** A target is not declared up to date, remade or failed either, unless it is one of those or
made together with one of those. -/
theorem C117_finished (f : Nat) (u : UStatus) (h : .done f u ∈ trace (run e G goals n k)) :
    ∃ g ∈ goals, ∃ y, Leads G g y ∧ MadeTogether G y f :=
  near_run e G goals n k _ h

/-- **C117.** Nor is a circular dependency reported (and dropped) in a part of the graph that is not
needed. -/
theorem C117_dropped (f d : Nat) (h : .dropped f d ∈ trace (run e G goals n k)) : ∃ g ∈ goals, Leads G g f :=
  near_run e G goals n k _ h

/-- **C117.** Without goals nothing happens at all. -/
theorem C117_nothing : trace (run e G [] n k) = [] := by
  refine List.eq_nil_iff_forall_not_mem.mpr (fun ev h => ?_)
  have := near_run e G [] n k ev h
  cases ev <;> simp [EvIn] at this

end Remake
