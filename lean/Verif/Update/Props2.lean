import Verif.Update.Props
import Verif.Update.Due2
/-!
# Updating targets: what is out of date is remade (C45)
-/
namespace Remake
set_option linter.unusedVariables false
open Spec

variable (e : Env) (G : Graph) (goals : List Nat) (n k : Nat)

/-- What is known of all the runs in simple graphs. -/
theorem due_run (h : Simple G) (t0 : Nat → Nat) (hw : Renews e t0) : DueLog e G t0 (trace (run e G goals n k)).reverse := by
  refine sat_log (p := DueLog e G t0) (run_sat e G goals n k ?_)
  unfold updateGoals
  rw [wp_bind, wp_modify]
  have hle : ∀ x, (({ G.initial with considered := 1 } : UState).file x).considered ≤ ({ G.initial with considered := 1 } : UState).considered :=
    fun x => Nat.zero_le _
  exact wp_mono (goalLoop_due hw h goals G.pre 0 n k goals .none { G.initial with considered := 1 }
    ⟨initial_top h goals, (initial_due h).cons 1, hle⟩ (fun g hg => Graph.goal_lt hg)) (fun _ _ q => q.log) (fun _ q => q) (fun _ q => q)

/-- **C45.** A target that is out of date and is finished with success has been remade: in a simple
graph, cyclic or not (of dependencies that are dropped nothing is said), for every schedule, with every
combination of the options, in every run, even one that fails; provided that recipes that succeed renew
their targets.  Missing: other graphs; recipes that leave their targets as they were (see
`C45_unchanged`). -/
theorem C45_remade_partial (h : Simple G) (t0 : Nat → Nat) (hw : Renews e t0) (f : Nat) (hr : HasRecipe G f)
    (hd : .done f .success ∈ trace (run e G goals n k))
    (ho : OutOfDate e G t0 (fun x p => .dropped x p ∈ trace (run e G goals n k)) f) : .start f ∈ trace (run e G goals n k) := by
  have due := due_run e G goals n k h t0 hw
  generalize trace (run e G goals n k) = l at *
  have key : ∀ f, OutOfDate e G t0 (fun x p => UEvent.dropped x p ∈ l) f → HasRecipe G f → UEvent.done f .success ∈ l → UEvent.start f ∈ l := by
    intro f ho
    induction ho with
    | @always f a =>
      intro hr hd
      rcases due.spared f hr (by simpa using hd) with b | b
      · simpa using b
      · rw [b.1] at a; cases a
    | @missing f a =>
      intro hr hd
      rcases due.spared f hr (by simpa using hd) with b | b
      · simpa using b
      · exact absurd (seenTime_there.mp b.2.1) a
    | @absent f p a b c =>
      intro hr hd
      rcases due.spared f hr (by simpa using hd) with g | g
      · simpa using g
      · rcases g.2.2 p a with i | i
        · exact absurd (by simpa using i) b
        · exact absurd (seenTime_there.mp i.2.2.1) c
    | @newer f p a b c =>
      intro hr hd
      rcases due.spared f hr (by simpa using hd) with g | g
      · simpa using g
      · rcases g.2.2 p a with i | i
        · exact absurd (by simpa using i) b
        · have h1 := seenTime_there.mp i.2.2.1
          have h2 := seenTime_there.mp g.2.1
          have h3 := i.2.2.2
          unfold seenTime at h3
          rw [h1.1, h2.1] at h3
          have := h1.2
          have := h2.2
          simp only [Bool.false_eq_true, if_false] at h3
          omega
    | @after f p a b c d ih =>
      intro hr hd
      rcases due.spared f hr (by simpa using hd) with g | g
      · simpa using g
      · rcases g.2.2 p a with i | i
        · exact absurd (by simpa using i) b
        · exact absurd (by simpa using ih c (by simpa using i.1)) i.2.1
  exact key f ho hr hd

/-- **C45.** A recipe is started only for a target that has one and is out of date: in a simple graph,
for every schedule, without `-n`, `-q` and `.DEFAULT`, even if some recipes fail; provided that
recipes that succeed renew their targets.  Missing: other graphs. -/
theorem C45_reason_partial (h : Simple G) (t0 : Nat → Nat) (hw : Renews e t0) (hq : e.question = false) (hn : e.justPrint = false)
    (hd : e.hasDefault = false) (f : Nat) (hs : .start f ∈ trace (run e G goals n k)) :
    HasRecipe G f ∧ OutOfDate e G t0 (fun _ _ => False) f :=
  (due_run e G goals n k h t0 hw).reason ⟨hq, hn, hd⟩ f (by simpa using hs)

theorem outOfDate_mono {e : Env} {G : Graph} {t0 : Nat → Nat} {D D' : Nat → Nat → Prop} (hD : ∀ x y, D' x y → D x y) {f : Nat}
    (h : OutOfDate e G t0 D f) : OutOfDate e G t0 D' f := by
  induction h with
  | always a => exact .always a
  | missing a => exact .missing a
  | absent a b c => exact .absent a (fun x => b (hD _ _ x)) c
  | newer a b c => exact .newer a (fun x => b (hD _ _ x)) c
  | after a b c d ih => exact .after a (fun x => b (hD _ _ x)) c ih

/-- What a goal needs has been finished with success if the goal has. -/
theorem reached_success (h : Simple G) (hac : ∀ f d, DependsOn G f d → ¬ Leads G d f) {g : Nat}
    (hg : .done g .success ∈ trace (run e G goals n k)) {f : Nat} (hf : Leads G g f) : .done f .success ∈ trace (run e G goals n k) := by
  have rule : ∀ x, (G.rule x).colons = none ∧ (G.rule x).group = none := Graph.Plain.rule h
  have ord : Order G.pre (trace (run e G goals n k)).reverse := sat_log (p := fun l => Order G.pre l) (by
    have := simple_run e G goals n k h
    cases ho : run e G goals n k <;> rw [ho] at this
    · exact this.1
    · exact this
    · exact this
    · exact this.1)
  have same : ∀ x y, SameFile G x y → x = y := fun x y a => a.resolve_right (fun b => b.1 (rule x).1)
  induction hf with
  | refl a => rw [← same _ _ a]; exact hg
  | @step y z w _ hyz hzw ih =>
    rw [← same _ _ hzw]
    obtain ⟨z', hz', hm⟩ := hyz
    have : y = z' := hz'.resolve_right (fun b => b.1 (rule y).2)
    subst this
    rcases ord.settled (by simpa using ih) (.inr rfl) z hm with a | a
    · exact absurd (C47_drop_partial e G goals n k (fun r hr => (h r hr).2.2) y z (by simpa using a)).2
        (hac y z ⟨y, .inl rfl, hm⟩)
    · simpa using a

/-- **C45.** Exactly what is out of date is remade: in a simple graph without cycles, if the run ends
with success, then of the targets with recipes that the goals need, directly or not, exactly those are
remade that are out of date.  Missing: other graphs; recipes that leave their targets as they
were. -/
theorem C45_exact_partial (h : Simple G) (hac : ∀ f d, DependsOn G f d → ¬ Leads G d f) (t0 : Nat → Nat) (hw : Renews e t0)
    (hq : e.question = false) (hn : e.justPrint = false) (hd : e.hasDefault = false) (st : UStatus) (s : UState)
    (ho : run e G goals n k = .ok st s) (hst : st ≠ .failed ∧ st ≠ .question) (g f : Nat) (hg : g ∈ goals) (hgf : Leads G g f)
    (hr : HasRecipe G f) : .start f ∈ trace (run e G goals n k) ↔ OutOfDate e G t0 (fun _ _ => False) f := by
  have fails := C46_fails_partial e G goals n k h st s ho
  have hgd : .done g .success ∈ trace (run e G goals n k) := by
    obtain ⟨a, ha⟩ := fails.2.2.1 g hg
    by_cases hs : a = .success
    · rw [ho, ← hs]; exact ha
    · exact ((fails.2.2.2.mpr ⟨g, hg, a, hs, ha⟩).elim hst.1 hst.2).elim
  refine ⟨fun a => (C45_reason_partial e G goals n k h t0 hw hq hn hd f a).2, fun a => ?_⟩
  refine C45_remade_partial e G goals n k h t0 hw f hr (reached_success e G goals n k h hac hgd hgf) (outOfDate_mono (fun x y b => ?_) a)
  obtain ⟨c1, c2⟩ := C47_drop_partial e G goals n k (fun r hr => (h r hr).2.2) x y b
  exact hac x y c1 c2

end Remake
