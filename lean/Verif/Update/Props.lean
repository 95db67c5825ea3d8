import Verif.Update.Spec
import Verif.Update.StartLemmas
import Verif.Update.Fresh
/-!
# Updating targets: properties

Events are compared with what the graph says; the outside world (`Env`) and its schedule are
arbitrary.
-/
namespace Remake
set_option linter.unusedVariables false
open Spec

variable (e : Env) (G : Graph) (goals : List Nat) (n k : Nat)

/-- What holds of the log of every outcome. -/
theorem sat_log {o : UOut UStatus} {p : List UEvent → Prop} (h : o.sat (fun _ s => p s.log) (fun s => p s.log) (fun s => p s.log)) :
    p (trace o).reverse := by
  cases o <;> simpa [trace, UOut.sat] using h

theorem run_sat {Q E F} (h : wp (updateGoals e n k goals) Q E F G.initial) : (run e G goals n k).sat Q E F := h

theorem starts_count (l : List UEvent) (h : (l.filterMap startOf).Nodup) (f : Nat) : l.count (.start f) ≤ 1 := by
  have : l.count (.start f) ≤ (l.filterMap startOf).count f := by
    clear h
    induction l with
    | nil => exact Nat.le_refl _
    | cons ev l ih =>
      rw [List.count_cons]
      cases ev with
      | start g =>
        simp only [List.filterMap_cons, startOf, List.count_cons]
        by_cases hg : g = f <;> simp [hg] <;> omega
      | done g st => simpa [List.filterMap_cons, startOf] using ih
      | dropped g d => simpa [List.filterMap_cons, startOf] using ih
  exact Nat.le_trans this (List.nodup_iff_count.mp h f)

/-! ### C43 -/

/-- **C43.** A recipe is started at most once in a run: in every graph without intermediate files,
cyclic or not, with double-colon rules and grouped targets, whatever the recipes and the outside
world do and however long the run has been going on.  Missing: intermediate files. -/
theorem C43_once_partial (h : NoIntermediate G) (f : Nat) : (trace (run e G goals n k)).count (.start f) ≤ 1 := by
  have := sat_log (o := run e G goals n k) (p := fun l => (l.filterMap startOf).Nodup)
    (run_sat e G goals n k (wp_mono (updateGoals_inv (e := e) (G.shape_ok goals) n k goals _ (initial_inv0 h goals) initial_noFlag)
      (fun _ _ q => q.1.log.once) (fun _ q => q.once) (fun _ q => q.once)))
  rw [← List.count_reverse]
  exact starts_count _ this f

/-! ### C47: circular dependencies -/

theorem same_of_head {x y : Nat} (h : (G.entries x).headD x = (G.entries y).headD y) : SameFile G x y := by
  have hx := G.head_mem x
  have hy := G.head_mem y
  rw [← h] at hy
  unfold SameFile
  unfold Graph.entries at hx hy h
  cases hcx : (G.rule x).colons with
  | none =>
    rw [hcx] at h hx hy
    cases hcy : (G.rule y).colons with
    | none => rw [hcy] at h; exact .inl (by simpa using h)
    | some m =>
      rw [hcy] at hy h
      simp only [List.headD_cons, List.mem_filter, decide_eq_true_eq] at hy
      rw [hy.2] at hcx; cases hcx
  | some m =>
    rw [hcx] at h hx hy
    simp only [List.mem_filter, decide_eq_true_eq] at hx
    cases hcy : (G.rule y).colons with
    | none =>
      rw [hcy] at h hy
      simp only [List.mem_singleton] at hy
      rw [hy, hcy] at hx
      cases hx.2
    | some m' =>
      rw [hcy] at hy
      simp only [List.mem_filter, decide_eq_true_eq] at hy
      rw [hx.2] at hy
      exact .inr ⟨by simp, by rw [hy.2]⟩

theorem together_of_grp {x y : Nat} (h : G.grp x = G.grp y) : MadeTogether G x y := by
  have key : ∀ x, (G.rule x).group = none ∧ G.grp x = x ∨ ∃ m, (G.rule x).group = some m ∧ (G.rule (G.grp x)).group = some m := by
    intro x
    unfold Graph.grp Graph.mates
    cases hc : (G.rule x).group with
    | none => exact .inl ⟨rfl, rfl⟩
    | some m =>
      refine .inr ⟨m, rfl, ?_⟩
      simp only
      rcases headD_mem_or (l := ((List.range G.length).filter fun x => decide ((G.rule x).group = some m)).reverse) x with h | h
      · rw [h.2]; exact hc
      · simp only [List.mem_reverse, List.mem_filter, decide_eq_true_eq] at h
        exact h.2
  rcases key x with ⟨a, b⟩ | ⟨m, a, b⟩ <;> rcases key y with ⟨c, d⟩ | ⟨m', c, d⟩
  · exact .inl (by rw [← b, ← d, h])
  · rw [← h, b, a] at d; cases d
  · rw [h, d, c] at b; cases b
  · rw [h, d] at b
    cases b
    exact .inr ⟨by rw [a]; simp, by rw [a, c]⟩

theorem leads_of_reach {x h' : Nat} (h : (G.shape goals).Reach ((G.shape goals).head x) h') :
    ∀ y, (G.shape goals).head y = h' → Leads G x y := by
  induction h with
  | refl => intro y hy; exact .refl (same_of_head G hy.symm)
  | @step f y _ hedge ih =>
    intro w hw
    obtain ⟨z, hz, hp⟩ := hedge
    exact .step (ih f rfl) ⟨z, together_of_grp G hz.symm, hp⟩ (same_of_head G hw.symm)

/-- **C47.** A dependency of `f` on `d` is dropped only if it is one and following prerequisites
leads back from `d` to `f`: in every graph without intermediate files.  Missing: intermediate
files. -/
theorem C47_drop_partial (h : NoIntermediate G) (f d : Nat) (hd : .dropped f d ∈ trace (run e G goals n k)) :
    DependsOn G f d ∧ Leads G d f := by
  have := sat_log (o := run e G goals n k)
    (p := fun l => ∀ f d, UEvent.dropped f d ∈ l → (G.shape goals).edge ((G.shape goals).grp f) d ∧
      (G.shape goals).Reach ((G.shape goals).head d) ((G.shape goals).head f))
    (run_sat e G goals n k (wp_mono (updateGoals_inv (e := e) (G.shape_ok goals) n k goals _ (initial_inv0 h goals) initial_noFlag)
      (fun _ _ q => q.1.log.drops) (fun _ q => q.drops) (fun _ q => q.drops)))
  obtain ⟨⟨z, hz, hp⟩, hr⟩ := this f d (by simpa using hd)
  exact ⟨⟨z, together_of_grp G hz.symm, hp⟩, leads_of_reach G goals hr f rfl⟩

/-- **C47.** One look at all the goals comes to an end, and no freed memory is used: in every graph
without intermediate files there is a depth of recursion that is enough for all the outside worlds.
Missing: intermediate files; the number of times the goals are looked at (see
`C47_terminates_partial`). -/
theorem C47_pass_partial (h : NoIntermediate G) :
    ∃ n0, ∀ n, n0 ≤ n → ∀ e : Env, (∃ r s, goalPass e n goals .none { G.initial with considered := 1 } = .ok r s) ∨
      ∃ s, goalPass e n goals .none { G.initial with considered := 1 } = .dead s := by
  refine ⟨(G.shape goals).depth, fun n hn e => ?_⟩
  have h1 := goalPass_inv (e := e) (G.shape_ok goals) n goals .none _ (nextPass_inv 1 (initial_inv0 h goals)) initial_noFlag
  have h0 := initial_solid h
  have h2 := goalPass_safe (e := e) n goals .none { G.initial with considered := 1 } ⟨h0.inter, h0.deps, h0.next⟩
  unfold wp at h1
  unfold safe at h2
  cases ho : goalPass e n goals .none { G.initial with considered := 1 } with
  | ok r s => exact .inl ⟨r, s, rfl⟩
  | dead s => exact .inr ⟨s, rfl⟩
  | undef s => rw [ho] at h2; exact h2.elim
  | fuel s => rw [ho] at h1; exact absurd h1.2 (Nat.not_lt.mpr hn)

/-- All that is known of the runs in simple graphs. -/
theorem simple_run (h : Simple G) : (run e G goals n k).sat
    (fun st s => Order G.pre s.log ∧ (∃ b, Top (G.shape goals) G.pre b s) ∧ GoalsOk goals [] st s.log)
    (fun s => Order G.pre s.log)
    (fun s => Order G.pre s.log ∧ (n < (G.shape goals).depth ∨ k < 2 * G.bound goals + 2 * goals.length)) := by
  refine run_sat e G goals n k ?_
  unfold updateGoals
  rw [wp_bind, wp_modify]
  refine wp_mono (goalLoop_plain (e := e) (G.shape_ok goals) (Graph.Plain.shape h goals) n k goals goals .none 0 { G.initial with considered := 1 } false
    (initial_top h goals) (fun x => Nat.zero_le _) (fun _ x => Nat.zero_lt_one) (fun g hg => hg) (fun g hg => Graph.goal_lt hg)
    ⟨.inl rfl, fun g hg => .inl hg⟩) (fun _ _ q => q) (fun _ q => q) (fun s q => ⟨q.1, ?_⟩)
  refine q.2.imp_right (fun hk => ?_)
  have : passes (G.shape goals) { G.initial with considered := 1 } goals false = 2 * G.bound goals + 2 * goals.length := rfl
  rw [this] at hk
  exact hk

/-- **C47.** In a simple graph, cyclic or not, the run comes to an end, whatever the recipes and the
outside world do: there are a depth of recursion and a number of passes that are enough.  With `-k`
it has a result.  Missing: double-colon rules (see `C47_question_hangs`), grouped targets,
intermediate files. -/
theorem C47_terminates_partial (h : Simple G) :
    ∃ n0 k0, ∀ n k, n0 ≤ n → k0 ≤ k → ∀ e : Env, Ended (run e G goals n k) ∧
      (e.keepGoing = true → ∃ st s, run e G goals n k = .ok st s) := by
  refine ⟨(G.shape goals).depth, 2 * G.bound goals + 2 * goals.length, fun n k hn hk e => ?_⟩
  have h1 := simple_run e G goals n k h
  have h2 := updateGoals_safe (e := e) n k goals G.initial (initial_solid (fun r hr => (h r hr).2.2))
  unfold safe at h2
  cases ho : run e G goals n k with
  | ok st s => exact ⟨trivial, fun _ => ⟨st, s, rfl⟩⟩
  | dead s =>
    refine ⟨trivial, fun hkg => ?_⟩
    unfold run at ho
    rw [ho] at h2
    rw [hkg] at h2; cases h2
  | undef s => unfold run at ho; rw [ho] at h2; exact h2.elim
  | fuel s =>
    rw [ho] at h1
    rcases h1.2 with a | a
    · exact absurd a (Nat.not_lt.mpr hn)
    · exact absurd a (Nat.not_lt.mpr hk)

/-! ### C44 -/

/-- **C44.** When the recipe of a target is started, each of its prerequisites has been finished
successfully before, or the dependency has been dropped before (which by `C47_drop_partial` happens
only in cycles): in every simple graph, for every schedule, in every run, even one that ends with an
error.  Missing: double-colon rules (see `C44_double_colon`), grouped targets, intermediate files. -/
theorem C44_order_partial (h : Simple G) (before after : List UEvent) (f d : Nat)
    (ht : trace (run e G goals n k) = before ++ .start f :: after) (hd : d ∈ G.pre f) :
    .done d .success ∈ before ∨ .dropped f d ∈ before := by
  have := sat_log (o := run e G goals n k) (p := fun l => Order G.pre l) (by
    have := simple_run e G goals n k h
    cases ho : run e G goals n k <;> rw [ho] at this
    · exact this.1
    · exact this
    · exact this
    · exact this.1)
  rw [ht] at this
  have := this after.reverse (.start f) before.reverse f (by simp) (.inl rfl) d hd
  rcases this with a | a
  · exact .inr (by simpa using a)
  · exact .inl (by simpa using a)

/-! ### C46 -/

/-- **C46.** Without `-k`, no recipe is started after a target has failed: in every graph. -/
theorem C46_stop (hk : e.keepGoing = false) (before after : List UEvent) (f g : Nat)
    (ht : trace (run e G goals n k) = before ++ .done f .failed :: after) : .start g ∉ after := by
  have := sat_log (o := run e G goals n k) (p := fun l => ∃ l1 l2, l = l1 ++ l2 ∧ (∀ ev ∈ l1, ∃ x st, ev = UEvent.done x st) ∧
      ∀ x, UEvent.done x .failed ∉ l2)
    (run_sat e G goals n k (wp_mono (updateGoals_nf hk n k goals G.initial initial_noFail) (fun _ _ q => q.last) (fun _ q => q) (fun _ q => q)))
  obtain ⟨l1, l2, heq, h1, h2⟩ := this
  rw [ht] at heq
  simp only [List.reverse_append, List.reverse_cons, List.append_assoc, List.singleton_append] at heq
  intro hs
  -- the failure is in the part of which the targets are only finished, and so is what is later
  rcases List.append_eq_append_iff.mp heq with ⟨c, ha, hb⟩ | ⟨c, ha, hb⟩
  · have : UEvent.start g ∈ l1 := by rw [ha]; exact List.mem_append_left _ (List.mem_reverse.mpr hs)
    obtain ⟨x, st, hev⟩ := h1 _ this
    cases hev
  · have : UEvent.done f .failed ∈ l2 := by
      rw [hb]; exact List.mem_append_right _ (List.mem_cons_self ..)
    exact h2 f this

/-- **C46.** Without `-k`, if a target has failed then there is no result: `make` has given up.  In
every graph. -/
theorem C46_gives_up (hk : e.keepGoing = false) (f : Nat) (hf : .done f .failed ∈ trace (run e G goals n k)) (st : UStatus) (s : UState) :
    run e G goals n k ≠ .ok st s := by
  intro ho
  have := run_sat e G goals n k (updateGoals_nf hk n k goals G.initial initial_noFail)
  rw [ho] at this hf
  exact this.log f (by simpa [trace] using hf)

/-- **C46.** In a simple graph, when the run is over: no target is finished twice with different
statuses; a target of which a prerequisite has not been finished with success, other than by a
dropped dependency, is neither started nor finished with success; every goal is finished; and the
overall status is a failure (or the "no" of `-q`) exactly if one of the goals has not been finished
with success.  Missing: other graphs. -/
theorem C46_fails_partial (h : Simple G) (st : UStatus) (s : UState) (ho : run e G goals n k = .ok st s) :
    (∀ f a b, .done f a ∈ trace (.ok st s) → .done f b ∈ trace (.ok st s) → a = b) ∧
    (∀ f d a, d ∈ G.pre f → .dropped f d ∉ trace (.ok st s) → .done d a ∈ trace (.ok st s) → a ≠ .success →
      .start f ∉ trace (.ok st s) ∧ .done f .success ∉ trace (.ok st s)) ∧
    (∀ g ∈ goals, ∃ a, .done g a ∈ trace (.ok st s)) ∧
    ((st = .failed ∨ st = .question) ↔ ∃ g ∈ goals, ∃ a, a ≠ .success ∧ .done g a ∈ trace (.ok st s)) := by
  have hr := simple_run e G goals n k h
  rw [ho] at hr
  obtain ⟨hord, ⟨b, top⟩, hg⟩ := hr
  have uniq : ∀ f a b, UEvent.done f a ∈ s.log → UEvent.done f b ∈ s.log → a = b := by
    intro f a b ha hb
    rw [← (top.inv.dn' f a ha).2, ← (top.inv.dn' f b hb).2]
  simp only [trace, List.mem_reverse]
  refine ⟨uniq, fun f d a hd hnd ha hne => ?_, fun g hgg => ?_, ?_⟩
  · have key : ∀ ev, Needs f ev → ev ∉ s.log := by
      intro ev hn hm
      rcases hord.settled hm hn d hd with c | c
      · exact hnd c
      · exact hne (uniq d a .success ha c)
    exact ⟨key _ (.inl rfl), key _ (.inr rfl)⟩
  · rcases hg.goals g hgg with c | ⟨u, hu, _⟩
    · cases c
    · exact ⟨u, hu⟩
  · constructor
    · intro hst
      rcases hg.status with c | ⟨_, g, hgg, u, hu, hm⟩
      · rcases hst with c' | c' <;> rw [c] at c' <;> cases c'
      · exact ⟨g, hgg, u, hu, hm⟩
    · rintro ⟨g, hgg, a, ha, hm⟩
      rcases hg.goals g hgg with c | ⟨u, hu, hs⟩
      · cases c
      · have := uniq g a u hm hu
        rcases hs with c | c
        · rw [this] at ha; exact absurd c ha
        · cases st <;> simp [UStatus.rank] at c ⊢

/-! ### C45 -/

/-- **C45.** A recipe is started only for a file that there may be a reason to remake: in a simple
graph, cyclic or not, for every schedule, whatever the recipes do to the times of the files that are
remade, and even if some fail.  So nothing is done when everything is up to date, and order-only
prerequisites alone, remade or newer, never cause anything to be remade.  Missing: the converse,
for which see `C45_remade_partial`; other graphs. -/
theorem C45_only_stale_partial (h : Simple G) (t0 : Nat → Nat) (hw : ∀ i l x, ¬ Stale e G t0 x → e.stat i l x = t0 x) (f : Nat)
    (hf : .start f ∈ trace (run e G goals n k)) : Stale e G t0 f := by
  have fixed : Fixed e (Stale e G t0) t0 G.lay := by
    refine ⟨fun i l x a => ?_, fun x a b => a (.missing (by omega)), fun x a => ?_, fun d ho a => ?_⟩
    · rw [hw i l x a]
      have : ¬ t0 x ≤ 1 := fun b => a (.missing b)
      omega
    · exact Bool.eq_false_iff.mpr fun b => a (.always b)
    · simp only [Graph.lay] at ho a ⊢
      cases hx : (G.rule (d / G.width)).prereqs[d % G.width]? with
      | none => rw [hx] at ho; cases ho
      | some p =>
        rw [hx] at ho
        obtain ⟨p, b⟩ := p
        simp only [Option.getD_some] at ho ⊢
        subst ho
        have hm := List.mem_of_getElem? hx
        exact ⟨fun c => a (.after hm c), Nat.not_lt.mp fun c => a (.newer hm c)⟩
  have hi : Fresh (Stale e G t0) t0 G.lay G.initial := initial_fresh h (fun x a => Bool.eq_false_iff.mpr fun b => a (.phony b))
  have := sat_log (o := run e G goals n k) (p := fun l => ∀ x, UEvent.start x ∈ l → Stale e G t0 x)
    (run_sat e G goals n k (wp_mono (updateGoals_fresh fixed n k goals _ hi) (fun _ _ q => q.log) (fun _ q => q.log) (fun _ q => q.log)))
  exact this f (by simpa using hf)

end Remake
