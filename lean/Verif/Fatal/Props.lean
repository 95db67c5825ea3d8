import Verif.Fatal.Ends
import Verif.Fatal.Spec

/-!
# Fatal signals: the theorems (C126)
-/
set_option linter.unusedVariables false
namespace Remake

open Spec

/-- Whenever a fatal signal can come, the number of used slots is the number of jobs on the chain whose first command could be
started: what the comment at job.c 900-905 asks for. -/
theorem C126_consistent {s : FState} (h : FatalReach s) (hs : CanSignal s) : s.used = s.kids.countP (fun c => !c.late) := by
  have i := finv_reach h
  have hcr : s.pc.crit = false := by rw [← i.counts.blk]; exact hs.2
  have ho : s.off = 0 := by
    unfold FState.off; cases hp : s.pc <;> simp [hp, FPc.crit] at hcr ⊢
  have hx : s.extra = 0 := by
    unfold FState.extra; cases hp : s.pc <;> simp [hp, FPc.crit] at hcr ⊢
  have := i.counts.cnt
  rw [ho, hx] at this
  rw [show s.used = s.kids.countP (·.slot) from this]
  exact List.countP_congr (fun c hc => by rw [i.counts.late c hc])

/-- Whenever `SIGTERM` comes, every process of a recipe gets it. -/
theorem C126_sent {s : FState} (h : FatalReach s) (hs : CanSignal s) {p : Nat} (hp : RecipeProc s p) : p ∈ (s.signal true).sent := by
  have i := finv_reach h
  have hcr : s.pc.crit = false := by rw [← i.counts.blk]; exact hs.2
  rcases i.procs.owner p hp.1 with h1 | ⟨j, c, hj, hc, _⟩ | ⟨h1, _⟩
  · exact absurd h1 hp.2
  · show p ∈ s.kids.filterMap (·.pid)
    exact List.mem_filterMap.2 ⟨c, List.mem_of_getElem? hj, hc⟩
  · rw [f_between_of_crit _ hcr] at h1; cases h1

/-- Whenever a fatal signal comes, the targets of every job of which a process is running are dealt with (changed ones are deleted). -/
theorem C126_deleted {s : FState} (h : FatalReach s) (hs : CanSignal s) (term : Bool) {p : Nat} (hp : RecipeProc s p) :
    ∃ c ∈ s.kids, c.pid = some p ∧ c.id ∈ (s.signal term).erased := by
  have i := finv_reach h
  have hcr : s.pc.crit = false := by rw [← i.counts.blk]; exact hs.2
  rcases i.procs.owner p hp.1 with h1 | ⟨j, c, hj, hc, hd⟩ | ⟨h1, _⟩
  · exact absurd h1 hp.2
  · have hm := List.mem_of_getElem? hj
    refine ⟨c, hm, hc, List.mem_map.2 ⟨c, List.mem_filter.2 ⟨hm, ?_⟩, rfl⟩⟩
    simp [hd hs.1, hc]
  · rw [f_between_of_crit _ hcr] at h1; cases h1

/-- After a fatal signal make starts no process, and gives no further job a token. -/
theorem C126_no_start {s t : FState} (hs : CanSignal s) (term : Bool) (st : FSteps (s.signal term) t) :
    t.fresh = s.fresh ∧ (∀ p ∈ t.procs, p ∈ s.procs) ∧ t.waiting = s.waiting ∧ t.hand = s.hand ∧
      ∀ c ∈ t.kids, ∃ d ∈ s.kids, d.id = c.id ∧ d.pid = c.pid := by
  obtain ⟨_, h2, h3, _, _, h6, h7, h8⟩ := fdying_steps (s := s.signal term) rfl st
  refine ⟨h2, h3, h6, h7, fun c hc => ?_⟩
  have := h8 c hc
  obtain ⟨d, hd, rfl⟩ := List.mem_map.1 this
  exact ⟨d, hd, by split <;> rfl, by split <;> rfl⟩

/-- When make has ended, by a fatal signal or by itself, no process of a recipe is left that it has not waited for, unless the first
command of the recipe could not be started.  Missing: those recipes (`C126_uncounted`), and the command of the function `shell`
(`C126_shell`). -/
theorem C126_none_left_partial {s : FState} (h : FatalReach s) {e : FExit} (he : s.pc = .gone e) {p : Nat} (hp : RecipeProc s p) :
    ∃ c ∈ s.kids, c.pid = some p ∧ c.late = true := by
  have i := finv_reach h
  have hu : e ≠ .noChild → s.used = 0 := by
    intro hne
    have := i.ends
    cases e <;> simp [FState.EndOk, he] at this hne ⊢ <;> exact this
  cases e with
  | noChild =>
    have := i.ends
    simp [FState.EndOk, he] at this
    have h1 := hp.1
    rw [this] at h1; cases h1
  | left | signal =>
    rcases i.procs.owner p hp.1 with h1 | ⟨j, c, hj, hc, hd⟩ | ⟨h1, _⟩
    · exact absurd h1 hp.2
    · have hm := List.mem_of_getElem? hj
      refine ⟨c, hm, hc, ?_⟩
      have hcnt := i.counts.cnt
      rw [hu (by simp), show s.extra = 0 by simp [FState.extra, he]] at hcnt
      have hz : s.kids.countP (·.slot) = 0 := by
        have : s.off = 0 := by simp [FState.off, he]
        omega
      have := List.countP_eq_zero.1 hz c hm
      have hl := i.counts.late c hm
      cases hlc : c.late <;> simp_all
    · simp [he, FPc.between] at h1

/-- If the signal does not come while `reap_children` deals with a process that it has just waited for, make ends by the signal,
after the intermediate files have been removed; `wait` is never called without a process.  Missing: the other moments
(`C126_no_child`). -/
theorem C126_clean_partial {s t : FState} (h : FatalReach s) (hs : CanSignal s) (hd : ∀ i, s.pc ≠ .dead i) (term : Bool)
    (st : FSteps (s.signal term) t) : t.pc ≠ .gone .noChild := by
  have i := finv_reach h
  have i' : FInv (s.signal term) := finv_step i (.signal s term hs.1 hs.2)
  have hcur : s.pc.cur = none := by
    have hcr : s.pc.crit = false := by rw [← i.counts.blk]; exact hs.2
    cases hp : s.pc <;> simp [hp, FPc.crit] at hcr hd ⊢ <;> rfl
  have ha : (s.signal term).AllAlive := by
    intro c hc p hp
    obtain ⟨d, hd, rfl⟩ := List.mem_map.1 hc
    have hdp : d.pid = some p := by revert hp; split <;> exact id
    obtain ⟨j, hj⟩ := List.getElem?_of_mem hd
    rcases i.procs.alive j d p hs.1 hj hdp with h1 | h1
    · exact h1
    · rw [hcur] at h1; cases h1
  exact (falive_steps i' ha rfl (by simp [FState.signal]) st).2

/-- The handler comes to an end, if the commands do: at each point before the end there is a next step, and the number of steps
is limited by the number of jobs and processes. -/
theorem C126_ends {s : FState} (h : FatalReach s) (hs : CanSignal s) (term : Bool) :
    (∀ n t, FTimes n (s.signal term) t → n ≤ 4 * (s.kids.length + s.procs.length) + 2) ∧
    ∀ t, FSteps (s.signal term) t → (∀ e, t.pc ≠ .gone e) → ∃ u, FStep t u := by
  have i' : FInv (s.signal term) := finv_step (finv_reach h) (.signal s term hs.1 hs.2)
  have key : ∀ n t, FTimes n (s.signal term) t → FSteps (s.signal term) t ∧ n + t.left ≤ (s.signal term).left := by
    intro n t ht
    generalize hg : s.signal term = a at ht i'
    have hd : a.pc.dying = true := by rw [← hg]; rfl
    clear hg
    induction ht with
    | zero => exact ⟨.refl _, by omega⟩
    | succ ht st ih =>
      obtain ⟨h1, h2⟩ := ih i' hd
      have := fleft_step (finv_steps i' h1) (fdying_steps hd h1).1 st
      exact ⟨.tail h1 st, by omega⟩
  refine ⟨fun n t ht => ?_, fun t st hg => ?_⟩
  · have := (key n t ht).2
    simp [FState.left, FState.signal] at this
    omega
  · exact fdying_progress (finv_steps i' st) (fdying_steps rfl st).1 hg

/-- When make has been ended by the signal, the tokens it has not given back are those of the jobs that wait for the load, of a job that
was about to be started, and of recipes whose first command could not be started; one of them is make's own.
Missing: these are lost to the other makes (`C126_token_lost`). -/
theorem C126_tokens_partial {s t : FState} (h : FatalReach s) (hs : CanSignal s) (term : Bool)
    (st : FSteps (s.signal term) t) (he : t.pc = .gone .signal) :
    t.owed = s.waiting.length + s.hand.toList.length + t.kids.length - 1 ∧ ∀ c ∈ t.kids, c.late = true := by
  have i' : FInv (s.signal term) := finv_step (finv_reach h) (.signal s term hs.1 hs.2)
  have i := finv_steps i' st
  obtain ⟨_, _, _, _, _, h6, h7, h8⟩ := fdying_steps (s := s.signal term) rfl st
  have h6' : t.waiting = s.waiting := h6
  have h7' : t.hand = s.hand := h7
  have := i.counts.tok
  have := i.counts.owed
  rw [← h6', ← h7']
  refine ⟨by omega, fun c hc => ?_⟩
  have hcnt := i.counts.cnt
  have hu : t.used = 0 := by have := i.ends; simpa [FState.EndOk, he] using this
  rw [hu, show t.extra = 0 by simp [FState.extra, he], show t.off = 0 by simp [FState.off, he]] at hcnt
  have := List.countP_eq_zero.1 hcnt.symm c hc
  have hl := i.counts.late c hc
  cases hlc : c.late <;> simp_all

/-! ## Concrete runs -/

/-- A job has been started. -/
theorem f_one : FatalReach { kids := [{ id := 7, pid := some 1, slot := true }], used := 1, procs := [1], tokens := 1, fresh := 2 } := by
  have h0 := FSteps.refl {}
  have h1 := h0.tail (.token _ 7 rfl rfl)
  have h2 := h1.tail (.block _ _ rfl rfl)
  have h3 := h2.tail (.fork _ _ true rfl rfl)
  have h4 := h3.tail (.count _ _ rfl rfl)
  have h5 := h4.tail (.chain _ _ rfl rfl)
  exact h5.tail (.unblock _ rfl)

/-- Its process has just been waited for. -/
theorem f_dead : FatalReach { pc := .dead 0, kids := [{ id := 7, pid := some 1, slot := true }], used := 1, procs := [], tokens := 1, fresh := 2 } :=
  f_one.tail (.died _ 1 0 { id := 7, pid := some 1, slot := true } rfl (by decide) (by decide) rfl rfl)

/-- The first command of a job could not be started, this was ignored, and the second command is running. -/
theorem f_late : FatalReach { kids := [{ id := 7, pid := some 1, late := true }], procs := [1], tokens := 1, fresh := 2 } := by
  have h0 := FSteps.refl {}
  have h1 := h0.tail (.token _ 7 rfl rfl)
  have h2 := h1.tail (.block _ _ rfl rfl)
  have h3 := h2.tail (.fork _ _ false rfl rfl)
  have h4 := h3.tail (.count _ _ rfl rfl)
  have h5 := h4.tail (.chain _ _ rfl rfl)
  have h6 := h5.tail (.unblock _ rfl)
  have h7 := h6.tail (.unstarted _ 0 _ rfl rfl rfl)
  have h8 := h7.tail (.again _ 0 _ rfl rfl)
  have h9 := h8.tail (.refork _ 0 _ true rfl rfl)
  exact h9.tail (.reunblock _ rfl)

/-- The function `shell` runs a command. -/
theorem f_shell : FatalReach { procs := [1], shell := some 1, fresh := 2 } :=
  (FSteps.refl {}).tail (.shell _ rfl rfl)

/-- A job is running, two others wait for the load. -/
theorem f_waiting : FatalReach { kids := [{ id := 7, pid := some 1, slot := true }], used := 1, waiting := [{ id := 9 }, { id := 8 }], procs := [1], tokens := 3, owed := 2, fresh := 2 } := by
  have h1 := f_one.tail (.token _ 8 rfl rfl)
  have h2 := h1.tail (.wait _ _ rfl rfl)
  have h3 := h2.tail (.token _ 9 rfl rfl)
  exact h3.tail (.wait _ _ rfl rfl)

/-- The recipe begins with a command that cannot be started and whose failure is ignored.  When its next command runs and make gets
`SIGTERM`, or when another job fails and make gives up, make ends without waiting for that command. -/
theorem C126_uncounted : ∃ s, FatalReach s ∧ CanSignal s ∧ RecipeProc s 1 ∧
    (∃ t, FSteps (s.signal true) t ∧ t.pc = .gone .signal ∧ RecipeProc t 1) ∧ ∃ t, FSteps s t ∧ t.pc = .gone .left ∧ RecipeProc t 1 :=
  ⟨_, f_late, ⟨rfl, rfl⟩, ⟨by decide, by decide⟩,
    ⟨_, (FSteps.refl _).tail (.dend _ rfl rfl), rfl, by decide, by decide⟩,
    ⟨_, (FSteps.refl _).tail (.leave _ rfl rfl), rfl, by decide, by decide⟩⟩

/-- The command of the function `shell` does not get `SIGTERM`, and make ends without waiting for it. -/
theorem C126_shell : ∃ s, FatalReach s ∧ CanSignal s ∧ 1 ∈ s.procs ∧
    ∃ t, FSteps (s.signal true) t ∧ t.pc = .gone .signal ∧ 1 ∈ t.procs ∧ t.sent = [] :=
  ⟨_, f_shell, ⟨rfl, rfl⟩, by decide, _, (FSteps.refl _).tail (.dend _ rfl rfl), rfl, by decide, rfl⟩

/-- The signal comes when `reap_children` has just waited for the process of the only job: make ends with `wait: No child processes`, not
by the signal; `SIGTERM` is sent to the number of a process that is no more; the target of the job is deleted even if the recipe was
complete. -/
theorem C126_no_child : ∃ s, FatalReach s ∧ CanSignal s ∧ s.procs = [] ∧ (s.signal true).sent = [1] ∧ (s.signal true).erased = [7] ∧
    (∀ t, FSteps (s.signal true) t → t.pc ≠ .gone .signal) ∧ ∃ t, FSteps (s.signal true) t ∧ t.pc = .gone .noChild := by
  refine ⟨_, f_dead, ⟨rfl, rfl⟩, rfl, rfl, rfl, ?_, _,
    ((FSteps.refl _).tail (.dmore _ rfl (by decide))).tail (.dfail _ true rfl (.inl (by decide)) (by decide) rfl), rfl⟩
  intro t st
  -- the job stays on the chain
  have key : t.kids = [{ id := 7, pid := some 1, slot := true, deleted := true }] ∧ t.used = 1 ∧ t.procs = [] ∧ t.pc.dying = true ∧ t.pc ≠ .gone .signal := by
    generalize ha : FState.signal _ true = a at st
    induction st with
    | refl => subst ha; refine ⟨rfl, rfl, rfl, rfl, by decide⟩
    | tail st0 st ih =>
      obtain ⟨h1, h2, h3, h4, h5⟩ := ih
      cases st
      case dunstarted b i c hp hi hn =>
        rw [h1] at hi
        cases i <;> simp at hi
        subst hi; cases hn
      case ddied b p i c hp hk hpp hs hi hn => rw [h3] at hpp; cases hpp
      case dshell b p hp hk hpp hs => rw [h3] at hpp; cases hpp
      case signal t term hl hb => cases hp : t.pc <;> simp_all [FPc.dying, FPc.live]
      all_goals simp_all [FPc.dying]
  exact key.2.2.2.2

/-- A make that is ended by the signal while two jobs wait for the load keeps a token that it took from the pipe. -/
theorem C126_token_lost : ∃ s, FatalReach s ∧ CanSignal s ∧ s.waiting.length = 2 ∧
    ∃ t, FSteps (s.signal true) t ∧ t.pc = .gone .signal ∧ t.procs = [] ∧ t.kids = [] ∧ t.owed = 1 := by
  refine ⟨_, f_waiting, ⟨rfl, rfl⟩, rfl, ?_⟩
  have h1 := (FSteps.refl _).tail (.dmore (FState.signal { kids := [{ id := 7, pid := some 1, slot := true }], used := 1, waiting := [{ id := 9 }, { id := 8 }], procs := [1], tokens := 3, owed := 2, fresh := 2 } true) rfl (by decide))
  have h2 := h1.tail (.ddied _ true 1 0 _ rfl (by decide) (by decide) (by decide) rfl rfl)
  have h3 := h2.tail (.dnone _ false rfl rfl rfl)
  exact ⟨_, h3.tail (.dend _ rfl rfl), rfl, rfl, rfl, rfl⟩

/-! ## The hypotheses can be met -/

example : ∃ s, FatalReach s ∧ CanSignal s ∧ RecipeProc s 1 ∧ s.used = 1 := ⟨_, f_one, ⟨rfl, rfl⟩, ⟨by decide, by decide⟩, rfl⟩

example : ∃ s, FatalReach s ∧ CanSignal s ∧ (∀ i, s.pc ≠ .dead i) ∧ s.kids ≠ [] := ⟨_, f_one, ⟨rfl, rfl⟩, by simp, by simp⟩

/-- The signal is blocked while the process is not on the chain. -/
example : ∃ s, FatalReach s ∧ ¬ CanSignal s ∧ RecipeProc s 1 ∧ s.kids = [] := by
  have h0 := FSteps.refl {}
  have h1 := h0.tail (.token _ 7 rfl rfl)
  have h2 := h1.tail (.block _ _ rfl rfl)
  exact ⟨_, h2.tail (.fork _ _ true rfl rfl), (fun h => by cases h.2), ⟨by decide, by decide⟩, rfl⟩

end Remake
