import Verif.Wake.Slots
import Verif.Wake.Runs
/-!
# C125: make does not sleep while one of its jobs has ended

With a job server make sleeps in two ways: it waits for one of its jobs, or for a token.
-/
set_option linter.unusedVariables false
set_option linter.unusedSimpArgs false
namespace Remake
open Spec

/-- When make sleeps it has jobs, and none of them has ended without make having noticed; there is no token it could have, if it
sleeps for one.  Whatever other makes do, whenever jobs end and signals arrive, and for both ways to sleep. -/
theorem C125_awake {trad calm : Bool} {m : WMake} {p : Nat} (h : WReach trad calm m p) (ha : Asleep calm m p) :
    m.kids ≠ [] ∧ (∀ k ∈ m.kids, k.proc ≠ .ended) ∧ (WaitsForToken m → p = 0) ∧
    (WaitsForToken m ∨ ∀ k ∈ m.kids, Running k) := by
  obtain ⟨h1, h2, h3⟩ := asleep_where (winv_reach h) ha
  refine ⟨h1, h2, ?_, ?_⟩
  · intro hw
    rcases h3 with ⟨h4, _⟩ | ⟨_, h4⟩
    · rcases h4 with e | e <;> simp [WaitsForToken, e] at hw
    · exact h4
  · exact h3.elim (fun h => .inr h.2) (fun h => .inl h.1)

/-- If every process can be started, all jobs of a sleeping make are running. -/
theorem C125_running_partial {trad : Bool} {m : WMake} {p : Nat} (h : WReach trad true m p) (ha : Asleep true m p) :
    ∀ k ∈ m.kids, Running k := by
  intro k hk
  obtain ⟨_, h2, _⟩ := C125_awake h ha
  rcases over_or_runs k with (h3 | h3) | h3
  · exact absurd h3 (h2 k hk)
  · exact absurd h3 ((winv_reach h).calm rfl k hk)
  · exact h3

/-- The internal errors of the job server do not happen: a job freed without a token, sleeping without a job. -/
theorem C125_no_internal {trad calm : Bool} {m : WMake} {p : Nat} (h : WReach trad calm m p) : m.pc ≠ .fatal :=
  (winv_reach h).sane

/-- Make holds a token for every job, started or waiting. -/
theorem C125_tokens {trad calm : Bool} {m : WMake} {p : Nat} (h : WReach trad calm m p) :
    m.tokens = m.kids.length + m.waiting.length := (winv_reach h).tokens

/-- The search for a slot ends, or make goes to sleep: without something from outside make does not go round for ever. -/
theorem C125_settles {trad calm : Bool} {m : WMake} {p : Nat} (h : WReach trad calm m p) (f : Nat → WMake × Nat) (h0 : f 0 = (m, p)) :
    ¬ ∀ n, Seeks (f n).1 ∧ WOwn calm (f n).1 (f n).2 (f (n + 1)).1 (f (n + 1)).2 := by
  intro hall
  have hinv : ∀ n, WakeInv calm (f n).1 := by
    intro n
    induction n with
    | zero => rw [h0]; exact winv_reach h
    | succ n ih => exact winv_own ih (hall n).2
  exact less_acc _ _ _ m p rfl rfl rfl f h0 fun n => own_less (hinv n) (hall n).2 (hall n).1 (hall (n + 1)).1

/-- The makes of a job server do not wait for each other: if all that have not ended sleep, some job is at work, one that
waits for no make.  This is where every process can be started. -/
theorem C125_no_deadlock_partial {slots : Nat} {w : WWorld} (h : WTree true slots w) (ha : ∀ m ∈ w.makes, m.pc = .ended ∨ Asleep true m w.pipe)
    (hn : ∀ m ∈ w.makes, m.pc ≠ .ended → ∀ k ∈ m.kids, ¬ AtWork w k) : ∀ m ∈ w.makes, m.pc = .ended := by
  have key : ∀ n i, w.makes.length - i = n → ∀ m, w.makes[i]? = some m → m.pc = .ended := by
    intro n
    induction n using Nat.strongRecOn with
    | ind n ih =>
      intro i hi m hm
      have hmem := List.mem_of_getElem? hm
      refine (ha m hmem).elim id fun hs => ?_
      exfalso
      obtain ⟨hinv, hst⟩ := tree_inv h i m hm
      obtain ⟨hk, he, _⟩ := asleep_where hinv hs
      obtain ⟨k, r, hkr⟩ : ∃ k r, m.kids = k :: r := by
        cases hq : m.kids with
        | nil => exact absurd hq hk
        | cons k r => exact ⟨k, r, rfl⟩
      have hkm : k ∈ m.kids := by rw [hkr]; simp
      rcases over_or_runs k with (h3 | h3) | ⟨subs, h3⟩
      · exact he k hkm h3
      · exact hinv.calm rfl k hkm h3
      · refine hn m hmem hs.1 k hkm ⟨subs, h3, ?_⟩
        intro j hj x hx
        obtain ⟨h4, h5⟩ := hst k hkm subs h3 j hj
        exact ih (w.makes.length - j) (by omega) j rfl x hx
  intro m hm
  obtain ⟨i, hi⟩ := List.mem_iff_getElem?.1 hm
  exact key _ i rfl m hi

/-- No token is lost and none is made: those in the pipe and those the makes have taken are as many as there were slots. -/
theorem C125_slots {calm : Bool} {slots : Nat} {w : WWorld} (h : WTree calm slots w) : w.pipe + (w.makes.map Held).sum = slots :=
  held_tree h

/-- With `pselect`, a make that has jobs waiting for the load wakes up after a second. -/
theorem C125_tick {calm : Bool} {m : WMake} {p : Nat} (h : WReach false calm m p) (hw : WaitsForToken m) (hq : m.waiting ≠ []) :
    ∃ m', WEnv m m' ∧ m'.pc = .top ∧ m'.kids = m.kids ∧ m'.waiting = m.waiting := by
  have hpc : m.pc = .sel := by
    refine hw.resolve_right fun e => ?_
    have := (winv_reach h).build.2 (.inr (.inr e))
    rw [reach_trad h] at this; cases this
  exact ⟨_, .tick hpc hq, rfl, rfl, rfl⟩

/-! ## Where the claim fails -/

theorem asleep_wait {calm : Bool} {m : WMake} {p : Nat} (hp : m.pc = .wait) (hk : m.kids ≠ []) (hr : ∀ k ∈ m.kids, Running k)
    (hs : m.trad = true → m.pend = false) : Asleep calm m p := by
  refine ⟨by simp [hp], fun m' p' h => ?_⟩
  have no : ∀ (i : Nat) (k : WJob), m.kids[i]? = some k → ¬ k.over := by
    intro i k hi ho
    obtain ⟨subs, e⟩ := hr k (List.mem_of_getElem? hi)
    rcases ho with h | h <;> (rw [e] at h; cases h)
  cases h with
  | again _ h1 h2 => exact no _ _ h1 h2
  | remove _ h1 h2 => exact no _ _ h1 h2
  | _ => simp_all

theorem asleep_sel {calm : Bool} {m : WMake} (hp : m.pc = .sel) (ht : m.trad = false) (hs : m.pend = false) : Asleep calm m 0 := by
  refine ⟨by simp [hp], fun m' p' h => ?_⟩
  cases h <;> simp_all [WPc.reaps]

theorem asleep_read {calm : Bool} {m : WMake} (hp : m.pc = .read) (hs : m.pend = false) (hr : m.reg = true) (hf : m.rfd = true) :
    Asleep calm m 0 := by
  refine ⟨by simp [hp], fun m' p' h => ?_⟩
  cases h <;> simp_all [WPc.reaps]

/-- Where a process cannot be started there is a deadlock, with `pselect` and without: every make sleeps, none has ended, and no
job is at work. -/
theorem C125_deadlock (trad : Bool) : ∃ w, WTree false 1 w ∧ (∀ m ∈ w.makes, m.trad = trad) ∧ (∀ m ∈ w.makes, Asleep false m w.pipe) ∧
    ∀ m ∈ w.makes, ∀ k ∈ m.kids, ¬ AtWork w k := by
  cases trad with
  | false =>
    refine ⟨_, deadlock_false, by simp, ?_, ?_⟩
    · intro m hm
      simp only [List.mem_cons, List.not_mem_nil, or_false] at hm
      rcases hm with rfl | rfl
      · exact asleep_wait rfl (by simp) (by simp [Running]) (fun h => by cases h)
      · exact asleep_sel rfl rfl rfl
    · intro m hm k hk ⟨subs, h1, h2⟩
      simp only [List.mem_cons, List.not_mem_nil, or_false] at hm
      rcases hm with rfl | rfl
      · simp at hk; subst hk
        cases h1
        have := h2 1 (by simp) _ rfl
        cases this
      · simp at hk; subst hk; cases h1
  | true =>
    refine ⟨_, deadlock_true, by simp, ?_, ?_⟩
    · intro m hm
      simp only [List.mem_cons, List.not_mem_nil, or_false] at hm
      rcases hm with rfl | rfl
      · exact asleep_wait rfl (by simp) (by simp [Running]) (fun _ => rfl)
      · exact asleep_read rfl rfl rfl rfl
    · intro m hm k hk ⟨subs, h1, h2⟩
      simp only [List.mem_cons, List.not_mem_nil, or_false] at hm
      rcases hm with rfl | rfl
      · simp at hk; subst hk
        cases h1
        have := h2 1 (by simp) _ rfl
        cases this
      · simp at hk; subst hk; cases h1

/-- In it a make sleeps though it has nothing to wait for: the only job it has could not be started. -/
theorem C125_late (trad : Bool) : ∃ m, WReach trad false m 0 ∧ Asleep false m 0 ∧ WaitsForToken m ∧ ∀ k ∈ m.kids, k.proc = .unstarted := by
  cases trad with
  | false => exact ⟨_, reach_of_tree deadlock_false 1 _ rfl, asleep_sel rfl rfl rfl, .inl rfl, by simp⟩
  | true => exact ⟨_, reach_of_tree deadlock_true 1 _ rfl, asleep_read rfl rfl rfl rfl, .inr rfl, by simp⟩

/-- Without `pselect` the alarm is lost in the loop around `read`: make sleeps with a job that waits for the load, and nothing
wakes it up to look at the load again. -/
theorem C125_alarm : ∃ m, WReach true true m 0 ∧ Asleep true m 0 ∧ WaitsForToken m ∧ m.waiting ≠ [] ∧ m.timer = false :=
  ⟨_, reach_of_tree lost_alarm 0 _ rfl, asleep_read rfl rfl rfl rfl, .inr rfl, by simp, rfl⟩

/-! ## Cases -/

example : ∃ m, WReach true true m 0 ∧ Asleep true m 0 ∧ m.kids.length = 1 ∧ m.waiting.length = 1 :=
  ⟨_, reach_of_tree lost_alarm 0 _ rfl, asleep_read rfl rfl rfl rfl, rfl, rfl⟩
example : ∃ w, WTree true 1 w ∧ (∀ m ∈ w.makes, m.pc = .ended ∨ Asleep true m w.pipe) ∧ ∃ m ∈ w.makes, ∃ k ∈ m.kids, AtWork w k :=
  ⟨_, lost_alarm, by simp only [List.mem_singleton, forall_eq]; exact .inr (asleep_read rfl rfl rfl rfl),
    _, List.mem_singleton.2 rfl, _, List.mem_singleton.2 rfl, [], rfl, by simp⟩
/-- All makes ended. -/
example : ∃ w, WTree true 3 w ∧ ∀ m ∈ w.makes, m.pc = .ended :=
  ⟨⟨[{ trad := true, pc := .ended }], 3⟩, .own (i := 0) (.own (i := 0) .init rfl (.dies rfl)) rfl (.died rfl rfl), by simp⟩
/-- Make seeks a slot, and a tick comes. -/
example : ∃ m p, WReach false false m p ∧ WaitsForToken m ∧ m.kids ≠ [] :=
  ⟨_, _, reach_of_tree deadlock_false 1 _ rfl, .inl rfl, by simp⟩

end Remake
