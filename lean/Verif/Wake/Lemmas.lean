import Verif.Wake.Spec
/-! # Sleeping and waking up: lemmas (C125) -/
set_option linter.unusedVariables false
set_option linter.unusedSimpArgs false
namespace Remake
open Spec

/-- The places after `reap_children` at which a death must not go unnoticed. -/
def WPc.late (pc : WPc) : Prop :=
  pc = .queue ∨ pc = .queueReap ∨ pc = .queueStart ∨ pc = .check ∨ pc = .sel ∨ pc = .selRead ∨ pc = .flags ∨ pc = .load ∨ pc = .read

/-- The places at which there are children. -/
def WPc.kept (pc : WPc) : Prop := pc = .sel ∨ pc = .selRead ∨ pc = .flags ∨ pc = .load ∨ pc = .read

structure WakeInv (calm : Bool) (m : WMake) : Prop where
  sane : m.pc ≠ .fatal
  tokens : m.tokens = m.kids.length + m.waiting.length
  used : m.used = m.kids.countP (·.slot)
  queued : m.pc = .check → m.waiting ≠ [] → m.kids ≠ []
  starts : m.pc = .queueReap ∨ m.pc = .queueStart → m.waiting ≠ []
  kept : m.pc.kept → m.kids ≠ []
  dead : m.pc.late → (∃ k ∈ m.kids, k.proc = .ended) → m.pend = true ∨ (m.trad = true ∧ m.rfd = false)
  reg : m.pc = .read → m.reg = false → m.rfd = false
  calm : calm = true → ∀ k ∈ m.kids, k.proc ≠ .unstarted
  build : (m.pc = .sel ∨ m.pc = .selRead → m.trad = false) ∧ (m.pc = .flags ∨ m.pc = .load ∨ m.pc = .read → m.trad = true)

theorem winv_init (calm trad : Bool) : WakeInv calm (WMake.init trad) := by
  refine ⟨?_, ?_, ?_, ?_, ?_, ?_, ?_, ?_, ?_, ?_⟩ <;> simp [WMake.init, WPc.kept, WPc.late]

theorem countP_modify_slot (l : List WJob) (i : Nat) (f : WJob → WJob) (hf : ∀ k, (f k).slot = k.slot) :
    (l.modify i f).countP (·.slot) = l.countP (·.slot) := by
  induction l generalizing i with
  | nil => simp
  | cons a l ih =>
    cases i with
    | zero => simp [List.countP_cons, hf]
    | succ i => simp [List.countP_cons, ih]

theorem countP_eraseIdx_slot (l : List WJob) (i : Nat) (k : WJob) (h : l[i]? = some k) :
    (l.eraseIdx i).countP (·.slot) + k.slot.toNat = l.countP (·.slot) := by
  induction l generalizing i with
  | nil => simp at h
  | cons a l ih =>
    cases i with
    | zero =>
      simp at h; subst h
      cases hk : a.slot <;> simp [List.countP_cons, hk]
    | succ i =>
      have := ih i (by simpa using h)
      simp [List.countP_cons, List.eraseIdx_cons_succ]
      omega

theorem countP_set_slot (l : List WJob) (i : Nat) (k k' : WJob) (h : l[i]? = some k) (hs : k'.slot = k.slot) :
    (l.set i k').countP (·.slot) = l.countP (·.slot) := by
  induction l generalizing i with
  | nil => simp
  | cons a l ih =>
    cases i with
    | zero => simp at h; subst h; simp [List.countP_cons, hs]
    | succ i => simp [List.countP_cons, ih i (by simpa using h)]

theorem winv_again {calm : Bool} {m : WMake} (h : WakeInv calm m) (hr : m.pc.reaps) {i : Nat} {k : WJob} {started : Bool}
    (hk : m.kids[i]? = some k) (hs : calm = true → started = true) : WakeInv calm (m.again i started) := by
  have hmem : ∀ x ∈ (m.again i started).kids, x ∈ m.kids ∨ x.proc = (if started then .runs [] else .unstarted) := by
    intro x hx
    obtain ⟨j, hj⟩ := List.mem_iff_getElem?.1 hx
    simp only [WMake.again, List.getElem?_modify] at hj
    by_cases hij : i = j
    · subst hij
      rw [hk] at hj
      simp only [if_true, Option.map_eq_map, Option.map_some, Option.some.injEq] at hj
      right; rw [← hj]
    · simp [hij] at hj
      left; exact List.mem_of_getElem? hj
  refine ⟨h.sane, ?_, ?_, ?_, h.starts, ?_, ?_, h.reg, ?_, h.build⟩
  · simpa [WMake.again] using h.tokens
  · show m.used = _
    rw [h.used]
    exact (countP_modify_slot m.kids i (fun k => { k with proc := if started then .runs [] else .unstarted, more := k.more - 1 }) (fun _ => rfl)).symm
  · intro hp; rcases hr with e | e | e | e | e <;> (rw [show (m.again i started).pc = m.pc from rfl, e] at hp; cases hp)
  · intro hp
    rw [show (m.again i started).pc = m.pc from rfl] at hp
    rcases hr with e | e | e | e | e <;> simp [WPc.kept, e] at hp
  · rintro hp ⟨x, hx, he⟩
    refine h.dead hp ?_
    rcases hmem x hx with h1 | h1
    · exact ⟨x, h1, he⟩
    · rw [h1] at he; split at he <;> cases he
  · intro hc x hx
    rcases hmem x hx with h1 | h1
    · exact h.calm hc x h1
    · rw [h1, hs hc]; simp

theorem winv_remove {calm : Bool} {m : WMake} (h : WakeInv calm m) (hr : m.pc.reaps) {i : Nat} {k : WJob} {fails : Bool}
    (hk : m.kids[i]? = some k) : WakeInv calm ({ m with pc := m.pc.reaped fails }.remove i k).1 := by
  have hlen : i < m.kids.length := by
    rcases Nat.lt_or_ge i m.kids.length with h1 | h1
    · exact h1
    · rw [List.getElem?_eq_none h1] at hk; cases hk
  have ht : m.tokens ≠ 0 := by rw [h.tokens]; omega
  have hu := countP_eraseIdx_slot _ _ _ hk
  have hpc : m.pc.reaped fails = m.pc ∨ m.pc.reaped fails = .die ∨ m.pc.reaped fails = .ended ∨ m.pc.reaped fails = .busy := by
    unfold WPc.reaped
    split
    · split <;> simp
    · split <;> simp
  simp only [WMake.remove, WMake.free, ht, if_false]
  have hnot : ∀ q : WPc, (q = m.pc ∨ q = .die ∨ q = .ended ∨ q = .busy) → q = .busy ∨ q = .wait ∨ q = .reap ∨ q = .queueReap ∨ q = .die ∨ q = .ended := by
    intro q hq
    rcases hq with rfl | rfl | rfl | rfl
    · rcases hr with e | e | e | e | e <;> simp [e]
    all_goals simp
  have hq := hnot _ hpc
  refine ⟨?_, ?_, ?_, ?_, ?_, ?_, ?_, ?_, ?_, ?_⟩
  · show m.pc.reaped fails ≠ _
    rcases hq with e | e | e | e | e | e <;> simp [e]
  · show m.tokens - 1 = _
    rw [h.tokens]
    simp only [List.length_eraseIdx, hlen, if_true]
    omega
  · show (if 0 < m.used then m.used - k.slot.toNat else m.used) = (m.kids.eraseIdx i).countP (·.slot)
    rw [h.used]
    split <;> omega
  · intro hp; replace hp : m.pc.reaped fails = _ := hp
    rcases hq with e | e | e | e | e | e <;> (rw [e] at hp; cases hp)
  · intro hp
    refine h.starts ?_
    replace hp : m.pc.reaped fails = _ ∨ m.pc.reaped fails = _ := hp
    rcases hpc with e | e | e | e
    · rw [e] at hp; exact hp
    all_goals (rw [e] at hp; simp at hp)
  · intro hp; replace hp : (m.pc.reaped fails).kept := hp
    rcases hq with e | e | e | e | e | e <;> simp [WPc.kept, e] at hp
  · rintro hp ⟨x, hx, he⟩
    replace hp : (m.pc.reaped fails).late := hp
    refine h.dead ?_ ⟨x, List.mem_of_mem_eraseIdx hx, he⟩
    rcases hpc with e | e | e | e
    · rw [e] at hp; exact hp
    all_goals simp [WPc.late, e] at hp
  · intro hp; replace hp : m.pc.reaped fails = _ := hp
    rcases hq with e | e | e | e | e | e <;> (rw [e] at hp; cases hp)
  · intro hc x hx
    exact h.calm hc x (List.mem_of_mem_eraseIdx hx)
  · constructor
    · intro hp; replace hp : m.pc.reaped fails = _ ∨ m.pc.reaped fails = _ := hp
      rcases hq with e | e | e | e | e | e <;> simp [e] at hp
    · intro hp; replace hp : m.pc.reaped fails = _ ∨ m.pc.reaped fails = _ ∨ m.pc.reaped fails = _ := hp
      rcases hq with e | e | e | e | e | e <;> simp [e] at hp

macro "wk" : tactic => `(tactic| ((try simp_all [WPc.kept, WPc.late, List.countP_cons]) <;> (try assumption) <;> (try omega)))

/-- The part of the invariant that `start_waiting_job` needs, at the places where it is called; the job itself is counted. -/
structure WPre (calm : Bool) (m : WMake) (high : Bool) : Prop where
  pc : m.pc = .busy ∨ m.pc = .queue ∨ (m.pc = .check ∧ 0 < m.used ∧ high = true)
  tokens : m.tokens = m.kids.length + m.waiting.length + 1
  used : m.used = m.kids.countP (·.slot)
  dead : m.pc.late → (∃ k ∈ m.kids, k.proc = .ended) → m.pend = true ∨ (m.trad = true ∧ m.rfd = false)
  calm : calm = true → ∀ k ∈ m.kids, k.proc ≠ .unstarted

theorem winv_start {calm : Bool} {m : WMake} {more : Nat} {high : Bool} {s : WStarted} (h : WPre calm m high)
    (hs : calm = true → s ≠ .unstarted) : WakeInv calm (m.startJob more high s).1 := by
  obtain ⟨hpc, ht, hu, hd, hc⟩ := h
  have hk : 0 < m.used → m.kids ≠ [] := by
    intro h e; rw [hu, e] at h; simp at h
  unfold WMake.startJob
  by_cases hh : (decide (0 < m.used) && high) = true
  · rw [if_pos hh]
    simp only [Bool.and_eq_true, decide_eq_true_eq] at hh
    replace hk := hk hh.1
    rcases hpc with e | e | ⟨e, _⟩ <;>
      refine ⟨?_, ?_, ?_, ?_, ?_, ?_, ?_, ?_, ?_, ?_⟩ <;> wk
  · rw [if_neg hh]
    have hpc' : m.pc = .busy ∨ m.pc = .queue := by
      rcases hpc with e | e | ⟨_, h1, h2⟩
      · exact .inl e
      · exact .inr e
      · simp [h1, h2] at hh
    cases s with
    | runs =>
      rcases hpc' with e | e <;>
        refine ⟨?_, ?_, ?_, ?_, ?_, ?_, ?_, ?_, ?_, ?_⟩ <;> wk
    | unstarted =>
      have : calm = false := by cases calm <;> simp_all
      rcases hpc' with e | e <;>
        refine ⟨?_, ?_, ?_, ?_, ?_, ?_, ?_, ?_, ?_, ?_⟩ <;> wk
    | finished =>
      have ht' : m.tokens ≠ 0 := by omega
      simp only [WMake.free, ht', if_false]
      rcases hpc' with e | e <;>
        refine ⟨?_, ?_, ?_, ?_, ?_, ?_, ?_, ?_, ?_, ?_⟩ <;> wk

theorem winv_own {calm : Bool} {m m' : WMake} {p p' : Nat} (h : WakeInv calm m) (hs : WOwn calm m p m' p') : WakeInv calm m' := by
  cases hs with
  | again hr hk _ _ hst => exact winv_again h hr hk hst
  | remove hr hk _ => exact winv_remove h hr hk
  | queueStart hp hw hst =>
    rename_i more r high s
    refine winv_start ?_ hst
    obtain ⟨hsane, ht, hu, hq, hst', hkept, hd, hreg, hcalm, hb⟩ := h
    unfold WMake.dequeue
    refine ⟨?_, ?_, ?_, ?_, ?_⟩
    · show (if m.pc = .busy then WPc.busy else if (decide (0 < m.used) && high) = true then .check else .queue) = _ ∨ _
      rcases hp with e | e
      · rw [e]
        by_cases hh : (decide (0 < m.used) && high) = true
        · right; right
          simp only [Bool.and_eq_true, decide_eq_true_eq] at hh
          simp [e, hh]
        · right; left; simp [hh]
      · left; simp [e]
    · show m.tokens = m.kids.length + r.length + 1
      rw [ht, hw]; simp; omega
    · exact hu
    · intro hl hx
      refine hd ?_ hx
      rcases hp with e | e
      · simp [WPc.late, e]
      · simp [WPc.late, e] at hl
    · exact hcalm
  | start hp hst =>
    refine winv_start ?_ hst
    obtain ⟨hsane, ht, hu, hq, hst', hkept, hd, hreg, hcalm, hb⟩ := h
    refine ⟨.inl rfl, ?_, hu, ?_, hcalm⟩
    · show m.tokens + 1 = _
      rw [ht]
    · intro hl; simp [WPc.late] at hl
  | reaped hp hn =>
    have hn' : ∀ k ∈ m.kids, k.proc ≠ .ended := fun k hk e => hn k hk (.inl e)
    obtain ⟨hsane, ht, hu, hq, hst', hkept, hd, hreg, hcalm, hb⟩ := h
    refine ⟨?_, ?_, ?_, ?_, ?_, ?_, ?_, ?_, ?_, ?_⟩ <;> wk
  | checkFatal hp ht0 hk =>
    exfalso
    have := h.tokens
    rw [hk] at this
    have hw : m.waiting ≠ [] := by intro e; rw [e] at this; simp at this; exact ht0 this
    exact h.queued hp hw hk
  | queue hp =>
    obtain ⟨hsane, ht, hu, hq, hst', hkept, hd, hreg, hcalm, hb⟩ := h
    refine ⟨?_, ?_, ?_, ?_, ?_, ?_, ?_, ?_, ?_, ?_⟩ <;> by_cases hw : m.waiting = [] <;> wk
  | dup hp =>
    obtain ⟨hsane, ht, hu, hq, hst', hkept, hd, hreg, hcalm, hb⟩ := h
    refine ⟨?_, ?_, ?_, ?_, ?_, ?_, ?_, ?_, ?_, ?_⟩ <;> (cases htr : m.trad <;> cases hrf : m.rfd <;> wk)
  | checkMore hp ht0 hk =>
    obtain ⟨hsane, ht, hu, hq, hst', hkept, hd, hreg, hcalm, hb⟩ := h
    refine ⟨?_, ?_, ?_, ?_, ?_, ?_, ?_, ?_, ?_, ?_⟩ <;> cases htr : m.trad <;> wk
  | signal htr he hf hpend =>
    rename_i interrupt
    obtain ⟨hsane, ht, hu, hq, hst', hkept, hd, hreg, hcalm, hb⟩ := h
    by_cases hi : (interrupt && decide (m.pc = .read)) = true
    · have hi' : m.pc = .read := by simp at hi; exact hi.2
      refine ⟨?_, ?_, ?_, ?_, ?_, ?_, ?_, ?_, ?_, ?_⟩ <;> wk
    · simp only [hi, if_false]
      refine ⟨?_, ?_, ?_, ?_, ?_, ?_, ?_, ?_, ?_, ?_⟩ <;> wk
  | _ =>
    obtain ⟨hsane, ht, hu, hq, hst', hkept, hd, hreg, hcalm, hb⟩ := h
    refine ⟨?_, ?_, ?_, ?_, ?_, ?_, ?_, ?_, ?_, ?_⟩ <;> wk

theorem winv_env {calm : Bool} {m m' : WMake} (h : WakeInv calm m) (hs : WEnv m m') : WakeInv calm m' := by
  cases hs with
  | ends hk =>
    rename_i i subs more slot
    have hlen : i < m.kids.length := by
      rcases Nat.lt_or_ge i m.kids.length with h1 | h1
      · exact h1
      · rw [List.getElem?_eq_none h1] at hk; cases hk
    refine ⟨h.sane, ?_, ?_, ?_, h.starts, ?_, ?_, h.reg, ?_, h.build⟩
    · simpa using h.tokens
    · exact h.used.trans (countP_set_slot m.kids i _ ⟨.ended, more, slot⟩ hk rfl).symm
    · intro h1 h2 h3
      have := h.queued h1 h2
      simp at h3; exact this h3
    · intro h1 h3
      have := h.kept h1
      simp at h3; exact this h3
    · intro _ _; exact .inl rfl
    · intro hc x hx
      rcases List.mem_or_eq_of_mem_set hx with h1 | h1
      · exact h.calm hc x h1
      · rw [h1]; simp
  | noise =>
    obtain ⟨hsane, ht, hu, hq, hst', hkept, hd, hreg, hcalm, hb⟩ := h
    refine ⟨?_, ?_, ?_, ?_, ?_, ?_, ?_, ?_, ?_, ?_⟩ <;> wk
  | tick hp hw =>
    obtain ⟨hsane, ht, hu, hq, hst', hkept, hd, hreg, hcalm, hb⟩ := h
    refine ⟨?_, ?_, ?_, ?_, ?_, ?_, ?_, ?_, ?_, ?_⟩ <;> wk
  | alarm ht0 =>
    obtain ⟨hsane, ht, hu, hq, hst', hkept, hd, hreg, hcalm, hb⟩ := h
    by_cases hi : m.pc = .read
    · refine ⟨?_, ?_, ?_, ?_, ?_, ?_, ?_, ?_, ?_, ?_⟩ <;> wk
    · simp only [hi, if_false]
      refine ⟨?_, ?_, ?_, ?_, ?_, ?_, ?_, ?_, ?_, ?_⟩ <;> wk

theorem winv_enters {calm : Bool} {m : WMake} {i j : Nat} {k : WJob} {subs : List Nat} (h : WakeInv calm m) (hk : m.kids[i]? = some k)
    (hp : k.proc = .runs subs) : WakeInv calm (m.enters i j k subs) := by
  have hmem : ∀ x ∈ (m.enters i j k subs).kids, x ∈ m.kids ∨ x.proc = .runs (j :: subs) := by
    intro x hx
    rcases List.mem_or_eq_of_mem_set hx with h1 | h1
    · exact .inl h1
    · right; rw [h1]
  refine ⟨h.sane, ?_, ?_, ?_, h.starts, ?_, ?_, h.reg, ?_, h.build⟩
  · simpa [WMake.enters] using h.tokens
  · exact h.used.trans (countP_set_slot m.kids i _ { k with proc := .runs (j :: subs) } hk rfl).symm
  · intro h1 h2 h3
    have := h.queued h1 h2
    simp [WMake.enters] at h3; exact this h3
  · intro h1 h3
    have := h.kept h1
    simp [WMake.enters] at h3; exact this h3
  · rintro h1 ⟨x, hx, he⟩
    rcases hmem x hx with h2 | h2
    · exact h.dead h1 ⟨x, h2, he⟩
    · rw [h2] at he; cases he
  · intro hc x hx
    rcases hmem x hx with h2 | h2
    · exact h.calm hc x h2
    · rw [h2]; simp

theorem winv_reach {trad calm : Bool} {m : WMake} {p : Nat} (h : WReach trad calm m p) : WakeInv calm m := by
  induction h with
  | init => exact winv_init calm trad
  | own _ hs ih => exact winv_own ih hs
  | env _ hs ih => exact winv_env ih hs
  | enters j _ hk hp ih => exact winv_enters ih hk hp
  | pipe _ _ ih => exact ih

end Remake
