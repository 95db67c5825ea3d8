import Verif.Wake.Lemmas
/-! # Sleeping and waking up: progress (C125) -/
set_option linter.unusedVariables false
set_option linter.unusedSimpArgs false
namespace Remake
open Spec

theorem over_or_runs (k : WJob) : k.over ∨ Running k := by
  rcases hk : k.proc with subs | _ | _
  · exact .inr ⟨subs, hk⟩
  · exact .inl (.inl hk)
  · exact .inl (.inr hk)

theorem reap_step {calm : Bool} {m : WMake} {p : Nat} (hr : m.pc.reaps) {k : WJob} (hk : k ∈ m.kids) (ho : k.over) :
    ∃ m' p', WOwn calm m p m' p' := by
  obtain ⟨i, hi⟩ := List.mem_iff_getElem?.1 hk
  exact ⟨_, _, .remove (fails := false) hr hi ho⟩

/-- What the places are at which make may be asleep, and what is the case there. -/
theorem asleep_where {calm : Bool} {m : WMake} {p : Nat} (h : WakeInv calm m) (ha : Asleep calm m p) :
    m.kids ≠ [] ∧ (∀ k ∈ m.kids, k.proc ≠ .ended) ∧
    (((m.pc = .wait ∨ m.pc = .die) ∧ ∀ k ∈ m.kids, Running k) ∨ (WaitsForToken m ∧ p = 0)) := by
  obtain ⟨he, hn⟩ := ha
  have no : ∀ {m' p'}, WOwn calm m p m' p' → False := fun h => hn _ _ h
  have nok : m.pc.reaps → ∀ k ∈ m.kids, ¬ k.over := fun hr k hk ho => by
    obtain ⟨_, _, h1⟩ := reap_step (calm := calm) (p := p) hr hk ho
    exact no h1
  cases hpc : m.pc with
  | busy => exact (no (.newJob hpc)).elim
  | top =>
    by_cases ht : m.tokens = 0
    · exact (no (.topFree hpc ht)).elim
    · exact (no (.topMore hpc ht)).elim
  | dup => exact (no (.dup hpc)).elim
  | store => exact (no (.store hpc)).elim
  | reap => exact (no (.reaped hpc (nok (by simp [WPc.reaps, hpc])))).elim
  | queue => exact (no (.queue hpc)).elim
  | queueReap => exact (no (.queueReaped hpc (nok (by simp [WPc.reaps, hpc])))).elim
  | queueStart =>
    have hw := h.starts (.inr hpc)
    cases hq : m.waiting with
    | nil => exact absurd hq hw
    | cons x r => exact (no (.queueStart (high := false) (s := .runs) (.inl hpc) hq (by simp))).elim
  | check =>
    by_cases ht : m.tokens = 0
    · exact (no (.checkFree hpc ht)).elim
    · by_cases hk : m.kids = []
      · exact (no (.checkFatal hpc ht hk)).elim
      · exact (no (.checkMore hpc ht hk)).elim
  | selRead =>
    cases p with
    | zero => exact (no (.selSniped hpc)).elim
    | succ p => exact (no (.selToken hpc)).elim
  | flags => exact (no (.flags hpc)).elim
  | load => exact (no (.load hpc)).elim
  | start => exact (no (.start (more := 0) (high := false) (s := .runs) hpc (by simp))).elim
  | ended => exact absurd hpc he
  | fatal => exact absurd hpc h.sane
  | sel =>
    have hp : p = 0 := by
      rcases Nat.eq_zero_or_pos p with h0 | h0
      · exact h0
      · exact (no (.selReady hpc h0)).elim
    have hpend : m.pend = false := by
      cases hq : m.pend
      · rfl
      · exact (no (.selSignal hpc hq)).elim
    refine ⟨h.kept (by simp [WPc.kept, hpc]), ?_, .inr ⟨.inl hpc, hp⟩⟩
    intro k hk hke
    rcases h.dead (by simp [WPc.late, hpc]) ⟨k, hk, hke⟩ with h1 | ⟨h1, _⟩
    · rw [hpend] at h1; cases h1
    · rw [h.build.1 (.inl hpc)] at h1; cases h1
  | read =>
    have htrad := h.build.2 (.inr (.inr hpc))
    have hpend : m.pend = false := by
      cases hq : m.pend
      · rfl
      · exact (no (.signal (interrupt := false) htrad (by simp [hpc]) (by simp [hpc]) hq)).elim
    have hreg : m.reg = true := by
      cases hq : m.reg
      · exact (no (.readBad hpc (.inl hq))).elim
      · rfl
    have hrfd : m.rfd = true := by
      cases hq : m.rfd
      · exact (no (.readBad hpc (.inr hq))).elim
      · rfl
    have hp : p = 0 := by
      cases p with
      | zero => rfl
      | succ p => exact (no (.readToken hpc hreg hrfd)).elim
    refine ⟨h.kept (by simp [WPc.kept, hpc]), ?_, .inr ⟨.inr hpc, hp⟩⟩
    intro k hk hke
    rcases h.dead (by simp [WPc.late, hpc]) ⟨k, hk, hke⟩ with h1 | ⟨_, h1⟩
    · rw [hpend] at h1; cases h1
    · rw [hrfd] at h1; cases h1
  | wait =>
    have hr := nok (by simp [WPc.reaps, hpc])
    have hk : m.kids ≠ [] := fun e => no (.waitNone hpc e)
    exact ⟨hk, fun k hk e => hr k hk (.inl e), .inl ⟨.inl rfl, fun k hk => (over_or_runs k).resolve_left (hr k hk)⟩⟩
  | die =>
    have hr := nok (by simp [WPc.reaps, hpc])
    have hk : m.kids ≠ [] := by
      intro e
      refine no (.died hpc ?_)
      rw [h.used, e]; rfl
    exact ⟨hk, fun k hk e => hr k hk (.inl e), .inl ⟨.inr rfl, fun k hk => (over_or_runs k).resolve_left (hr k hk)⟩⟩

/-! ## The search for a slot ends -/

/-- Commands that are left to do. -/
def WMake.work (m : WMake) : Nat := (m.kids.map (·.more + 1)).sum + (m.waiting.map (· + 2)).sum

/-- Signals that are left to arrive. -/
def WMake.stir (m : WMake) : Nat := 2 * m.pend.toNat + (if m.trad && !m.rfd then 1 else 0)

/-- How far it is from a place to the next sleep. -/
def WMake.rank (m : WMake) (p : Nat) : Nat :=
  match m.pc with
  | .top => if m.trad && !m.rfd then 4 else 20
  | .dup => if m.trad && !m.rfd then 3 else 19
  | .store => if m.trad && !m.rfd then 2 else 18
  | .reap => 17
  | .queue => 16
  | .queueReap => 15
  | .queueStart => 14
  | .check => 13
  | .flags => 12
  | .load => 11
  | .read => 10
  | .sel => if 0 < p then 12 else 11
  | .selRead => if 0 < p then 11 else 12
  | _ => 0

theorem sum_modify (l : List WJob) (i : Nat) (k : WJob) (st : Bool) (hk : l[i]? = some k) (hm : 0 < k.more) :
    ((l.modify i fun k => { k with proc := if st then .runs [] else .unstarted, more := k.more - 1 }).map (·.more + 1)).sum <
      (l.map (·.more + 1)).sum := by
  induction l generalizing i with
  | nil => simp at hk
  | cons a l ih =>
    cases i with
    | zero => simp at hk; subst hk; simp; omega
    | succ i => have := ih i (by simpa using hk); simp; omega

theorem sum_eraseIdx (l : List WJob) (i : Nat) (k : WJob) (hk : l[i]? = some k) :
    ((l.eraseIdx i).map (·.more + 1)).sum < (l.map (·.more + 1)).sum := by
  induction l generalizing i with
  | nil => simp at hk
  | cons a l ih =>
    cases i with
    | zero => simp
    | succ i => have := ih i (by simpa using hk); simp [List.eraseIdx_cons_succ]; omega

/-- Smaller in the lexicographic order. -/
def WLess (m' : WMake) (p' : Nat) (m : WMake) (p : Nat) : Prop :=
  m'.work < m.work ∨ (m'.work = m.work ∧ (m'.stir < m.stir ∨ (m'.stir = m.stir ∧ m'.rank p' < m.rank p)))

theorem own_less {calm : Bool} {m m' : WMake} {p p' : Nat} (h : WakeInv calm m) (hs : WOwn calm m p m' p') (h1 : Seeks m) (h2 : Seeks m') :
    WLess m' p' m p := by
  cases hs with
  | again hr hk ho hm hst =>
    left
    show _ + _ < _ + _
    have := sum_modify _ _ _ ‹Bool› hk hm
    exact Nat.add_lt_add_right this _
  | remove hr hk ho =>
    left
    have ht : m.tokens ≠ 0 := by
      rw [h.tokens]
      have := List.length_pos_of_mem (List.mem_of_getElem? hk)
      omega
    simp only [WMake.remove, WMake.free, ht, if_false]
    have := sum_eraseIdx _ _ _ hk
    exact Nat.add_lt_add_right this _
  | queueStart hp hw hst =>
    rename_i more r high s
    have hpc : m.pc = .queueStart := by
      rcases hp with e | e
      · exact e
      · simp [Seeks, e] at h1
    by_cases hh : (decide (0 < m.used) && high) = true
    · right
      have e : ((m.dequeue r high).startJob more high s).1 = { m with pc := .check } := by
        have hu : (m.dequeue r high).used = m.used := rfl
        unfold WMake.startJob
        rw [hu, if_pos hh, WMake.dequeue]
        simp only [hh, hpc, if_true]
        rw [← hw]
        simp
      rw [e]
      refine ⟨rfl, .inr ⟨rfl, ?_⟩⟩
      simp [WMake.rank, hpc]
    · left
      have hu : (m.dequeue r high).used = m.used := rfl
      unfold WMake.startJob
      rw [hu, if_neg hh]
      have hwk : m.work = (m.kids.map (·.more + 1)).sum + (more + 2 + (r.map (· + 2)).sum) := by
        simp [WMake.work, hw]
      have ht : (m.dequeue r high).tokens ≠ 0 := by
        show m.tokens ≠ 0
        rw [h.tokens, hw]; simp
      rw [hwk]
      cases s with
      | runs => simp [WMake.work, WMake.dequeue]; omega
      | unstarted => simp [WMake.work, WMake.dequeue]; omega
      | finished => simp only [WMake.free, ht, if_false]; simp [WMake.work, WMake.dequeue]
  | newJob hp => simp [Seeks, hp] at h1
  | waits hp => simp [Seeks, hp] at h1
  | dies hp => simp [Seeks, hp] at h1
  | waitNone hp => simp [Seeks, hp] at h1
  | died hp => simp [Seeks, hp] at h1
  | start hp => simp [Seeks, hp] at h1
  | topFree hp => simp [Seeks] at h2
  | checkFree hp => simp [Seeks] at h2
  | checkFatal hp => simp [Seeks] at h2
  | selToken hp => simp [Seeks] at h2
  | readToken hp => simp [Seeks] at h2
  | topMore hp =>
    refine .inr ⟨rfl, .inr ⟨rfl, ?_⟩⟩
    simp only [WMake.rank, hp]; split <;> omega
  | dup hp =>
    refine .inr ⟨rfl, .inr ⟨rfl, ?_⟩⟩
    by_cases hc : (m.trad && !m.rfd) = true
    · simp only [WMake.rank, hp, hc, if_true]; omega
    · simp only [WMake.rank, hp, hc]; simp
  | store hp =>
    refine .inr ⟨rfl, ?_⟩
    by_cases hc : (m.trad && !m.rfd) = true
    · left; simp [WMake.stir, hc]
    · right
      have : ¬ ((m.trad && !true) = true) := by simp
      refine ⟨?_, ?_⟩
      · simp only [WMake.stir, hc, this]
      · simp only [WMake.rank, hp, hc]; simp
  | reaped hp => exact .inr ⟨rfl, .inr ⟨rfl, by simp [WMake.rank, hp]⟩⟩
  | queue hp =>
    refine .inr ⟨rfl, .inr ⟨rfl, ?_⟩⟩
    by_cases hw : m.waiting = [] <;> simp [WMake.rank, hp, hw]
  | queueReaped hp => exact .inr ⟨rfl, .inr ⟨rfl, by simp [WMake.rank, hp]⟩⟩
  | checkMore hp =>
    refine .inr ⟨rfl, .inr ⟨rfl, ?_⟩⟩
    cases ht : m.trad
    · simp only [WMake.rank, hp]; simp; split <;> omega
    · simp [WMake.rank, hp]
  | selSignal hp hpend =>
    refine .inr ⟨rfl, .inl ?_⟩
    simp [WMake.stir, hpend]
  | selReady hp h0 => exact .inr ⟨rfl, .inr ⟨rfl, by simp [WMake.rank, hp, h0]⟩⟩
  | selSniped hp => exact .inr ⟨rfl, .inr ⟨rfl, by simp [WMake.rank, hp]⟩⟩
  | flags hp => exact .inr ⟨rfl, .inr ⟨rfl, by simp [WMake.rank, hp]⟩⟩
  | load hp => exact .inr ⟨rfl, .inr ⟨rfl, by simp [WMake.rank, hp]⟩⟩
  | readBad hp hb =>
    refine .inr ⟨rfl, .inr ⟨rfl, ?_⟩⟩
    have hrfd : m.rfd = false := hb.elim (h.reg hp) id
    have htr := h.build.2 (.inr (.inr hp))
    simp [WMake.rank, hp, hrfd, htr]
  | signal htr he hf hpend =>
    refine .inr ⟨rfl, .inl ?_⟩
    simp only [WMake.stir, hpend, htr]
    cases m.rfd <;> simp

/-- A lexicographic order on three numbers has no infinite descent. -/
theorem less_acc : ∀ (a b c : Nat) (m : WMake) (p : Nat), m.work = a → m.stir = b → m.rank p = c →
    ∀ f : Nat → WMake × Nat, f 0 = (m, p) → ¬ ∀ n, WLess (f (n + 1)).1 (f (n + 1)).2 (f n).1 (f n).2 := by
  intro a
  induction a using Nat.strongRecOn with
  | ind a iha =>
    intro b
    induction b using Nat.strongRecOn with
    | ind b ihb =>
      intro c
      induction c using Nat.strongRecOn with
      | ind c ihc =>
        intro m p ha hb hc f h0 hall
        have h1 := hall 0
        have hnext : ∀ n, WLess (f (n + 1 + 1)).1 (f (n + 1 + 1)).2 (f (n + 1)).1 (f (n + 1)).2 := fun n => hall (n + 1)
        rw [h0] at h1
        rcases h1 with h1 | ⟨h1, h2 | ⟨h2, h3⟩⟩
        · exact iha _ (ha ▸ h1) _ _ (f 1).1 (f 1).2 rfl rfl rfl (fun n => f (n + 1)) rfl hnext
        · exact ihb _ (hb ▸ h2) _ (f 1).1 (f 1).2 (h1.trans ha) rfl rfl (fun n => f (n + 1)) rfl hnext
        · exact ihc _ (hc ▸ h3) (f 1).1 (f 1).2 (h1.trans ha) (h2.trans hb) rfl (fun n => f (n + 1)) rfl hnext

end Remake
