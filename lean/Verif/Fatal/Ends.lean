import Verif.Fatal.Procs

/-!
# Fatal signals: the handler comes to an end
-/
set_option linter.unusedVariables false
set_option linter.unusedSimpArgs false
namespace Remake

/-- What holds at some points of the handler, and when make has ended. -/
def FState.EndOk (s : FState) : Prop :=
  match s.pc with
  | .dreap true => 0 < s.used
  | .gone .noChild => s.procs = []
  | .gone _ => s.used = 0
  | _ => True

theorem fend_step {s t : FState} (st : FStep s t) : t.EndOk := by
  cases st <;> simp_all [FState.EndOk, FState.signal, FState.free, FState.uncount, FState.spawn, FState.waited]
  all_goals (split <;> simp_all)

/-- All the invariants. -/
structure FInv (s : FState) : Prop where
  counts : FCounts s
  procs : FProcs s
  next : s.NextOk
  ends : s.EndOk

theorem finv_init : FInv {} :=
  ⟨fcounts_init, fprocs_init, (fun _ _ h => by cases h), trivial⟩

theorem finv_step {s t : FState} (h : FInv s) (st : FStep s t) : FInv t :=
  ⟨fcounts_step h.counts st, fprocs_step h.counts h.next h.procs st, fnext_step st, fend_step st⟩

theorem finv_steps {s t : FState} (h : FInv s) (st : FSteps s t) : FInv t := by
  induction st with
  | refl => exact h
  | tail _ st ih => exact finv_step ih st

theorem finv_reach {s : FState} (h : FSteps {} s) : FInv s := finv_steps finv_init h

/-- Steps of the handler. -/
theorem fdying_step {s t : FState} (hd : s.pc.dying = true) (st : FStep s t) :
    t.pc.dying = true ∧ t.fresh = s.fresh ∧ (∀ p ∈ t.procs, p ∈ s.procs) ∧ t.sent = s.sent ∧ t.erased = s.erased
      ∧ t.waiting = s.waiting ∧ t.hand = s.hand ∧ (∀ c ∈ t.kids, c ∈ s.kids) := by
  cases st
  case dunstarted b i c hp hi hn =>
    exact ⟨rfl, rfl, fun p h => h, rfl, rfl, rfl, rfl, fun c h => List.mem_of_mem_eraseIdx h⟩
  case ddied b p i c hp hk hpp hs hi hn =>
    exact ⟨rfl, rfl, fun p h => (List.mem_filter.1 h).1, rfl, rfl, rfl, rfl, fun c h => List.mem_of_mem_eraseIdx h⟩
  case dshell b p hp hk hpp hs =>
    exact ⟨rfl, rfl, fun p h => (List.mem_filter.1 h).1, rfl, rfl, rfl, rfl, fun c h => h⟩
  case signal term hl hb => cases hp : s.pc <;> simp_all [FPc.dying, FPc.live]
  all_goals simp_all [FPc.dying]

theorem fdying_steps {s t : FState} (hd : s.pc.dying = true) (st : FSteps s t) :
    t.pc.dying = true ∧ t.fresh = s.fresh ∧ (∀ p ∈ t.procs, p ∈ s.procs) ∧ t.sent = s.sent ∧ t.erased = s.erased
      ∧ t.waiting = s.waiting ∧ t.hand = s.hand ∧ (∀ c ∈ t.kids, c ∈ s.kids) := by
  induction st with
  | refl => exact ⟨hd, rfl, fun _ h => h, rfl, rfl, rfl, rfl, fun _ h => h⟩
  | tail _ st ih =>
    obtain ⟨a1, a2, a3, a4, a5, a6, a7, a8⟩ := ih
    obtain ⟨b1, b2, b3, b4, b5, b6, b7, b8⟩ := fdying_step a1 st
    exact ⟨b1, b2.trans a2, fun p h => a3 p (b3 p h), b4.trans a4, b5.trans a5, b6.trans a6, b7.trans a7, fun c h => a8 c (b8 c h)⟩

/-- A measure that every step of the handler makes smaller. -/
def FState.left (s : FState) : Nat :=
  4 * (s.kids.length + s.procs.length) +
  match s.pc with
  | .dreap false => 3
  | .dloop => 2
  | .dreap true => 1
  | _ => 0

theorem f_filter_len {l : List Nat} {p : Nat} (h : p ∈ l) : (l.filter (· != p)).length < l.length := by
  have := List.length_filter_lt_length_iff_exists (p := (· != p)) (l := l)
  exact this.2 ⟨p, h, by simp⟩

theorem f_kids_of_used {s : FState} (h : FCounts s) (hl : s.pc.live = false) (hu : 0 < s.used) : s.kids ≠ [] := by
  intro hk
  have hx : s.extra = 0 := by
    unfold FState.extra
    cases hp : s.pc <;> simp [hp, FPc.live] at hl ⊢
  have := h.cnt
  rw [hk, hx] at this
  simp at this; omega

theorem fleft_step {s t : FState} (h : FInv s) (hd : s.pc.dying = true) (st : FStep s t) : t.left < s.left := by
  cases st
  case signal term hl hb => cases hp : s.pc <;> simp_all [FPc.dying, FPc.live]
  case dmore hp hu => simp [FState.left, hp]
  case dend hp hu => simp [FState.left, hp]
  case dnone b hp hk hs =>
    cases b with
    | false => simp [FState.left, hp]
    | true =>
      have hu : 0 < s.used := by have := h.ends; simpa [FState.EndOk, hp] using this
      exact absurd hk (f_kids_of_used h.counts (by simp [hp, FPc.live]) hu)
  case dunstarted b i c hp hi hn =>
    have := f_erase_len hi
    simp only [FState.left, FState.drop, FState.uncount, FState.free]
    omega
  case ddied b p i c hp hk hpp hs hi hn =>
    have := f_erase_len hi
    have := f_filter_len hpp
    simp only [FState.left, FState.drop, FState.uncount, FState.free, FState.waited]
    omega
  case dshell b p hp hk hpp hs =>
    have := f_filter_len hpp
    simp only [FState.left, FState.waited]
    omega
  case dlater hp _ _ => simp [FState.left, hp]
  case dfail b hp _ _ _ => cases b <;> simp [FState.left, hp]
  all_goals simp_all [FPc.dying]

/-- While make is dying a step is possible, if the commands end. -/
theorem fdying_progress {s : FState} (h : FInv s) (hd : s.pc.dying = true) (hg : ∀ e, s.pc ≠ .gone e) : ∃ t, FStep s t := by
  cases hp : s.pc <;> simp [hp, FPc.dying] at hd
  case gone e => exact absurd hp (hg e)
  case dloop =>
    by_cases hu : s.used = 0
    · exact ⟨_, .dend s hp hu⟩
    · exact ⟨_, .dmore s hp (by omega)⟩
  case dreap b =>
    by_cases h0 : s.kids = [] ∧ s.shell = none
    · exact ⟨_, .dnone s b hp h0.1 h0.2⟩
    · by_cases hn : ∀ d ∈ s.kids, d.pid ≠ none
      · cases hpr : s.procs with
        | nil =>
          refine ⟨_, .dfail s b hp ?_ hn hpr⟩
          by_cases hk : s.kids = []
          · exact Or.inr (fun e => h0 ⟨hk, e⟩)
          · exact Or.inl hk
        | cons p l =>
          have hm : p ∈ s.procs := by simp [hpr]
          by_cases hs : s.shell = some p
          · exact ⟨_, .dshell s b p hp hn hm hs⟩
          · rcases h.procs.owner p hm with h1 | ⟨j, c, hj, hc, _⟩ | ⟨h1, _⟩
            · exact absurd h1 hs
            · exact ⟨_, .ddied s b p j c hp hn hm hs hj hc⟩
            · simp [hp, FPc.between] at h1
      · have : ∃ d ∈ s.kids, d.pid = none := by
          apply Classical.byContradiction
          intro hne
          exact hn (fun d hd e => hne ⟨d, hd, e⟩)
        obtain ⟨d, hd, e⟩ := this
        obtain ⟨i, hi⟩ := List.getElem?_of_mem hd
        exact ⟨_, .dunstarted s b i d hp hi e⟩

/-- All processes of the jobs on the chain are there. -/
def FState.AllAlive (s : FState) : Prop := ∀ c ∈ s.kids, ∀ p, c.pid = some p → p ∈ s.procs

theorem falive_step {s t : FState} (h : FInv s) (ha : s.AllAlive) (hd : s.pc.dying = true) (st : FStep s t) :
    t.AllAlive ∧ (s.pc ≠ .gone .noChild → t.pc ≠ .gone .noChild) := by
  cases st
  case signal term hl hb => cases hp : s.pc <;> simp_all [FPc.dying, FPc.live]
  case dunstarted b i c hp hi hn =>
    exact ⟨fun d hd p hp => ha d (List.mem_of_mem_eraseIdx hd) p hp, fun _ h => by cases h⟩
  case ddied b p i c hp hk hpp hs hi hn =>
    refine ⟨fun d hd q hq => ?_, fun _ h => by cases h⟩
    obtain ⟨j, hj⟩ := List.getElem?_of_mem hd
    obtain ⟨k, hki, hk', _⟩ := f_erase_get hj
    refine List.mem_filter.2 ⟨ha d (List.mem_of_getElem? hk') q hq, ?_⟩
    simp only [bne_iff_ne, ne_eq]
    rintro rfl
    exact hki (h.procs.dist k i d c q hk' hi hq hn)
  case dshell b p hp hk hpp hs =>
    refine ⟨fun d hd q hq => ?_, fun _ h => by cases h⟩
    refine List.mem_filter.2 ⟨ha d hd q hq, ?_⟩
    simp only [bne_iff_ne, ne_eq]
    rintro rfl
    obtain ⟨j, hj⟩ := List.getElem?_of_mem hd
    exact h.procs.dsh j d q hs hj hq
  case dfail b hp hor hn hpr =>
    exfalso
    rcases hor with hk | hs
    · obtain ⟨c, l, e⟩ := List.exists_cons_of_ne_nil hk
      have hm : c ∈ s.kids := by simp [e]
      cases hq : c.pid with
      | none => exact hn c hm hq
      | some q => have := ha c hm q hq; simp [hpr] at this
    · cases hq : s.shell with
      | none => exact hs hq
      | some q => have := h.procs.shal q hq; simp [hpr] at this
  all_goals first
    | exact ⟨ha, fun _ h => by cases h⟩
    | simp_all [FPc.dying]

theorem falive_steps {s t : FState} (h : FInv s) (ha : s.AllAlive) (hd : s.pc.dying = true) (hg : s.pc ≠ .gone .noChild) (st : FSteps s t) :
    t.AllAlive ∧ t.pc ≠ .gone .noChild := by
  induction st with
  | refl => exact ⟨ha, hg⟩
  | tail st0 st ih =>
    have := falive_step (finv_steps h st0) ih.1 (fdying_steps hd st0).1 st
    exact ⟨this.1, this.2 ih.2⟩

end Remake
