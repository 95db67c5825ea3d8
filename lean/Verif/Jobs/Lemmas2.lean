import Verif.Jobs.Lemmas
import Verif.Jobs.Spec
/-! Invariants for makes that run one job at a time and for makes with their own slots. -/
set_option linter.unusedSimpArgs false
namespace Remake

/-- A make that runs one job at a time. -/
structure OneInv (p : Proc) : Prop where
  inv : PInv p
  few : p.children.length + p.waiting.length ≤ 1
  idle : p.waitFor = none → p.children = [] ∧ p.waiting = []
  same : ∀ f, p.waitFor = some f → ∀ d ∈ p.children ++ p.waiting, d.file = f

theorem startNew_sinv {p p' : Proc} {r : Nat} {c : Kid} {high : Bool} {s : Started} (hp : OneInv p)
    (h1 : p.slots = 1 ∨ p.serial = true) (hw : p.waitFor = none) (hc1 : c.jobslot = false)
    (hc2 : c.makes = 0) (h : startNew p c high s = some (p', r)) : OneInv p' := by
  unfold startNew at h
  simp only [Option.map_eq_some_iff] at h
  obtain ⟨⟨q, r'⟩, h2, h3⟩ := h
  simp only [Prod.mk.injEq] at h3
  obtain ⟨rfl, rfl⟩ := h3
  obtain ⟨a1, a2, a3, a4, a5, a6, a7, a8, a9⟩ := startWaitingJob_inv
    (p := { p with tokens := p.tokens + 1 }) (by simp [hp.inv.tokens]) hp.inv.used hp.inv.idle hc1 hc2 h2
  have hw1 : (if decide (p.slots = 1) || p.serial then some c.file else none) = some c.file := by
    rw [if_pos (by simpa using h1)]
  obtain ⟨e1, e2⟩ := hp.idle hw
  simp only [e1, e2, List.append_nil, List.not_mem_nil, false_or, List.length_nil] at a8 a9
  refine ⟨⟨a1.tokens, a1.used, a1.idle⟩, by simpa using a9, ?_, ?_⟩
  · intro h
    rw [hw1] at h
    cases h
  · intro f h d hd
    rw [hw1] at h
    simp only [Option.some.injEq] at h
    rw [← h]
    exact a8 d hd

theorem pstep_sinv {calm : Bool} {p p' : Proc} {t r : Nat} (hp : OneInv p)
    (h1 : p.slots = 1 ∨ p.serial = true) (h : PStep calm p t r p') : OneInv p' := by
  cases h with
  | newFree hw hc1 hc2 _ _ h => exact startNew_sinv hp h1 hw hc1 hc2 h
  | newToken hw hc1 hc2 _ _ h => exact startNew_sinv hp h1 hw hc1 hc2 h
  | @wait _ _ high s _ h =>
    unfold startWaiting at h
    split at h
    · simp only [Option.some.injEq, Prod.mk.injEq] at h
      obtain ⟨rfl, rfl⟩ := h
      exact hp
    · rename_i c cs hw
      obtain ⟨a1, a2, a3, a4, a5, a6, a7, a8, a9⟩ := startWaitingJob_inv
        (p := { p with waiting := cs }) (by simp only; rw [hp.inv.tokens, hw]; simp; omega) hp.inv.used
        (fun d hd => hp.inv.idle d (by rw [hw]; exact List.mem_cons_of_mem _ hd))
        (hp.inv.idle c (by rw [hw]; simp)).1 (hp.inv.idle c (by rw [hw]; simp)).2 h
      have hf := hp.few
      rw [hw] at hf
      simp only [List.length_cons] at hf a9
      refine ⟨a1, by omega, ?_, ?_⟩
      · intro hn
        rw [a6] at hn
        have := (hp.idle hn).2
        rw [hw] at this
        cases this
      · intro f hs d hd
        rw [a6] at hs
        rcases a8 d hd with h5 | h5
        · exact hp.same f hs d (by
            simp only [List.mem_append] at h5 ⊢
            rw [hw]
            rcases h5 with h5 | h5
            · exact .inl h5
            · exact .inr (List.mem_cons_of_mem _ h5))
        · rw [h5]
          exact hp.same f hs c (by rw [hw]; simp)
  | @reap _ _ i c again hc hm h =>
    obtain ⟨a1, a2, a3, a4, a5, a6, a7, a8, a9⟩ := reapKid_inv hp.inv hc hm h
    have hf := hp.few
    refine ⟨a1, by omega, ?_, ?_⟩
    · intro hn
      rw [a6] at hn
      obtain ⟨e1, e2⟩ := hp.idle hn
      rw [e1, e2] at a9
      simp only [List.length_nil, Nat.add_zero, Nat.le_zero] at a9
      exact ⟨List.eq_nil_of_length_eq_zero (by omega), List.eq_nil_of_length_eq_zero (by omega)⟩
    · intro f hs d hd
      rw [a6] at hs
      obtain ⟨e, he, h5⟩ := a8 d hd
      rw [h5]
      exact hp.same f hs e he
  | @done f hw hr =>
    have he : p.children ++ p.waiting = [] := by
      cases hl : p.children ++ p.waiting with
      | nil => rfl
      | cons d l =>
        exfalso
        have : d.file = f := hp.same f hw d (by rw [hl]; simp)
        simp [Proc.running, hl, this] at hr
    obtain ⟨e1, e2⟩ := List.append_eq_nil_iff.1 he
    exact ⟨⟨hp.inv.tokens, hp.inv.used, hp.inv.idle⟩, hp.few, fun _ => ⟨e1, e2⟩, by simp⟩

theorem setMakes_sinv {p : Proc} {i n : Nat} {c : Kid} (hp : OneInv p) (h : p.children[i]? = some c) :
    OneInv (setMakes p i n) := by
  have h1 := (setMakes_inv (n := n) hp.inv h).1
  refine ⟨h1, ?_, ?_, ?_⟩
  · have := hp.few
    simpa [setMakes] using this
  · intro hn
    obtain ⟨e1, e2⟩ := hp.idle hn
    exact ⟨by simp [setMakes, e1], e2⟩
  · intro f hs d hd
    simp only [setMakes] at hd hs
    rw [modify_eq_set h] at hd
    rcases List.mem_append.1 hd with hd | hd
    · rcases List.mem_or_eq_of_mem_set hd with hd | rfl
      · exact hp.same f hs d (by simp [hd])
      · exact hp.same f hs c (by simp [List.mem_of_getElem? h])
    · exact hp.same f hs d (by simp [hd])

theorem pstep_serial {calm : Bool} {p p' : Proc} {t r : Nat} (hp : PInv p) (h : PStep calm p t r p') :
    p'.serial = p.serial ∧ p'.slots = p.slots :=
  ⟨(pstep_inv hp h).2.2.2.2.1, (pstep_inv hp h).2.2.1⟩

theorem sinv_fresh {p : Proc} (h1 : p.children = []) (h2 : p.waiting = []) (h3 : p.used = 0)
    (h4 : p.tokens = 0) : OneInv p :=
  ⟨⟨by simp [h1, h2, h4], by simp [h1, h3], by simp [h2]⟩, by simp [h1, h2], fun _ => ⟨h1, h2⟩,
    by simp [h1, h2]⟩

theorem preach_inv {calm : Bool} {slots : Nat} {serial : Bool} {p : Proc}
    (h : PReach calm slots serial p) : PInv p ∧ p.slots = slots ∧ p.serial = serial := by
  induction h with
  | start => exact ⟨⟨rfl, rfl, by simp⟩, rfl, rfl⟩
  | step _ hs ih =>
    obtain ⟨a, b, c⟩ := ih
    obtain ⟨h1, h2⟩ := pstep_serial a hs
    exact ⟨(pstep_inv a hs).1, h2.trans b, h1.trans c⟩

theorem preach_sinv {calm : Bool} {slots : Nat} {serial : Bool} {p : Proc}
    (h : PReach calm slots serial p) (h1 : slots = 1 ∨ serial = true) : OneInv p := by
  induction h with
  | start => exact sinv_fresh rfl rfl rfl rfl
  | step hr hs ih =>
    obtain ⟨-, b, c⟩ := preach_inv hr
    exact pstep_sinv ih (by rw [b, c]; exact h1) hs

theorem wstep_sinv {slots : Nat} {w w' : World} (hw : WInv slots w)
    (hs : ∀ p ∈ w.procs, p.serial = true → OneInv p) (h : WStep Orderly w w') :
    ∀ p ∈ w'.procs, p.serial = true → OneInv p := by
  cases h with
  | @one a b p p' t r pipe h =>
    have hp := hw.each p (by simp)
    intro q hq hser
    simp only [List.mem_append, List.mem_cons] at hq
    rcases hq with hq | rfl | hq
    · exact hs q (by simp [hq]) hser
    · have h1 := (pstep_serial hp.inv h).1
      rw [h1] at hser
      exact pstep_sinv (hs p (by simp) hser) (.inr hser) h
    · exact hs q (by simp [hq]) hser
  | @enter a b p i pipe c serial hc hpid =>
    intro q hq hser
    simp only [List.mem_append, List.mem_cons, List.not_mem_nil, or_false] at hq
    rcases hq with (hq | rfl | hq) | rfl
    · exact hs q (by simp [hq]) hser
    · exact setMakes_sinv (hs p (by simp) hser) hc
    · exact hs q (by simp [hq]) hser
    · exact sinv_fresh rfl rfl rfl rfl
  | @leave l a b p q k i pipe status c hk hk0 hu hm hok hl hc hcm =>
    have hsub : ∀ x, x ∈ a ++ p :: b → x ∈ l := fun x hx =>
      List.mem_of_mem_eraseIdx (by rw [hl]; exact hx)
    intro x hx hser
    simp only [List.mem_append, List.mem_cons] at hx
    rcases hx with hx | rfl | hx
    · exact hs x (hsub x (by simp [hx])) hser
    · exact setMakes_sinv (hs p (hsub p (by simp)) hser) hc
    · exact hs x (hsub x (by simp [hx])) hser

theorem reach_sinv {slots : Nat} {serial : Bool} {w : World} (h : Reach Orderly slots serial w) :
    ∀ p ∈ w.procs, p.serial = true → OneInv p := by
  induction h with
  | start =>
    intro p hp _
    simp only [World.initial, List.mem_singleton] at hp
    subst hp
    exact sinv_fresh rfl rfl rfl rfl
  | step hr hs ih => exact wstep_sinv (reach_inv hr) ih hs

/-- A make with its own slots, whose jobs always start. -/
structure LInv (slots : Nat) (p : Proc) : Prop where
  waiting : p.waiting = []
  all : ∀ c ∈ p.children, c.jobslot = true
  used : p.used = p.children.length
  le : p.used ≤ slots

theorem preach_linv {slots : Nat} {serial : Bool} {p : Proc} (h0 : slots ≠ 0)
    (h : PReach true slots serial p) : LInv slots p := by
  induction h with
  | start => exact ⟨rfl, by simp, rfl, Nat.zero_le _⟩
  | @step p p' t r hr hs ih =>
    obtain ⟨hi, hsl, -⟩ := preach_inv hr
    cases hs with
    | @newFree _ _ c high s _ hc1 hc2 hf hcalm h =>
      unfold startNew at h
      simp only [Option.map_eq_some_iff] at h
      obtain ⟨⟨q, r'⟩, h2, h3⟩ := h
      simp only [Prod.mk.injEq] at h3
      obtain ⟨rfl, rfl⟩ := h3
      obtain ⟨rfl, hpid⟩ := hcalm rfl
      have hlt : p.used < slots := by
        have := ih.le
        simp only [freeToStart, hsl, ne_eq, h0, not_false_eq_true, if_true, decide_eq_true_eq] at hf
        omega
      unfold startWaitingJob at h2
      rw [if_neg (by simp)] at h2
      split at h2
      · rename_i pid
        rw [if_pos (hpid pid rfl)] at h2
        simp only [Option.some.injEq, Prod.mk.injEq] at h2
        obtain ⟨rfl, rfl⟩ := h2
        refine ⟨ih.waiting, ?_, by simp [ih.used], hlt⟩
        intro d hd
        rcases List.mem_cons.1 hd with rfl | hd
        · rfl
        · exact ih.all d hd
      · obtain ⟨-, rfl, -⟩ := freeChild_eq h2
        exact ⟨ih.waiting, ih.all, ih.used, ih.le⟩
    | newToken _ _ _ hf _ h =>
      simp [needsToken, hsl, h0] at hf
    | wait _ h =>
      simp only [startWaiting, ih.waiting, Option.some.injEq, Prod.mk.injEq] at h
      obtain ⟨rfl, rfl⟩ := h
      exact ih
    | @reap _ _ i c again hc hm h =>
      unfold reapKid at h
      rw [hc] at h
      cases again with
      | some pid =>
        simp only [Option.some.injEq, Prod.mk.injEq] at h
        obtain ⟨rfl, rfl⟩ := h
        refine ⟨ih.waiting, ?_, by simp [ih.used], ih.le⟩
        intro d hd
        rcases List.mem_or_eq_of_mem_set hd with hd | rfl
        · exact ih.all d hd
        · exact ih.all c (List.mem_of_getElem? hc)
      | none =>
        obtain ⟨-, rfl, -⟩ := freeChild_eq h
        have hj := ih.all c (List.mem_of_getElem? hc)
        have hl := length_erase hc
        have hu := ih.used
        have hle := ih.le
        refine ⟨ih.waiting, fun d hd => ih.all d (List.mem_of_mem_eraseIdx hd), ?_, ?_⟩
        · simp only [hj, Bool.toNat_true]
          split <;> omega
        · simp only [hj, Bool.toNat_true]
          split <;> omega
    | done => exact ⟨ih.waiting, ih.all, ih.used, ih.le⟩

theorem jobs_le (p : Proc) (h : ∀ c ∈ p.children, c.makes ≤ 1) :
    Spec.jobs p + p.makes ≤ p.children.length := by
  unfold Spec.jobs Proc.makes
  generalize p.children = cs at h
  induction cs with
  | nil => simp
  | cons c cs ih =>
    have h1 := ih fun d hd => h d (by simp [hd])
    have h2 := h c (by simp)
    simp only [List.countP_cons, List.map_cons, List.sum_cons, List.length_cons, Spec.isJob]
    simp only [Bool.and_eq_true, decide_eq_true_eq]
    split <;> omega

theorem jobs_le' (p : Proc) : Spec.jobs p ≤ p.children.length := List.countP_le_length

end Remake
