import Verif.Update.Plain
/-!
# Updating targets: starting and finishing in plain graphs
-/
namespace Remake
set_option linter.unusedVariables false
set_option linter.unusedSimpArgs false

variable {e : Env} {S : Shape} {pre0 : Nat → List Nat} {P : Nat → Prop} {b : Nat}

/-- The target is finished; `pre`: its recipe is started before. -/
structure Finish (f : Nat) (u : UStatus) (pre : List UEvent) (s s' : UState) : Prop where
  still : ∀ x, (s'.file x).still = (s.file x).still
  other : ∀ x, x ≠ f → (s'.file x).updated = (s.file x).updated ∧ (s'.file x).cstate = (s.file x).cstate ∧
    (s'.file x).ustatus = (s.file x).ustatus
  self : (s'.file f).updated = true ∧ (s'.file f).cstate = .finished ∧ (s'.file f).ustatus = u
  log : s'.log = .done f u :: (pre ++ s.log)
  running : s'.running = s.running.erase f
  cons : s'.considered = s.considered
  dep : ∀ n, (s'.dep n).map UDep.link = (s.dep n).map UDep.link

theorem count_done (f u) (pre log : List UEvent) (hp : pre = [] ∨ pre = [.start f]) :
    ((UEvent.done f u :: (pre ++ log)).filterMap startOf).length = pre.length + (log.filterMap startOf).length := by
  rcases hp with rfl | rfl
  · simp [startOf, List.filterMap_cons]
  · simp [startOf, List.filterMap_cons]; omega

theorem Finish.inv1 {f u pre s s'} (h : Finish f u pre s s') (hp : pre = [] ∨ pre = [.start f]) (hu : u ≠ .none)
    (i : Inv1 S pre0 (fun x => P x ∨ x = f) b s) (hf : (s.file f).updated = false)
    (hs : u = .success ∨ pre ≠ [] → Settled pre0 s.log f) (hN : pre ≠ [] → f < S.N) : Inv1 S pre0 P b s' := by
  have hc : s'.count = pre.length + s.count := by unfold UState.count; rw [h.log]; exact count_done _ _ _ _ hp
  have hsub : ∀ ev, ev ∈ s.log → ev ∈ s'.log := fun ev hev => by
    rw [h.log]; exact List.mem_cons_of_mem _ (List.mem_append_right _ hev)
  have hd : ∀ x st, UEvent.done x st ∈ s'.log → (x = f ∧ st = u) ∨ UEvent.done x st ∈ s.log := by
    intro x st a
    rw [h.log] at a
    rcases List.mem_cons.mp a with a | a
    · cases a; exact .inl ⟨rfl, rfl⟩
    · rcases List.mem_append.mp a with a | a
      · rcases hp with rfl | rfl
        · cases a
        · simp at a
      · exact .inr a
  have hst : ∀ x, UEvent.start x ∈ s'.log → (x = f ∧ pre ≠ []) ∨ UEvent.start x ∈ s.log := by
    intro x a
    rw [h.log] at a
    rcases List.mem_cons.mp a with a | a
    · cases a
    · rcases List.mem_append.mp a with a | a
      · rcases hp with rfl | rfl
        · cases a
        · simp at a; exact .inl ⟨a, by simp⟩
      · exact .inr a
  refine ⟨fun x => ?_, fun x => ?_, fun x => ?_, fun x st a => ?_, fun x => ?_, ?_, fun x hx => ?_, fun x a => ?_, fun a => ?_, ?_,
    fun g => ?_, ?_, fun x a => ?_⟩
  · by_cases hx : x = f
    · rw [hx, h.self.1, h.self.2.1]; simp
    · rw [(h.other x hx).1, (h.other x hx).2.1]; exact i.fin x
  · by_cases hx : x = f
    · rw [hx, h.self.1]; simp
    · rw [(h.other x hx).1, (h.other x hx).2.2]; exact i.st x
  · by_cases hx : x = f
    · intro _
      rw [hx, h.self.2.2]
      exact ⟨hu, by rw [h.log]; exact List.mem_cons_self ..⟩
    · rw [(h.other x hx).1, (h.other x hx).2.2]
      intro a
      exact ⟨(i.dn x a).1, hsub _ (i.dn x a).2⟩
  · rcases hd x st a with ⟨rfl, rfl⟩ | a
    · exact ⟨h.self.1, h.self.2.2⟩
    · have := i.dn' x st a
      have hx : x ≠ f := fun hx => by rw [hx, hf] at this; exact absurd this.1 (by simp)
      rw [(h.other x hx).1, (h.other x hx).2.2]; exact this
  · rw [h.running]
    by_cases hx : x = f
    · rw [hx, h.self.2.1]
      simp only [reduceCtorEq, false_iff]
      exact fun a => ((i.nodup.mem_erase_iff).mp a).1 rfl
    · rw [(h.other x hx).2.1, i.nodup.mem_erase_iff]
      exact ⟨fun a => ⟨hx, (i.run x).mp a⟩, fun a => (i.run x).mpr a.2⟩
  · rw [h.running]; exact i.nodup.erase _
  · rw [h.running] at hx
    exact hsub _ (i.runStart x (List.mem_of_mem_erase hx))
  · by_cases hx : x = f
    · rw [hx]; exact .inr (.inl h.self.1)
    · rw [still_considered (h.still x), h.cons] at a
      rw [(h.other x hx).1, (h.other x hx).2.1, hc]
      rcases i.cons x a with (c | c) | c | c
      · exact .inl c
      · exact absurd c hx
      · exact .inr (.inl c)
      · refine .inr (.inr ⟨c.1, ?_⟩)
        have := i.kb
        have := c.2
        omega
  · have := i.kb
    have hb : s.count = b := by omega
    rw [h.running, i.kr hb]; rfl
  · have := i.kb; omega
  · obtain ⟨l, hl, hq⟩ := i.lists g
    refine ⟨l, ?_, fun d hd => (hq.1 d hd).imp_left (hsub _), fun q hn => (hq.2 q hn).imp_left (hsub _)⟩
    rw [still_deps (h.still g)]
    exact hl.congr (fun n _ => h.dep n)
  · rw [h.log]
    have h0 : Order pre0 (pre ++ s.log) := by
      rcases hp with rfl | rfl
      · exact i.order
      · exact i.order.cons (fun g hg => by
          rcases hg with hg | hg
          · cases hg; exact hs (.inr (by simp))
          · cases hg)
    refine h0.cons (fun g hg => ?_)
    rcases hg with hg | hg
    · cases hg
    · cases hg; exact (hs (.inl rfl)).mono pre
  · rcases hst x a with ⟨rfl, hn⟩ | a
    · exact hN hn
    · exact i.startN x a

theorem Finish.rel2 {f u pre s s'} {H : Nat → Prop} (h : Finish f u pre s s') (hp : pre = [] ∨ pre = [.start f])
    (hH : H f ∨ f ∈ s.running) : Rel2 S H s s' := by
  have hc : s'.count = pre.length + s.count := by unfold UState.count; rw [h.log]; exact count_done _ _ _ _ hp
  refine ⟨h.cons, by omega, ?_, ⟨.done f u :: pre, by rw [h.log]; rfl⟩, fun x => .inl (still_considered (h.still x)), fun x hx a hb => ?_⟩
  · have := (List.erase_sublist (a := f) (l := s.running)).length_le
    rw [h.running]
    omega
  · have hxf : x ≠ f := by
      intro hxf
      rcases hH with c | c
      · rw [hxf] at hx; exact hx c
      · rw [hxf] at hb; exact hb c
    have o := h.other x hxf
    exact ⟨still_deps (h.still x), fun n _ => h.dep n, o.1, o.2.1, o.2.2, by rw [h.running]; exact fun c => hb (List.mem_of_mem_erase c),
      (still_updating (h.still x)).trans a⟩

theorem endUStatus_ne (u : UStatus) : endUStatus u ≠ .none := by
  unfold endUStatus; split
  · simp
  · assumption

theorem endStatus_ne (j : JobEnd) : endStatus e j ≠ .none := by
  cases j <;> simp [endStatus] <;> split <;> simp

theorem endUStatus_of_ne {u : UStatus} (h : u ≠ .none) : endUStatus u = u := by unfold endUStatus; rw [if_neg h]

/-- What holds of the invariants in all outcomes. -/
def OrderOk (pre0 : Nat → List Nat) (s : UState) : Prop := Order pre0 s.log

/-- A step that may finish running recipes. -/
structure Step (S : Shape) (pre0 : Nat → List Nat) (P : Nat → Prop) (b : Nat) (s s' : UState) : Prop where
  inv : Inv1 S pre0 P b s'
  rel : Rel2 S (fun _ => False) s s'
  other : ∀ x, x ∉ s.running → (s'.file x).updated = (s.file x).updated ∧ (s'.file x).cstate = (s.file x).cstate ∧
    x ∉ s'.running

theorem Step.refl {s} (i : Inv1 S pre0 P b s) : Step S pre0 P b s s := ⟨i, Rel2.refl s, fun x h => ⟨rfl, rfl, h⟩⟩

theorem Step.trans {s s' s''} (h : Step S pre0 P b s s') (h' : Step S pre0 P b s' s'') : Step S pre0 P b s s'' :=
  ⟨h'.inv, h.rel.trans h'.rel, fun x hx => by
    have a := h.other x hx
    have a' := h'.other x a.2.2
    exact ⟨a'.1.trans a.1, a'.2.1.trans a.2.1, a'.2.2⟩⟩

theorem Quiet.step {s s'} (q : Quiet s s') (i : Inv1 S pre0 P b s) : Step S pre0 P b s s' :=
  ⟨q.inv1 i, q.rel2, fun x h => ⟨(q.same x).1, (q.same x).2.1, by rw [q.running]; exact h⟩⟩

theorem finishJob_plain (hpl : ∀ x, (s : UState) → Fits S s → (s.file x).alsoMake = []) (f : Nat) (j : JobEnd) (s : UState)
    (i0 : Fits S s) (i : Inv1 S pre0 P b s) :
    wp (finishJob e f j) (fun _ s' => Fits S s' ∧ Step S pre0 P b s s') (OrderOk pre0) (fun _ => False) s := by
  have c := finishJob_calm (e := e) f j s
  refine wp_mono (wp_and c (?_ : wp (finishJob e f j) (fun _ s' => Step S pre0 P b s s') (OrderOk pre0) (fun _ => False) s))
    (fun _ s' q => ⟨q.1.1.fits i0, q.2⟩) (fun _ q => q.2) (fun _ q => q.1)
  unfold finishJob
  simp only [wp_bind, wp_modify, wp_get, wp_ite, wp_pure, wp_die]
  split
  · rename_i hf
    let s1 : UState := { s.setFile f fun x => { x with ustatus := endStatus e j } with running := s.running.erase f }
    have key : ∀ x, ∃ u, s1.file x = { s.file x with ustatus := u } ∧ (x ≠ f → u = (s.file x).ustatus) ∧ (x = f → u = endStatus e j) := by
      intro x
      by_cases hx : x = f
      · exact ⟨endStatus e j, by simp [s1, UState.setFile, hx], fun h => absurd hx h, fun _ => rfl⟩
      · exact ⟨(s.file x).ustatus, by simp [s1, UState.setFile, hx], fun _ => rfl, fun h => absurd h hx⟩
    have hal : (s1.file f).alsoMake = [] := by obtain ⟨u, hu, _⟩ := key f; rw [hu]; exact hpl f s i0
    refine wp_of_T (notice_plain f s1 hal) (fun _ s2 q2 => ?_)
    have hst : (s1.file f).ustatus = endStatus e j := by
      obtain ⟨u, hu, _, hu'⟩ := key f
      rw [hu]; exact hu' rfl
    have hfin : Finish f (endStatus e j) [] s s2 := by
      refine ⟨fun x => ?_, fun x hx => ?_, ?_, ?_, ?_, q2.cons, fun n => by rw [q2.dep]; rfl⟩
      · rw [q2.still]; obtain ⟨u, hu, _⟩ := key x; rw [hu]; rfl
      · obtain ⟨u, hu, hu', _⟩ := key x
        have hu' := hu' hx
        have o := q2.other x hx
        rw [hu] at o
        exact ⟨o.1, o.2.1, o.2.2.trans hu'⟩
      · have o := q2.self
        rw [hst, endUStatus_of_ne (endStatus_ne j)] at o
        exact o
      · have o := q2.log
        rw [hst, endUStatus_of_ne (endStatus_ne j)] at o
        exact o
      · exact q2.running
    have hupd : (s.file f).updated = false := by
      have h1 := (i.run f).mpr hf
      have h2 := i.fin f
      rw [h1] at h2
      simpa using h2
    have i2 : Inv1 S pre0 P b s2 := hfin.inv1 (.inl rfl) (endStatus_ne j) (i.mono (fun _ h => .inl h)) hupd
      (fun _ => i.order.settled (i.runStart f hf) (.inl rfl)) (fun h => absurd rfl h)
    split
    · exact i2.order
    · refine ⟨i2, hfin.rel2 (.inl rfl) (.inr hf), fun x hx => ?_⟩
      have hxf : x ≠ f := fun h => hx (by rw [h]; exact hf)
      exact ⟨(hfin.other x hxf).1, (hfin.other x hxf).2.1, by rw [hfin.running]; exact fun c => hx (List.mem_of_mem_erase c)⟩
  · exact Step.refl i

theorem finishJobs_plain (hpl : ∀ x, (s : UState) → Fits S s → (s.file x).alsoMake = []) (js : List (Nat × JobEnd)) (s : UState)
    (i0 : Fits S s) (i : Inv1 S pre0 P b s) :
    wp (finishJobs e js) (fun _ s' => Fits S s' ∧ Step S pre0 P b s s') (OrderOk pre0) (fun _ => False) s := by
  induction js generalizing s with
  | nil => exact ⟨i0, Step.refl i⟩
  | cons p js ih =>
    obtain ⟨f, j⟩ := p
    rw [finishJobs, wp_bind]
    refine wp_mono (finishJob_plain hpl f j s i0 i) (fun _ s1 q1 => ?_) (fun _ q => q) (fun _ q => q)
    exact wp_mono (ih s1 q1.1 q1.2.inv) (fun _ s2 q2 => ⟨q2.1, q1.2.trans q2.2⟩) (fun _ q => q) (fun _ q => q)

theorem tick_quiet (s : UState) (t : Nat) : Quiet s { s with tick := t } := (Quiet.refl s).tick t

theorem reapSome_plain (hpl : ∀ x, (s : UState) → Fits S s → (s.file x).alsoMake = []) (s : UState)
    (i0 : Fits S s) (i : Inv1 S pre0 P b s) :
    wp (reapSome e) (fun _ s' => Fits S s' ∧ Step S pre0 P b s s') (OrderOk pre0) (fun _ => False) s := by
  unfold reapSome
  simp only [wp_bind, wp_modify, wp_get]
  have q := tick_quiet s (s.tick + 1)
  exact wp_mono (finishJobs_plain hpl _ _ (q.calm.fits i0) (q.inv1 i)) (fun _ s' h => ⟨h.1, (q.step i).trans h.2⟩)
    (fun _ q => q) (fun _ q => q)

theorem reapBlock_plain (hpl : ∀ x, (s : UState) → Fits S s → (s.file x).alsoMake = []) (s : UState)
    (i0 : Fits S s) (i : Inv1 S pre0 P b s) :
    wp (reapBlock e) (fun _ s' => Fits S s' ∧ Step S pre0 P b s s') (OrderOk pre0) (fun _ => False) s := by
  unfold reapBlock
  simp only [wp_bind, wp_get]
  refine wp_mono (reapSome_plain hpl s i0 i) (fun _ s1 q1 => ?_) (fun _ q => q) (fun _ q => q)
  cases hr : s1.running with
  | nil => exact q1
  | cons f fs =>
    simp only [wp_ite, wp_pure]
    split
    · exact q1
    · exact wp_mono (finishJob_plain hpl f _ s1 q1.1 q1.2.inv) (fun _ s2 q2 => ⟨q2.1, q1.2.trans q2.2⟩)
        (fun _ q => q) (fun _ q => q)

/-- The target may be started. -/
structure Ready (S : Shape) (pre0 : Nat → List Nat) (s : UState) (f : Nat) : Prop where
  upd : (s.file f).updated = false
  run : (s.file f).cstate ≠ .running
  settled : Settled pre0 s.log f
  lt : f < S.N

/-- What is left after trying to make a target. -/
def Tried (b : Nat) (s : UState) (f : Nat) : Prop :=
  (s.file f).updated = true ∨ ((s.file f).cstate.busy = true ∧ s.count ≠ b)

theorem Ready.notMem {s f} (r : Ready S pre0 s f) (i : Inv1 S pre0 P b s) : f ∉ s.running :=
  fun h => r.run ((i.run f).mpr h)

theorem Inv1.statusNone {s f} (i : Inv1 S pre0 P b s) (h : (s.file f).updated = false) : (s.file f).ustatus = .none := i.st f h

/-- A target that is finished without its recipe being run. -/
theorem finish_direct (hpl : ∀ x, (s : UState) → Fits S s → (s.file x).alsoMake = []) (f : Nat) (u : UStatus) (hu : u ≠ .none) (s t : UState)
    (pre : List UEvent) (hp : pre = [] ∨ pre = [.start f])
    (i0 : Fits S s) (i : Inv1 S pre0 (fun x => P x ∨ x = f) b s) (hupd : (s.file f).updated = false) (hrun : f ∉ s.running)
    (hs : u = .success ∨ pre ≠ [] → Settled pre0 s.log f) (hN : pre ≠ [] → f < S.N)
    (ht : ∀ x, ∃ c v, t.file x = { s.file x with cstate := c, ustatus := v } ∧
      (x ≠ f → c = (s.file x).cstate ∧ v = (s.file x).ustatus) ∧ (x = f → endUStatus v = u))
    (h1 : t.log = pre ++ s.log) (h2 : t.running = s.running) (h3 : t.considered = s.considered) (h4 : t.dep = s.dep) :
    wpT (notice e f) (fun _ s' => Inv1 S pre0 P b s' ∧ Rel2 S (· = f) s s' ∧ (s'.file f).updated = true ∧ (s'.file f).ustatus = u) t := by
  have hal : (t.file f).alsoMake = [] := by obtain ⟨c, v, hv, _⟩ := ht f; rw [hv]; exact hpl f s i0
  refine wp_of_T (notice_plain f t hal) (fun _ s2 q2 => ?_)
  have hst : endUStatus (t.file f).ustatus = u := by
    obtain ⟨c, v, hv, _, hv'⟩ := ht f
    rw [hv]; exact hv' rfl
  rw [hst] at q2
  have hfin : Finish f u pre s s2 := by
    refine ⟨fun x => ?_, fun x hx => ?_, q2.self, ?_, ?_, q2.cons.trans h3, fun n => by rw [q2.dep, h4]⟩
    · rw [q2.still]; obtain ⟨c, v, hv, _⟩ := ht x; rw [hv]; rfl
    · obtain ⟨c, v, hv, hv', _⟩ := ht x
      have hv' := hv' hx
      have o := q2.other x hx
      rw [hv] at o
      exact ⟨o.1, o.2.1.trans hv'.1, o.2.2.trans hv'.2⟩
    · rw [q2.log, h1]
    · rw [q2.running, h2, List.erase_of_not_mem hrun]
  exact ⟨hfin.inv1 hp hu i hupd hs hN, hfin.rel2 hp (.inl rfl), hfin.self.1, hfin.self.2.2⟩

theorem setCState_plain (s : UState) (f : Nat) (c : CState) (h : (s.file f).alsoMake = []) :
    setCState s f c = s.setFile f fun x => { x with cstate := c } := by
  have : ((s.setFile f fun x => { x with cstate := c }).file f).alsoMake = [] := by
    simp [UState.setFile, h]
  unfold setCState
  simp only [this, List.foldl_nil]

theorem newJob_plain (hpl : ∀ x, (s : UState) → Fits S s → (s.file x).alsoMake = []) (f : Nat) (s : UState)
    (i0 : Inv0 S s) (i : Inv1 S pre0 (fun x => P x ∨ x = f) b s) (r : Ready S pre0 s f) :
    wp (newJob e f) (fun _ s' => Inv1 S pre0 P b s' ∧ Rel2 S (· = f) s s' ∧ Tried b s' f) (OrderOk pre0) (fun _ => False) s := by
  unfold newJob
  simp only [wp_bind, wp_modify, wp_get]
  refine wp_mono (reapSome_plain hpl s i0.fits i) (fun _ s1 q1 => ?_) (fun _ q => q) (fun _ q => q)
  obtain ⟨i01, q1⟩ := q1
  have hrun0 := r.notMem i
  obtain ⟨o1, o2, o3⟩ := q1.other f hrun0
  have hupd : (s1.file f).updated = false := o1.trans r.upd
  have hset : Settled pre0 s1.log f := by
    obtain ⟨l, hl⟩ := q1.rel.log
    rw [hl]; exact r.settled.mono l
  have hpl1 := hpl f s1 i01
  let s2 : UState := { s1.note (.start f) with tick := s1.tick + 1 }
  have hcs : ∀ c, setCState s2 f c = s2.setFile f fun x => { x with cstate := c } := fun c => setCState_plain s2 f c hpl1
  have nothing : wp (do
        UM.modify fun s => (setCState s f .running).setFile f fun x => { x with ustatus := .success }
        notice e f) (fun _ s' => Inv1 S pre0 P b s' ∧ Rel2 S (· = f) s s' ∧ Tried b s' f) (OrderOk pre0) (fun _ => False) s2 := by
    rw [wp_bind, wp_modify, hcs]
    refine wp_of_T (finish_direct hpl f .success (by simp) s1 _ [.start f] (.inr rfl) i01 q1.inv hupd o3 (fun _ => hset) (fun _ => r.lt)
      (fun x => ?_) rfl rfl rfl rfl) (fun _ s' q => ⟨q.1, (q1.rel.weaken (fun _ h => h.elim)).trans q.2.1, .inl q.2.2.1⟩)
    by_cases hx : x = f
    · exact ⟨.running, .success, by simp [s2, UState.setFile, UState.note, hx], fun h => absurd hx h, fun _ => rfl⟩
    · exact ⟨(s1.file x).cstate, (s1.file x).ustatus, by simp [s2, UState.setFile, UState.note, hx], fun _ => ⟨rfl, rfl⟩, fun h => absurd h hx⟩
  show wp _ _ _ _ s2
  cases e.launch s1.tick f with
  | spawned =>
    simp only [wp_bind, wp_modify, wp_ite, wp_pure]
    rw [hcs]
    let s3 : UState := { (s2.setFile f fun x => { x with cstate := .running }) with running := f :: s2.running }
    have key : ∀ x, ∃ c, s3.file x = { s1.file x with cstate := c } ∧ (x ≠ f → c = (s1.file x).cstate) ∧ (x = f → c = .running) := by
      intro x
      by_cases hx : x = f
      · exact ⟨.running, by simp [s3, s2, UState.setFile, UState.note, hx], fun h => absurd hx h, fun _ => rfl⟩
      · exact ⟨(s1.file x).cstate, by simp [s3, s2, UState.setFile, UState.note, hx], fun _ => rfl, fun h => absurd h hx⟩
    have hself : (s3.file f).cstate = .running := by obtain ⟨c, hc, _, hc'⟩ := key f; rw [hc]; exact hc' rfl
    have hcount : s3.count = s1.count + 1 := by
      show ((UEvent.start f :: s1.log).filterMap startOf).length = _
      rw [List.filterMap_cons_some (show startOf (.start f) = some f from rfl), List.length_cons]
      rfl
    have hlog : s3.log = .start f :: s1.log := rfl
    have hrunning : s3.running = f :: s1.running := rfl
    have hdone : ∀ x st, UEvent.done x st ∈ s3.log ↔ UEvent.done x st ∈ s1.log := by
      intro x st; rw [hlog]; simp
    have j1 := q1.inv
    have hkb := j1.kb
    have f3 : Fits S s3 := by
      refine ⟨fun x => ?_, fun x => ?_, fun x => ?_, fun x => ?_, fun x n a => ?_, i01.node⟩ <;> obtain ⟨c, hc, _⟩ := key x
      · rw [hc]; exact i01.head x
      · rw [hc]; exact i01.chain x
      · rw [hc]; exact i01.also x
      · rw [hc]; exact i01.inter x
      · rw [hc] at a; exact i01.deps x n a
    have i3 : Inv1 S pre0 P b s3 := by
      refine ⟨fun x => ?_, fun x => ?_, fun x => ?_, fun x st a => ?_, fun x => ?_, ?_, fun x hx => ?_, fun x a => ?_, fun a => ?_, ?_,
        fun g => ?_, ?_, fun x a => ?_⟩
      · obtain ⟨c, hc, h1, h2⟩ := key x
        by_cases hx : x = f
        · rw [hc]; simp only; rw [h2 hx, hx, hupd]; simp
        · rw [hc]; simp only; rw [h1 hx]; exact j1.fin x
      · obtain ⟨c, hc, h1, h2⟩ := key x
        rw [hc]; exact j1.st x
      · obtain ⟨c, hc, h1, h2⟩ := key x
        rw [hc, hdone]; exact j1.dn x
      · obtain ⟨c, hc, h1, h2⟩ := key x
        rw [hdone] at a
        rw [hc]; exact j1.dn' x st a
      · obtain ⟨c, hc, h1, h2⟩ := key x
        rw [hc, hrunning]
        by_cases hx : x = f
        · simp only; rw [h2 hx]; simp [hx]
        · simp only; rw [h1 hx, List.mem_cons]
          exact ⟨fun a => .inr ((j1.run x).mp a), fun a => (j1.run x).mpr (a.resolve_left hx)⟩
      · rw [hrunning]; exact List.nodup_cons.mpr ⟨o3, j1.nodup⟩
      · rw [hrunning] at hx
        rw [hlog]
        rcases List.mem_cons.mp hx with h | h
        · rw [h]; exact List.mem_cons_self ..
        · exact List.mem_cons_of_mem _ (j1.runStart x h)
      · by_cases hx : x = f
        · rw [hx]
          refine .inr (.inr ⟨by rw [hself]; rfl, ?_⟩)
          omega
        · obtain ⟨c, hc, h1, h2⟩ := key x
          rw [hc] at a ⊢
          simp only
          rw [h1 hx]
          rcases j1.cons x a with (c | c) | c | c
          · exact .inl c
          · exact absurd c hx
          · exact .inr (.inl c)
          · exact .inr (.inr ⟨c.1, by have := c.2; omega⟩)
      · omega
      · omega
      · obtain ⟨l, hl, hq⟩ := j1.lists g
        refine ⟨l, ?_, fun d hd => ?_, fun q hn => ?_⟩
        · obtain ⟨c, hc, h1, h2⟩ := key g
          rw [hc]; exact hl
        · rw [hlog]
          exact (hq.1 d hd).imp_left (List.mem_cons_of_mem _)
        · rw [hlog]
          exact (hq.2 q hn).imp_left (List.mem_cons_of_mem _)
      · rw [hlog]
        refine j1.order.cons (fun g hg => ?_)
        rcases hg with hg | hg
        · cases hg; exact hset
        · cases hg
      · rw [hlog] at a
        rcases List.mem_cons.mp a with h | h
        · cases h; exact r.lt
        · exact j1.startN x h
    have r3 : Rel2 S (· = f) s1 s3 := by
      refine ⟨rfl, by omega, ?_, ⟨[.start f], rfl⟩, fun x => ?_, fun x hx a hb => ?_⟩
      · rw [hrunning, List.length_cons]; omega
      · obtain ⟨c, hc, _⟩ := key x
        rw [hc]; exact .inl rfl
      · obtain ⟨c, hc, h1, h2⟩ := key x
        rw [hc, hrunning]
        refine ⟨rfl, fun _ _ => rfl, rfl, h1 hx, rfl, ?_, a⟩
        simp only [List.mem_cons, not_or]
        exact ⟨hx, hb⟩
    have r03 : Rel2 S (· = f) s s3 := (q1.rel.weaken (fun _ h => h.elim)).trans r3
    split
    · refine wp_mono (wp_and (finishJob_plain hpl f _ s3 f3 i3) (finishJob_calm f _ s3)) (fun _ s' q =>
        ⟨q.1.2.inv, r03.trans (q.1.2.rel.weaken (fun _ h => h.elim)), ?_⟩) (fun _ q => q.1) (fun _ q => q.1)
      rcases q.2.1.run f hself with h | h
      · refine .inr ⟨by rw [h]; rfl, ?_⟩
        have := q.1.2.rel.count
        omega
      · exact .inl h
    · refine ⟨i3, r03, .inr ⟨?_, ?_⟩⟩
      · show (s3.file f).cstate.busy = true
        rw [hself]; rfl
      · show s3.count ≠ b
        omega
  | nothing => exact nothing
  | asked =>
    simp only [wp_ite]
    split
    · rw [wp_bind, wp_modify]
      refine wp_of_T (finish_direct hpl f .question (by simp) s1 _ [.start f] (.inr rfl) i01 q1.inv hupd o3 (fun _ => hset) (fun _ => r.lt)
        (fun x => ?_) rfl rfl rfl rfl) (fun _ s' q => ⟨q.1, (q1.rel.weaken (fun _ h => h.elim)).trans q.2.1, .inl q.2.2.1⟩)
      by_cases hx : x = f
      · exact ⟨(s1.file x).cstate, .question, by simp [s2, UState.setFile, UState.note, hx], fun h => absurd hx h, fun _ => rfl⟩
      · exact ⟨(s1.file x).cstate, (s1.file x).ustatus, by simp [s2, UState.setFile, UState.note, hx], fun _ => ⟨rfl, rfl⟩, fun h => absurd h hx⟩
    · exact nothing

theorem executeCommands_plain (hpl : ∀ x, (s : UState) → Fits S s → (s.file x).alsoMake = []) (f : Nat) (s : UState)
    (i0 : Inv0 S s) (i : Inv1 S pre0 (fun x => P x ∨ x = f) b s) (r : Ready S pre0 s f) :
    wp (executeCommands e f) (fun _ s' => Inv1 S pre0 P b s' ∧ Rel2 S (· = f) s s' ∧ Tried b s' f) (OrderOk pre0) (fun _ => False) s := by
  unfold executeCommands
  simp only [wp_bind, wp_modify, wp_get, wp_ite]
  split
  · rw [setCState_plain s f _ (hpl f s i0.fits)]
    refine wp_of_T (finish_direct hpl f .success (by simp) s _ [] (.inl rfl) i0.fits i r.upd (r.notMem i) (fun _ => r.settled) (fun h => absurd rfl h)
      (fun x => ?_) rfl rfl rfl rfl) (fun _ s' q => ⟨q.1, q.2.1, .inl q.2.2.1⟩)
    by_cases hx : x = f
    · exact ⟨.running, .success, by simp [UState.setFile, UState.note, hx], fun h => absurd hx h, fun _ => rfl⟩
    · exact ⟨(s.file x).cstate, (s.file x).ustatus, by simp [UState.setFile, UState.note, hx], fun _ => ⟨rfl, rfl⟩, fun h => absurd h hx⟩
  · exact newJob_plain hpl f s i0 i r

theorem remakeFile_plain (hpl : ∀ x, (s : UState) → Fits S s → (s.file x).alsoMake = []) (f : Nat) (s : UState)
    (i0 : Inv0 S s) (i : Inv1 S pre0 (fun x => P x ∨ x = f) b s) (r : Ready S pre0 s f) :
    wp (remakeFile e f) (fun _ s' => Inv1 S pre0 P b s' ∧ Rel2 S (· = f) s s' ∧ Tried b s' f) (OrderOk pre0) (fun _ => False) s := by
  unfold remakeFile
  simp only [wp_bind, wp_modify, wp_get, wp_ite, wp_die]
  have direct : ∀ u : UStatus, u ≠ .none → wp (notice e f) (fun _ s' => Inv1 S pre0 P b s' ∧ Rel2 S (· = f) s s' ∧ Tried b s' f)
      (OrderOk pre0) (fun _ => False) (s.setFile f fun x => { x with ustatus := u }) := by
    intro u hu
    refine wp_of_T (finish_direct hpl f u hu s _ [] (.inl rfl) i0.fits i r.upd (r.notMem i) (fun _ => r.settled) (fun h => absurd rfl h)
      (fun x => ?_) rfl rfl rfl rfl) (fun _ s' q => ⟨q.1, q.2.1, .inl q.2.2.1⟩)
    by_cases hx : x = f
    · exact ⟨(s.file x).cstate, u, by simp [UState.setFile, UState.note, hx], fun h => absurd hx h, fun _ => endUStatus_of_ne hu⟩
    · exact ⟨(s.file x).cstate, (s.file x).ustatus, by simp [UState.setFile, UState.note, hx], fun _ => ⟨rfl, rfl⟩, fun h => absurd h hx⟩
  split
  · exact executeCommands_plain hpl f s i0 i r
  · split
    · exact direct .success (by simp)
    · split
      · exact i.order
      · exact direct .failed (by simp)

/-- The state of a recipe that waits. -/
theorem waiting_inv1 {s : UState} {f : Nat} (c : CState) (hc : c ≠ .running ∧ c ≠ .finished) (i : Inv1 S pre0 (fun x => P x ∨ x = f) b s)
    (hu : (s.file f).updated = false) (hr : f ∉ s.running) :
    Inv1 S pre0 (fun x => P x ∨ x = f) b (s.setFile f fun x => { x with cstate := c }) ∧
    Rel2 S (· = f) s (s.setFile f fun x => { x with cstate := c }) := by
  have key : ∀ x, ∃ k, (s.setFile f fun x => { x with cstate := c }).file x = { s.file x with cstate := k } ∧
      (x ≠ f → k = (s.file x).cstate) ∧ (x = f → k = c) := by
    intro x
    by_cases hx : x = f
    · exact ⟨c, by simp [UState.setFile, hx], fun h => absurd hx h, fun _ => rfl⟩
    · exact ⟨(s.file x).cstate, by simp [UState.setFile, hx], fun _ => rfl, fun h => absurd h hx⟩
  have h1 : (s.setFile f fun x => { x with cstate := c }).log = s.log := rfl
  have h2 : (s.setFile f fun x => { x with cstate := c }).running = s.running := rfl
  have h3 : (s.setFile f fun x => { x with cstate := c }).considered = s.considered := rfl
  have h4 : (s.setFile f fun x => { x with cstate := c }).dep = s.dep := rfl
  have h5 : (s.setFile f fun x => { x with cstate := c }).count = s.count := rfl
  generalize (s.setFile f fun x => { x with cstate := c }) = t at *
  constructor
  · refine ⟨fun x => ?_, fun x => ?_, fun x => ?_, fun x st => ?_, fun x => ?_, by rw [h2]; exact i.nodup, ?_, fun x => ?_, ?_, ?_,
      fun g => ?_, by rw [h1]; exact i.order, by rw [h1]; exact i.startN⟩
    · obtain ⟨k, hk, a1, a2⟩ := key x
      rw [hk]
      by_cases hx : x = f
      · simp only; rw [a2 hx, hx, hu]; simp [hc.2]
      · simp only; rw [a1 hx]; exact i.fin x
    · obtain ⟨k, hk, a1, a2⟩ := key x
      rw [hk]; exact i.st x
    · obtain ⟨k, hk, a1, a2⟩ := key x
      rw [hk, h1]; exact i.dn x
    · obtain ⟨k, hk, a1, a2⟩ := key x
      rw [hk, h1]; exact i.dn' x st
    · obtain ⟨k, hk, a1, a2⟩ := key x
      rw [hk, h2]
      by_cases hx : x = f
      · simp only; rw [a2 hx, hx]; simp [hc.1, hr]
      · simp only; rw [a1 hx]; exact i.run x
    · rw [h1, h2]; exact i.runStart
    · obtain ⟨k, hk, a1, a2⟩ := key x
      rw [hk, h3, h5]
      by_cases hx : x = f
      · exact fun _ => .inl (.inr hx)
      · simp only; rw [a1 hx]; exact i.cons x
    · rw [h5, h2]; exact i.kr
    · rw [h5]; exact i.kb
    · obtain ⟨k, hk, a1, a2⟩ := key g
      rw [hk, h1, h4]; exact i.lists g
  · refine ⟨h3, by omega, by rw [h2, h5]; exact Nat.le_refl _, ⟨[], by rw [h1]; rfl⟩, fun x => ?_, fun x hx a hb => ?_⟩
    · obtain ⟨k, hk, a1, a2⟩ := key x
      rw [hk]; exact .inl rfl
    · obtain ⟨k, hk, a1, a2⟩ := key x
      rw [hk, h2, h4]
      exact ⟨rfl, fun _ _ => rfl, rfl, a1 hx, rfl, hb, a⟩

/-- What the status that is returned says. -/
def Told (st : UStatus) (s : UState) (f : Nat) : Prop :=
  (st ≠ .success → (s.file f).updated = true ∧ (s.file f).ustatus ≠ .success) ∧
  (st = .success → (s.file f).updated = true → (s.file f).ustatus = .success)

theorem decideFile_plain (hpl : ∀ x, (s : UState) → Fits S s → (s.file x).alsoMake = []) (n f thisM : Nat) (sc : Scan) (s : UState)
    (i0 : Inv0 S s) (i : Inv1 S pre0 (fun x => P x ∨ x = f) b s) (hu : (s.file f).updated = false) (hr : (s.file f).cstate ≠ .running)
    (hN : f < S.N) (hset : sc.status = .success → Settled pre0 s.log f) :
    wp (decideFile e n f thisM sc) (fun st s' => Inv1 S pre0 P b s' ∧ Rel2 S (· = f) s s' ∧ Told st s' f) (OrderOk pre0)
      (OrderOk pre0) s := by
  have hmem : f ∉ s.running := fun h => hr ((i.run f).mpr h)
  unfold decideFile
  simp only [wp_bind, wp_modify, wp_get, wp_ite, wp_pure]
  split
  · rename_i hne
    have hv : (if sc.status = .none then UStatus.failed else sc.status) ≠ .none := by
      split
      · simp
      · assumption
    have hv' : (if sc.status = .none then UStatus.failed else sc.status) ≠ .success := by
      split
      · simp
      · assumption
    refine wp_of_T (finish_direct hpl f _ hv s _ [] (.inl rfl) i0.fits i hu hmem (fun h => ?_) (fun h => absurd rfl h)
      (fun x => ?_) rfl rfl rfl rfl) (fun _ s' q => ⟨q.1, q.2.1, fun _ => ⟨q.2.2.1, ?_⟩, fun h => absurd h hne⟩)
    · rcases h with h | h
      · exact absurd h hv'
      · exact absurd rfl h
    · by_cases hx : x = f
      · exact ⟨(s.file x).cstate, _, by simp only [UState.setFile, hx, if_true], fun h => absurd hx h, fun _ => endUStatus_of_ne hv⟩
      · exact ⟨(s.file x).cstate, (s.file x).ustatus, by simp [UState.setFile, UState.note, hx], fun _ => ⟨rfl, rfl⟩, fun h => absurd h hx⟩
    · rw [q.2.2.2]; exact hv'
  · rename_i hsucc
    have hset := hset (by simpa using hsucc)
    have rest : ∀ t : UState, Inv0 S t → Inv1 S pre0 (fun x => P x ∨ x = f) b t → Rel2 S (· = f) s t → (t.file f).updated = false →
        (t.file f).cstate ≠ .running → Settled pre0 t.log f →
        wp (do
          let r ← recordChanged e (decide (thisM = 1)) thisM n (t.file f).deps sc.must false
          let s ← UM.get
          if mustRemake e (s.file f) (decide (thisM = 1)) r.1 r.2 then do
            remakeFile e f
            let s ← UM.get
            if (s.file f).cstate = .finished then do
              UM.modify fun s => s.setFile f fun x => { x with updated := true }
              pure (s.file f).ustatus
            else pure .success
          else do
            notice e f
            pure .success) (fun st s' => Inv1 S pre0 P b s' ∧ Rel2 S (· = f) s s' ∧ Told st s' f) (OrderOk pre0) (OrderOk pre0) t := by
      intro t it0 it rt hut hrt hst
      rw [wp_bind]
      refine wp_mono (recordChanged_quiet _ thisM n _ sc.must false t) (fun r s1 q => ?_) (fun _ q => ?_) (fun _ q => ?_)
      · have i01 := q.calm.inv it0
        have i1 := q.inv1 it
        have r1 := rt.trans q.rel2
        have hu1 : (s1.file f).updated = false := (q.same f).1.trans hut
        have hr1 : (s1.file f).cstate ≠ .running := by rw [(q.same f).2.1]; exact hrt
        have hs1 : Settled pre0 s1.log f := by rw [q.log]; exact hst
        simp only [wp_bind, wp_modify, wp_get, wp_ite, wp_pure]
        split
        · refine wp_mono (remakeFile_plain hpl f s1 i01 i1 ⟨hu1, hr1, hs1, hN⟩) (fun _ s2 q2 => ?_) (fun _ q => q) (fun _ q => q.elim)
          obtain ⟨i2, r2, t2⟩ := q2
          split
          · rename_i hfin
            have hup := (i2.fin f).mp hfin
            have : (s2.setFile f fun x => { x with updated := true }) = s2 := by
              unfold UState.setFile
              have : (fun x => if x = f then { s2.file x with updated := true } else s2.file x) = s2.file := by
                funext x
                by_cases hx : x = f
                · have hy : ∀ y : UFile, y.updated = true → { y with updated := true } = y := by
                    intro y h; cases y; simp only at h; rw [h]
                  rw [if_pos hx, hx]
                  exact hy _ hup
                · rw [if_neg hx]
              rw [this]
            rw [this]
            exact ⟨i2, r1.trans r2, fun h => ⟨hup, h⟩, fun h _ => h⟩
          · rename_i hfin
            refine ⟨i2, r1.trans r2, fun h => absurd rfl h, fun _ h => absurd ((i2.fin f).mpr h) hfin⟩
        · refine wp_of_T (finish_direct hpl f .success (by simp) s1 s1 [] (.inl rfl) i01.fits i1 hu1 (fun h => hr1 ((i1.run f).mpr h))
            (fun _ => hs1) (fun h => absurd rfl h) (fun x => ?_) rfl rfl rfl rfl) (fun _ s' q => ⟨q.1, r1.trans q.2.1, fun h => absurd rfl h, fun _ _ => q.2.2.2⟩)
          refine ⟨(s1.file x).cstate, (s1.file x).ustatus, rfl, fun _ => ⟨rfl, rfl⟩, fun h => ?_⟩
          rw [h, i1.st f hu1]; rfl
      · show Order pre0 _; rw [q.log]; exact it.order
      · show Order pre0 _; rw [q.log]; exact it.order
    simp only [wp_bind, wp_modify, wp_get, wp_ite, wp_pure] at rest
    split
    · have hns : UEvent.start f ∉ s.log := by
        intro h
        rcases i0.started f h with h | h
        · rw [hu] at h; cases h
        · exact hr h
      have i0' := setCState_inv f (c := .notStarted) (by simp) i0 hns
      have w := waiting_inv1 (c := .notStarted) (by simp) i hu hmem
      rw [setCState_plain s f _ (hpl f s i0.fits)] at i0' ⊢
      refine rest _ i0' w.1 w.2 ?_ ?_ ?_
      · simp [UState.setFile, hu]
      · simp [UState.setFile]
      · exact hset
    · exact rest s i0 i (Rel2.refl s) hu hr hset

end Remake
