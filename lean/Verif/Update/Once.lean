import Verif.Update.Calm
/-!
# Updating targets: what is started, what is dropped, how deep it goes

One induction over the functions that call each other, for graphs without intermediate files.
-/
namespace Remake
set_option linter.unusedVariables false
set_option linter.unusedSimpArgs false

/-- What does not change about the graph: the first entry of a target, its entries, the targets made
with it; `grp`: a name for the targets made together; `own`: for the targets of which group a struct
dep lists a prerequisite; `edge`: the prerequisites of the targets of a group; `nodes`: the struct deps
that a target has at the beginning, with the prerequisites; bounds. -/
structure Shape where
  head : Nat → Nat
  chain : Nat → List Nat
  also : Nat → List Nat
  grp : Nat → Nat
  own : Nat → Nat
  edge : Nat → Nat → Prop
  nodes : Nat → Nat × Nat → Prop
  N : Nat
  D : Nat
  A : Nat
  C : Nat

structure Shape.Ok (S : Shape) : Prop where
  hh : ∀ x, S.head (S.head x) = S.head x
  ch : ∀ f x, x ∈ S.chain (S.head f) → S.head x = S.head f
  ag : ∀ f g, g ∈ S.also f → S.grp g = S.grp f
  eN : ∀ r y, S.edge r y → S.head y < S.N
  lenA : ∀ f, (S.also f).length ≤ S.A
  lenC : ∀ f, (S.chain f).length ≤ S.C

/-- Following prerequisites. -/
inductive Shape.Reach (S : Shape) : Nat → Nat → Prop
  | refl (h) : Reach S h h
  | step {h f y} : Reach S h (S.head f) → S.edge (S.grp f) y → Reach S h (S.head y)

/-- The state fits the graph. -/
structure Fits (S : Shape) (s : UState) : Prop where
  head : ∀ x, (s.file x).head = S.head x
  chain : ∀ x, (s.file x).chain = S.chain x
  also : ∀ x, (s.file x).alsoMake = S.also x
  inter : ∀ x, (s.file x).intermediate = false
  deps : ∀ f n, (s.file f).deps = some n → S.own n = S.grp f ∧ n < S.D
  node : ∀ n x, s.dep n = some x → S.edge (S.own n) x.file ∧
    ∀ m, x.next = some m → S.own m = S.own n ∧ n < m ∧ m < S.D

/-- The file whose recipe is started. -/
def startOf : UEvent → Option Nat
  | .start f => some f
  | _ => none

/-- What holds of what has been observed. -/
structure LogOk (S : Shape) (s : UState) : Prop where
  once : (s.log.filterMap startOf).Nodup
  drops : ∀ f d, UEvent.dropped f d ∈ s.log → S.edge (S.grp f) d ∧ S.Reach (S.head d) (S.head f)

structure Inv0 (S : Shape) (s : UState) : Prop where
  fits : Fits S s
  log : LogOk S s
  started : ∀ x, UEvent.start x ∈ s.log → (s.file x).updated = true ∨ (s.file x).cstate = .running

/-- From one state to the other; `H` are the targets being worked on. -/
structure Rel (S : Shape) (H : Nat → Prop) (s s' : UState) : Prop where
  flag : ∀ h, ¬ H h → (s'.file h).updating = (s.file h).updating
  off : ∀ h, (s.file h).updating = false → (s'.file h).updating = false
  starts : ∀ x, UEvent.start x ∈ s'.log → UEvent.start x ∈ s.log ∨ (s.file (S.head x)).updating = false ∨ H (S.head x)
  upd : ∀ x, (s.file x).updated = true → (s'.file x).updated = true
  cons : s'.considered = s.considered

theorem Rel.trans {S H s s' s''} (h : Rel S H s s') (h' : Rel S H s' s'') : Rel S H s s'' := by
  refine ⟨fun k a => (h'.flag k a).trans (h.flag k a), fun k a => h'.off k (h.off k a), fun x a => ?_,
    fun x a => h'.upd x (h.upd x a), h'.cons.trans h.cons⟩
  rcases h'.starts x a with b | b | b
  · exact h.starts x b
  · by_cases hh : H (S.head x)
    · exact .inr (.inr hh)
    · exact .inr (.inl (by rw [← h.flag _ hh]; exact b))
  · exact .inr (.inr b)

theorem Rel.weaken {S s s'} {H H' : Nat → Prop} (h : Rel S H s s') (hh : ∀ k, H k → H' k) : Rel S H' s s' :=
  ⟨fun k a => h.flag k (fun b => a (hh k b)), h.off, fun x a => by
    rcases h.starts x a with b | b | b
    · exact .inl b
    · exact .inr (.inl b)
    · exact .inr (.inr (hh _ b)), h.upd, h.cons⟩

theorem still_updating {x y : UFile} (h : x.still = y.still) : x.updating = y.updating := by
  simp only [UFile.still, Prod.mk.injEq] at h; exact h.2.2.2.2.1

theorem still_head {x y : UFile} (h : x.still = y.still) : x.head = y.head := by
  simp only [UFile.still, Prod.mk.injEq] at h; exact h.1

theorem still_chain {x y : UFile} (h : x.still = y.still) : x.chain = y.chain := by
  simp only [UFile.still, Prod.mk.injEq] at h; exact h.2.1

theorem still_also {x y : UFile} (h : x.still = y.still) : x.alsoMake = y.alsoMake := by
  simp only [UFile.still, Prod.mk.injEq] at h; exact h.2.2.1

theorem still_deps {x y : UFile} (h : x.still = y.still) : x.deps = y.deps := by
  simp only [UFile.still, Prod.mk.injEq] at h; exact h.2.2.2.1

theorem still_considered {x y : UFile} (h : x.still = y.still) : x.considered = y.considered := by
  simp only [UFile.still, Prod.mk.injEq] at h; exact h.2.2.2.2.2

theorem Calm.starts {s s'} (h : Calm s s') (x : Nat) : UEvent.start x ∈ s'.log ↔ UEvent.start x ∈ s.log := by
  obtain ⟨l, hl, p⟩ := h.log
  rw [hl, List.mem_append]
  refine ⟨fun a => ?_, .inr⟩
  rcases a with a | a
  · obtain ⟨_, _, h⟩ := p _ a
    cases h
  · exact a

theorem Calm.dropped {s s'} (h : Calm s s') (x y : Nat) : UEvent.dropped x y ∈ s'.log ↔ UEvent.dropped x y ∈ s.log := by
  obtain ⟨l, hl, p⟩ := h.log
  rw [hl, List.mem_append]
  refine ⟨fun a => ?_, .inr⟩
  rcases a with a | a
  · obtain ⟨_, _, h⟩ := p _ a
    cases h
  · exact a

theorem Calm.startsList {s s'} (h : Calm s s') : s'.log.filterMap startOf = s.log.filterMap startOf := by
  obtain ⟨l, hl, p⟩ := h.log
  rw [hl, List.filterMap_append]
  have : l.filterMap startOf = [] := by
    rw [List.filterMap_eq_nil_iff]
    intro a ha
    obtain ⟨_, _, rfl⟩ := p a ha
    rfl
  rw [this, List.nil_append]

theorem Calm.rel {S H s s'} (h : Calm s s') : Rel S H s s' :=
  ⟨fun k _ => still_updating (h.still k), fun k a => (still_updating (h.still k)).trans a,
    fun x a => .inl ((h.starts x).mp a), h.upd, h.cons⟩

theorem Calm.logOk {S s s'} (h : Calm s s') (i : LogOk S s) : LogOk S s' :=
  ⟨by rw [h.startsList]; exact i.once, fun f d a => i.drops f d ((h.dropped f d).mp a)⟩

theorem Calm.fits {S s s'} (h : Calm s s') (i : Fits S s) : Fits S s' := by
  refine ⟨fun x => (still_head (h.still x)).trans (i.head x), fun x => (still_chain (h.still x)).trans (i.chain x),
    fun x => (still_also (h.still x)).trans (i.also x), fun x => ?_, fun f n a => ?_, fun n x a => ?_⟩
  · cases hx : (s'.file x).intermediate with
    | false => rfl
    | true => exact (Bool.noConfusion ((i.inter x).symm.trans (h.inter x hx)))
  · exact i.deps f n ((still_deps (h.still f)).symm.trans a)
  · have hl := h.dep n
    rw [a] at hl
    cases hy : s.dep n with
    | none => rw [hy] at hl; simp at hl
    | some y =>
      rw [hy] at hl
      simp only [Option.map_some, Option.some.injEq, UDep.link, Prod.mk.injEq] at hl
      rw [hl.1, hl.2]
      exact i.node n y hy

theorem Calm.inv {S s s'} (h : Calm s s') (i : Inv0 S s) : Inv0 S s' := by
  refine ⟨h.fits i.fits, h.logOk i.log, fun x a => ?_⟩
  rcases i.started x ((h.starts x).mp a) with b | b
  · exact .inl (h.upd x b)
  · exact (h.run x b).symm

/-! ### Changing the state of a recipe -/

theorem setCState_fold (c : CState) (gs : List Nat) (s : UState) :
    ∃ k : Nat → CState, (gs.foldl (fun s g => s.setFile g fun x => if x.cstate.rank < c.rank then { x with cstate := c } else x) s)
      = { s with file := fun x => { s.file x with cstate := k x } } ∧
      ∀ x, k x = (s.file x).cstate ∨ ((s.file x).cstate.rank < c.rank ∧ k x = c ∧ x ∈ gs) := by
  induction gs generalizing s with
  | nil => exact ⟨fun x => (s.file x).cstate, rfl, fun x => .inl rfl⟩
  | cons g gs ih =>
    obtain ⟨k, hk, hp⟩ := ih (s.setFile g fun x => if x.cstate.rank < c.rank then { x with cstate := c } else x)
    refine ⟨k, ?_, fun x => ?_⟩
    · rw [List.foldl_cons, hk]
      congr 1
      funext x
      simp only [UState.setFile]
      by_cases hx : x = g
      · rw [if_pos hx]
        split <;> rfl
      · rw [if_neg hx]
    · have := hp x
      simp only [UState.setFile] at this
      by_cases hx : x = g
      · rw [if_pos hx] at this
        by_cases hr : (s.file x).cstate.rank < c.rank
        · rw [if_pos hr] at this
          simp only at this
          rcases this with h | h
          · exact .inr ⟨hr, h, by simp [hx]⟩
          · exact .inr ⟨hr, h.2.1, by simp [hx]⟩
        · rw [if_neg hr] at this
          rcases this with h | h
          · exact .inl h
          · exact absurd h.1 hr
      · rw [if_neg hx] at this
        rcases this with h | h
        · exact .inl h
        · exact .inr ⟨h.1, h.2.1, by simp [h.2.2]⟩

theorem setCState_eq (s : UState) (f : Nat) (c : CState) :
    ∃ k : Nat → CState, setCState s f c = { s with file := fun x => { s.file x with cstate := k x } } ∧ k f = c ∧
      ∀ x, x ≠ f → k x = (s.file x).cstate ∨ ((s.file x).cstate.rank < c.rank ∧ k x = c ∧ x ∈ (s.file f).alsoMake) := by
  obtain ⟨k, hk, hp⟩ := setCState_fold c (s.file f).alsoMake (s.setFile f fun x => { x with cstate := c })
  refine ⟨k, ?_, ?_, fun x hx => ?_⟩
  · unfold setCState
    simp only
    have : ((s.setFile f fun x => { x with cstate := c }).file f).alsoMake = (s.file f).alsoMake := by
      simp [UState.setFile]
    rw [this, hk]
    congr 1
    funext x
    simp only [UState.setFile]
    by_cases hx : x = f <;> simp [hx]
  · have := hp f
    simp only [UState.setFile, if_true] at this
    rcases this with h | h
    · exact h
    · exact absurd h.1 (Nat.lt_irrefl _)
  · have := hp x
    simp only [UState.setFile, if_neg hx] at this
    exact this

theorem setCState_run {s : UState} {f : Nat} {c : CState} (hc : c ≠ .finished) (x : Nat) (hx : x ≠ f)
    (h : (s.file x).cstate = .running) : ((setCState s f c).file x).cstate = .running := by
  obtain ⟨k, hk, _, hp⟩ := setCState_eq s f c
  rw [hk]
  rcases hp x hx with a | a
  · exact a.trans h
  · rw [h] at a
    exfalso
    cases c <;> simp [CState.rank] at a hc

theorem setCState_self (s : UState) (f : Nat) (c : CState) : ((setCState s f c).file f).cstate = c := by
  obtain ⟨k, hk, hf, _⟩ := setCState_eq s f c
  rw [hk]; exact hf

theorem setCState_fits {S s} (f : Nat) (c : CState) (i : Fits S s) : Fits S (setCState s f c) := by
  obtain ⟨k, hk, _, _⟩ := setCState_eq s f c
  rw [hk]
  exact ⟨i.head, i.chain, i.also, i.inter, i.deps, i.node⟩

theorem setCState_log (s : UState) (f : Nat) (c : CState) : (setCState s f c).log = s.log := by
  obtain ⟨k, hk, _, _⟩ := setCState_eq s f c
  rw [hk]

theorem setCState_updated (s : UState) (f : Nat) (c : CState) (x : Nat) :
    ((setCState s f c).file x).updated = (s.file x).updated := by
  obtain ⟨k, hk, _, _⟩ := setCState_eq s f c
  rw [hk]

theorem setCState_updating (s : UState) (f : Nat) (c : CState) (x : Nat) :
    ((setCState s f c).file x).updating = (s.file x).updating := by
  obtain ⟨k, hk, _, _⟩ := setCState_eq s f c
  rw [hk]

theorem setCState_considered (s : UState) (f : Nat) (c : CState) :
    (setCState s f c).considered = s.considered := by
  obtain ⟨k, hk, _, _⟩ := setCState_eq s f c
  rw [hk]

theorem setCState_rel {S H} (s : UState) (f : Nat) (c : CState) : Rel S H s (setCState s f c) :=
  ⟨fun h _ => setCState_updating s f c h, fun h a => (setCState_updating s f c h).trans a,
    fun x a => .inl (by rw [setCState_log] at a; exact a), fun x a => (setCState_updated s f c x).trans a,
    setCState_considered s f c⟩

theorem setCState_inv {S s} (f : Nat) {c : CState} (hc : c ≠ .finished) (i : Inv0 S s) (h : UEvent.start f ∉ s.log) :
    Inv0 S (setCState s f c) := by
  refine ⟨setCState_fits f c i.fits, ⟨by rw [setCState_log]; exact i.log.once, fun x d a => i.log.drops x d (by rw [setCState_log] at a; exact a)⟩, fun x a => ?_⟩
  rw [setCState_log] at a
  by_cases hx : x = f
  · subst hx; exact absurd a h
  · rcases i.started x a with b | b
    · exact .inl ((setCState_updated s f c x).trans b)
    · exact .inr (setCState_run hc x hx b)

theorem setCState_inv_running {S s} (f : Nat) (i : Fits S s) (l : LogOk S s)
    (h : ∀ x, x ≠ f → UEvent.start x ∈ s.log → (s.file x).updated = true ∨ (s.file x).cstate = .running) :
    Inv0 S (setCState s f .running) := by
  refine ⟨setCState_fits f _ i, ⟨by rw [setCState_log]; exact l.once, fun x d a => l.drops x d (by rw [setCState_log] at a; exact a)⟩, fun x a => ?_⟩
  rw [setCState_log] at a
  by_cases hx : x = f
  · subst hx; exact .inr (setCState_self s x _)
  · rcases h x hx a with b | b
    · exact .inl ((setCState_updated s f _ x).trans b)
    · exact .inr (setCState_run (by simp) x hx b)

variable {e : Env} {S : Shape}

/-- Setting the status of a file. -/
theorem setStatus_calm (s : UState) (f : Nat) (st : UStatus) :
    Calm s (s.setFile f fun x => { x with ustatus := st }) := by
  refine Calm.ofSet ?_ ?_ ?_ ?_ <;> intro x <;> simp [UFile.still] <;> exact fun h => .inl h

theorem newJob_inv (f : Nat) (s : UState) (i : Inv0 S s) (h : UEvent.start f ∉ s.log) :
    wp (newJob e f) (fun _ s' => Inv0 S s' ∧ Rel S (· = S.head f) s s') (LogOk S) (fun _ => False) s := by
  unfold newJob
  simp only [wp_bind, wp_modify, wp_get]
  refine wp_mono (reapSome_calm s) (fun _ s1 q1 => ?_) (fun _ q => q.logOk i.log) (fun _ q => q)
  have i1 := q1.1.inv i
  have h1 : UEvent.start f ∉ s1.log := fun a => h ((q1.1.starts f).mp a)
  let s2 : UState := { s1.note (.start f) with tick := s1.tick + 1 }
  have l2 : LogOk S s2 := by
    refine ⟨?_, fun x d a => ?_⟩
    · show ((UEvent.start f :: s1.log).filterMap startOf).Nodup
      rw [List.filterMap_cons_some (show startOf (.start f) = some f from rfl), List.nodup_cons]
      refine ⟨?_, i1.log.once⟩
      intro a
      rw [List.mem_filterMap] at a
      obtain ⟨ev, hev, he⟩ := a
      cases ev with
      | start x =>
        simp only [startOf, Option.some.injEq] at he
        subst he
        exact h1 hev
      | done => cases he
      | dropped => cases he
    · have : UEvent.dropped x d ∈ UEvent.start f :: s1.log := a
      rcases List.mem_cons.mp this with b | b
      · cases b
      · exact i1.log.drops x d b
  have f2 : Fits S s2 := ⟨i1.fits.head, i1.fits.chain, i1.fits.also, i1.fits.inter, i1.fits.deps, i1.fits.node⟩
  have st2 : ∀ x, x ≠ f → UEvent.start x ∈ s2.log → (s2.file x).updated = true ∨ (s2.file x).cstate = .running := by
    intro x hx a
    have : UEvent.start x ∈ UEvent.start f :: s1.log := a
    rcases List.mem_cons.mp this with b | b
    · cases b; exact absurd rfl hx
    · exact i1.started x b
  have r2 : Rel S (· = S.head f) s s2 := by
    refine q1.1.rel.trans ⟨fun _ _ => rfl, fun _ a => a, fun x a => ?_, fun _ a => a, rfl⟩
    have : UEvent.start x ∈ UEvent.start f :: s1.log := a
    rcases List.mem_cons.mp this with b | b
    · cases b; exact .inr (.inr rfl)
    · exact .inl b
  have i3 := setCState_inv_running f f2 l2 st2
  have r3 : Rel S (· = S.head f) s (setCState s2 f .running) := r2.trans (setCState_rel s2 f _)
  have nothing : wp (do
        UM.modify fun s => (setCState s f .running).setFile f fun x => { x with ustatus := .success }
        notice e f) (fun _ s' => Inv0 S s' ∧ Rel S (· = S.head f) s s') (LogOk S) (fun _ => False) s2 := by
    rw [wp_bind, wp_modify]
    have c := setStatus_calm (setCState s2 f .running) f .success
    exact wp_of_T (notice_calm f _) (fun _ s' q => ⟨(c.trans q.1).inv i3, r3.trans (c.trans q.1).rel⟩)
  show wp _ _ _ _ s2
  cases e.launch s1.tick f with
  | spawned =>
    simp only [wp_bind, wp_modify, wp_ite, wp_pure]
    have c : Calm (setCState s2 f .running) { setCState s2 f .running with running := f :: s2.running } := (Calm.refl _).running _
    split
    · exact wp_mono (finishJob_calm f _ _) (fun _ s' q => ⟨(c.trans q.1).inv i3, r3.trans (c.trans q.1).rel⟩)
        (fun _ q => (c.trans q).logOk i3.log) (fun _ q => q)
    · exact ⟨c.inv i3, r3.trans c.rel⟩
  | nothing => exact nothing
  | asked =>
    simp only [wp_ite]
    split
    · rw [wp_bind, wp_modify]
      have c := setStatus_calm s2 f .question
      refine wp_of_T (notice_calm f _) (fun _ s' q => ?_)
      have cc := c.trans q.1
      refine ⟨⟨cc.fits f2, cc.logOk l2, fun x a => ?_⟩, r2.trans cc.rel⟩
      by_cases hx : x = f
      · subst hx; exact .inl q.2.2
      · rcases st2 x hx ((cc.starts x).mp a) with b | b
        · exact .inl (cc.upd x b)
        · exact (cc.run x b).symm
    · exact nothing

theorem executeCommands_inv (f : Nat) (s : UState) (i : Inv0 S s) (h : UEvent.start f ∉ s.log) :
    wp (executeCommands e f) (fun _ s' => Inv0 S s' ∧ Rel S (· = S.head f) s s') (LogOk S) (fun _ => False) s := by
  unfold executeCommands
  simp only [wp_bind, wp_modify, wp_get, wp_ite]
  split
  · have i3 := setCState_inv f (c := .running) (by simp) i h
    have c := setStatus_calm (setCState s f .running) f .success
    exact wp_of_T (notice_calm f _) (fun _ s' q =>
      ⟨(c.trans q.1).inv i3, (setCState_rel s f _).trans (c.trans q.1).rel⟩)
  · exact newJob_inv f s i h

theorem remakeFile_inv (f : Nat) (s : UState) (i : Inv0 S s) (h : UEvent.start f ∉ s.log) :
    wp (remakeFile e f) (fun _ s' => Inv0 S s' ∧ Rel S (· = S.head f) s s') (LogOk S) (fun _ => False) s := by
  unfold remakeFile
  simp only [wp_bind, wp_modify, wp_get, wp_ite, wp_die]
  split
  · exact executeCommands_inv f s i h
  · split
    · have c := setStatus_calm s f .success
      exact wp_of_T (notice_calm f _) (fun _ s' q => ⟨(c.trans q.1).inv i, (c.trans q.1).rel⟩)
    · split
      · exact i.log
      · have c := setStatus_calm s f .failed
        exact wp_of_T (notice_calm f _) (fun _ s' q => ⟨(c.trans q.1).inv i, (c.trans q.1).rel⟩)

/-- How far it is to the end of a list. -/
def Shape.rem (S : Shape) : Option Nat → Nat
  | none => 0
  | some d => S.D - d

theorem recordChanged_fuel (noexist : Bool) (thisM n : Nat) (d : Option Nat) (must changed : Bool) (s : UState)
    (i : Fits S s) (hd : ∀ m, d = some m → m < S.D) :
    wp (recordChanged e noexist thisM n d must changed) (fun _ _ => True) (fun _ => True)
      (fun _ => n < S.rem d) s := by
  induction n generalizing d must changed s with
  | zero =>
    cases d with
    | none => trivial
    | some d =>
      show 0 < S.D - d
      have := hd d rfl
      omega
  | succ n ih =>
    cases d with
    | none => trivial
    | some d =>
      rw [recordChanged]
      simp only [wp_bind, wp_readDep]
      cases hx : s.dep d with
      | none => trivial
      | some x =>
        simp only
        refine wp_of_T (fileMtime_quiet x.file s) (fun m s1 q1 => ?_)
        simp only [wp_get]
        have hl := q1.calm.dep d
        rw [hx] at hl
        cases hy : s1.dep d with
        | none => rw [hy] at hl; simp at hl
        | some y =>
          rw [hy] at hl
          simp only [Option.map_some, Option.some.injEq] at hl
          refine wp_of_T (writeDep_quiet d _ s1 y hy (by rw [hl]; rfl)) (fun _ s2 q2 => ?_)
          have nx := (i.node d x hx).2
          refine wp_mono (ih x.next _ _ s2 ((q1.trans q2).calm.fits i) (fun m hm => (nx m hm).2.2)) (fun _ _ q => trivial) (fun _ _ => trivial) (fun _ q => ?_)
          have hdD := hd d rfl
          cases hn : x.next with
          | none => rw [hn] at q; simp only [Shape.rem] at q; omega
          | some m =>
            rw [hn] at q
            have := nx m hn
            simp only [Shape.rem] at q ⊢
            omega

theorem decideFile_inv (n f thisM : Nat) (sc : Scan) (s : UState) (i : Inv0 S s) (h : UEvent.start f ∉ s.log) :
    wp (decideFile e n f thisM sc) (fun _ s' => Inv0 S s' ∧ Rel S (· = S.head f) s s') (LogOk S)
      (fun s' => LogOk S s' ∧ n < S.D) s := by
  unfold decideFile
  simp only [wp_bind, wp_modify, wp_get, wp_ite, wp_pure]
  split
  · refine wp_of_T (notice_calm f _) (fun _ s' q => ?_)
    have c : Calm s (s.setFile f fun x => { x with ustatus := if sc.status = .none then .failed else sc.status }) :=
      setStatus_calm s f _
    exact ⟨(c.trans q.1).inv i, (c.trans q.1).rel⟩
  · have rest : ∀ t : UState, Inv0 S t → Rel S (· = S.head f) s t → UEvent.start f ∉ t.log →
        wp (do
          let r ← recordChanged e (decide (thisM = 1)) thisM n (t.file f).deps sc.must false
          let s ← UM.get
          if mustRemake e (s.file f) (decide (thisM = 1)) r.1 r.2 then do
            remakeFile e f
            let s ← UM.get
            if (s.file f).cstate = .finished then do
              UM.modify fun s => s.setFile f fun x => { x with updated := true }
              pure (s.file f).ustatus
            else pure .success
          else do
            notice e f
            pure .success) (fun _ s' => Inv0 S s' ∧ Rel S (· = S.head f) s s') (LogOk S) (fun s' => LogOk S s' ∧ n < S.D) t := by
      intro t it rt ht
      rw [wp_bind]
      refine wp_mono (wp_and (recordChanged_quiet _ thisM n _ sc.must false t)
        (recordChanged_fuel _ thisM n _ sc.must false t it.fits (fun m hm => (it.fits.deps f m hm).2)))
        (fun r s1 q => ?_) (fun _ q => q.1.calm.logOk it.log) (fun _ q => ⟨q.1.calm.logOk it.log, ?_⟩)
      · have i1 := q.1.calm.inv it
        have r1 := rt.trans q.1.calm.rel
        have h1 : UEvent.start f ∉ s1.log := fun a => ht ((q.1.calm.starts f).mp a)
        simp only [wp_bind, wp_modify, wp_get, wp_ite, wp_pure]
        split
        · refine wp_mono (remakeFile_inv f s1 i1 h1) (fun _ s2 q2 => ?_) (fun _ q => q) (fun _ q => q.elim)
          split
          · have c : Calm s2 (s2.setFile f fun x => { x with updated := true }) := by
              refine Calm.ofSet ?_ ?_ ?_ ?_ <;> intro x <;> simp [UFile.still]
            exact ⟨c.inv q2.1, (r1.trans q2.2).trans c.rel⟩
          · exact ⟨q2.1, r1.trans q2.2⟩
        · exact wp_of_T (notice_calm f s1) (fun _ s' q => ⟨q.1.inv i1, r1.trans q.1.rel⟩)
      · have := q.2
        cases hd : (t.file f).deps with
        | none => rw [hd] at this; exact absurd this (Nat.not_lt_zero _)
        | some d => rw [hd] at this; simp only [Shape.rem] at this; omega
    simp only [wp_bind, wp_modify, wp_get, wp_ite, wp_pure] at rest
    split
    · exact rest _ (setCState_inv f (by simp) i h) (setCState_rel s f _) (by rw [setCState_log]; exact h)
    · exact rest s i (Calm.refl s).rel h

/-! ### Flags -/

/-- The number of targets other than `k` that are not being updated. -/
def Shape.free (S : Shape) (s : UState) (k : Nat) : Nat :=
  (List.range S.N).countP fun h => h != k && !(s.file h).updating

theorem countP_succ_le {p q : Nat → Bool} (l : List Nat) (hpq : ∀ x, p x = true → q x = true) (k : Nat)
    (hk : k ∈ l) (hq : q k = true) (hp : p k = false) : l.countP p + 1 ≤ l.countP q := by
  induction l with
  | nil => cases hk
  | cons a l ih =>
    have mono : l.countP p ≤ l.countP q := List.countP_mono_left (fun x _ => hpq x)
    rw [List.countP_cons, List.countP_cons]
    by_cases hak : a = k
    · subst hak
      rw [hq, hp]
      simp only [Bool.false_eq_true, if_false, if_true]
      omega
    · have := ih (by rcases List.mem_cons.mp hk with h | h; exact absurd h.symm hak; exact h)
      have : (if p a = true then 1 else 0) ≤ (if q a = true then 1 else 0 : Nat) := by
        by_cases ha : p a = true
        · rw [if_pos ha, if_pos (hpq a ha)]; exact Nat.le_refl 1
        · rw [if_neg ha]; exact Nat.zero_le _
      omega

theorem free_congr {s s' : UState} {k : Nat} (h : ∀ x, x ≠ k → (s'.file x).updating = (s.file x).updating) :
    S.free s' k = S.free s k := by
  unfold Shape.free
  apply List.countP_congr
  intro x _
  by_cases hx : x = k
  · simp [hx]
  · rw [h x hx]

theorem free_lt {s s' : UState} {k k' : Nat} (h : ∀ x, x ≠ k' → (s'.file x).updating = (s.file x).updating)
    (hk : (s.file k).updating = true) (hk' : (s.file k').updating = false) (hN : k' < S.N) :
    S.free s' k' + 1 ≤ S.free s k := by
  unfold Shape.free
  apply countP_succ_le _ _ k' (List.mem_range.mpr hN)
  · have : k' ≠ k := fun h => by rw [h, hk] at hk'; cases hk'
    simp [this, hk']
  · simp
  · intro x hx
    simp only [Bool.and_eq_true, bne_iff_ne, ne_eq, Bool.not_eq_true'] at hx ⊢
    refine ⟨fun a => ?_, by rw [← h x hx.1]; exact hx.2⟩
    rw [a] at hx
    rw [h k hx.1, hk] at hx
    exact absurd hx.2 (by simp)

theorem free_le (s : UState) (k : Nat) : S.free s k ≤ S.N := by
  unfold Shape.free
  have := List.countP_le_length (p := fun h => h != k && !(s.file h).updating) (l := List.range S.N)
  rw [List.length_range] at this
  exact this

/-- The targets being updated lead to this one. -/
def Stk (S : Shape) (s : UState) (f : Nat) : Prop :=
  ∀ h, (s.file h).updating = true → S.Reach h (S.head f)

theorem setUpdating_wp (b : Bool) (f : Nat) (Q E F) (s : UState) (i : Fits S s) :
    wp (setUpdating b f) Q E F s = Q () (s.setFile (S.head f) fun x => { x with updating := b }) := by
  unfold setUpdating
  rw [wp_modify, i.head]

theorem setFlag_inv {s : UState} (i : Inv0 S s) (k : Nat) (b : Bool) :
    Inv0 S (s.setFile k fun x => { x with updating := b }) := by
  have key : ∀ x, ∃ b', (s.setFile k fun x => { x with updating := b }).file x = { s.file x with updating := b' } := by
    intro x
    by_cases hx : x = k
    · exact ⟨b, by simp [UState.setFile, hx]⟩
    · exact ⟨(s.file x).updating, by simp [UState.setFile, hx]⟩
  refine ⟨⟨fun x => ?_, fun x => ?_, fun x => ?_, fun x => ?_, fun x n a => ?_, i.fits.node⟩, ⟨i.log.once, i.log.drops⟩, fun x a => ?_⟩ <;>
    obtain ⟨b', hb⟩ := key x
  · rw [hb]; exact i.fits.head x
  · rw [hb]; exact i.fits.chain x
  · rw [hb]; exact i.fits.also x
  · rw [hb]; exact i.fits.inter x
  · rw [hb] at a; exact i.fits.deps x n a
  · rw [hb]; exact i.started x a

theorem flag_self (s : UState) (k : Nat) (b : Bool) :
    ((s.setFile k fun x => { x with updating := b }).file k).updating = b := by simp [UState.setFile]

theorem flag_other (s : UState) (k : Nat) (b : Bool) (x : Nat) (h : x ≠ k) :
    ((s.setFile k fun x => { x with updating := b }).file x).updating = (s.file x).updating := by simp [UState.setFile, h]

theorem flag_updated (s : UState) (k : Nat) (b : Bool) (x : Nat) :
    ((s.setFile k fun x => { x with updating := b }).file x).updated = (s.file x).updated := by
  by_cases h : x = k <;> simp [UState.setFile, h]

end Remake
