import Verif.Update.Run
/-!
# Updating targets: plain graphs

Graphs with neither double-colon rules, nor targets made together, nor intermediate files.  When a
recipe is started all the prerequisites are finished; every pass over the goals makes progress.
-/
namespace Remake
set_option linter.unusedVariables false
set_option linter.unusedSimpArgs false

variable {e : Env} {S : Shape}

structure Shape.Plain (S : Shape) : Prop where
  head : ∀ x, S.head x = x
  chain : ∀ x, S.chain x = [x]
  also : ∀ x, S.also x = []
  grp : ∀ x, S.grp x = x

/-- Part of a list of struct deps, with the files they refer to. -/
inductive Stretch (dep : Nat → Option UDep) : Option Nat → List (Nat × Nat) → Option Nat → Prop
  | nil (a) : Stretch dep a [] a
  | cons {n x l z} : dep n = some x → Stretch dep x.next l z → Stretch dep (some n) ((n, x.file) :: l) z

/-- The number of recipes started. -/
def UState.count (s : UState) : Nat := (s.log.filterMap startOf).length

/-- Of the given prerequisites of a target, each has been finished or dropped. -/
def Settled (pre0 : Nat → List Nat) (log : List UEvent) (f : Nat) : Prop :=
  ∀ d ∈ pre0 f, UEvent.dropped f d ∈ log ∨ UEvent.done d .success ∈ log

/-- The events that need the prerequisites of a target. -/
def Needs (f : Nat) (ev : UEvent) : Prop := ev = .start f ∨ ev = .done f .success

/-- Whenever a recipe was started or a target was finished with success, the prerequisites were
settled. -/
def Order (pre0 : Nat → List Nat) (log : List UEvent) : Prop :=
  ∀ l1 ev l2 f, log = l1 ++ ev :: l2 → Needs f ev → Settled pre0 l2 f

theorem Settled.mono {pre0 log f} (h : Settled pre0 log f) (l : List UEvent) : Settled pre0 (l ++ log) f := by
  intro d hd
  rcases h d hd with a | a
  · exact .inl (List.mem_append_right _ a)
  · exact .inr (List.mem_append_right _ a)

theorem Order.cons {pre0 log ev} (h : Order pre0 log) (hev : ∀ f, Needs f ev → Settled pre0 log f) :
    Order pre0 (ev :: log) := by
  intro l1 ev' l2 f heq hn
  cases l1 with
  | nil =>
    simp only [List.nil_append, List.cons.injEq] at heq
    obtain ⟨rfl, rfl⟩ := heq
    exact hev f hn
  | cons a l1 =>
    simp only [List.cons_append, List.cons.injEq] at heq
    exact h l1 ev' l2 f heq.2 hn

theorem Order.settled {pre0 log f ev} (h : Order pre0 log) (hm : ev ∈ log) (hn : Needs f ev) : Settled pre0 log f := by
  obtain ⟨l1, l2, rfl⟩ := List.append_of_mem hm
  have := h l1 ev l2 f rfl hn
  have := this.mono (l1 ++ [ev])
  rwa [List.append_assoc, List.singleton_append] at this

/-- `P`: the targets being worked on; `b`: the number of recipes started before the current pass. -/
structure Inv1 (S : Shape) (pre0 : Nat → List Nat) (P : Nat → Prop) (b : Nat) (s : UState) : Prop where
  fin : ∀ x, (s.file x).cstate = .finished ↔ (s.file x).updated = true
  st : ∀ x, (s.file x).updated = false → (s.file x).ustatus = .none
  dn : ∀ x, (s.file x).updated = true → (s.file x).ustatus ≠ .none ∧ UEvent.done x (s.file x).ustatus ∈ s.log
  dn' : ∀ x st, UEvent.done x st ∈ s.log → (s.file x).updated = true ∧ (s.file x).ustatus = st
  run : ∀ x, (s.file x).cstate = .running ↔ x ∈ s.running
  nodup : s.running.Nodup
  runStart : ∀ x ∈ s.running, UEvent.start x ∈ s.log
  cons : ∀ x, (s.file x).considered = s.considered →
    P x ∨ (s.file x).updated = true ∨ ((s.file x).cstate.busy = true ∧ s.count ≠ b)
  kr : s.count = b → s.running = []
  kb : b ≤ s.count
  lists : ∀ f, ∃ l, Stretch s.dep (s.file f).deps l none ∧ (∀ d ∈ pre0 f, UEvent.dropped f d ∈ s.log ∨ d ∈ l.map Prod.snd) ∧
    ∀ q, S.nodes f q → UEvent.dropped f q.2 ∈ s.log ∨ q ∈ l
  order : Order pre0 s.log
  startN : ∀ x, UEvent.start x ∈ s.log → x < S.N

/-- From one state to the other in a plain graph. -/
structure Rel2 (S : Shape) (H : Nat → Prop) (s s' : UState) : Prop where
  cons : s'.considered = s.considered
  count : s.count ≤ s'.count
  jobs : s'.running.length + s.count ≤ s.running.length + s'.count
  log : ∃ l, s'.log = l ++ s.log
  consd : ∀ x, (s'.file x).considered = (s.file x).considered ∨ (s'.file x).considered = s.considered
  frame : ∀ f, ¬ H f → (s.file f).updating = true → f ∉ s.running →
    (s'.file f).deps = (s.file f).deps ∧ (∀ n, S.own n = f → (s'.dep n).map UDep.link = (s.dep n).map UDep.link) ∧
    (s'.file f).updated = (s.file f).updated ∧ (s'.file f).cstate = (s.file f).cstate ∧
    (s'.file f).ustatus = (s.file f).ustatus ∧ f ∉ s'.running ∧ (s'.file f).updating = true

theorem Rel2.trans {H s s' s''} (h : Rel2 S H s s') (h' : Rel2 S H s' s'') : Rel2 S H s s'' := by
  refine ⟨h'.cons.trans h.cons, Nat.le_trans h.count h'.count, ?_, ?_, fun x => ?_, fun f hf a b => ?_⟩
  · have := h.jobs; have := h'.jobs; omega
  · obtain ⟨l, hl⟩ := h.log
    obtain ⟨l', hl'⟩ := h'.log
    exact ⟨l' ++ l, by rw [hl', hl, List.append_assoc]⟩
  · rcases h'.consd x with a | a
    · rcases h.consd x with b | b
      · exact .inl (a.trans b)
      · exact .inr (a.trans b)
    · exact .inr (a.trans h.cons)
  · obtain ⟨a1, a2, a3, a4, a5, a6, a7⟩ := h.frame f hf a b
    obtain ⟨b1, b2, b3, b4, b5, b6, b7⟩ := h'.frame f hf a7 a6
    exact ⟨b1.trans a1, fun n hn => (b2 n hn).trans (a2 n hn), b3.trans a3, b4.trans a4, b5.trans a5, b6, b7⟩

theorem Rel2.consid {H s s'} (h : Rel2 S H s s') (x : Nat) (a : (s.file x).considered = s.considered) :
    (s'.file x).considered = s.considered := by
  rcases h.consd x with b | b
  · exact b.trans a
  · exact b

theorem Rel2.weaken {s s'} {H H' : Nat → Prop} (h : Rel2 S H s s') (hh : ∀ k, H k → H' k) : Rel2 S H' s s' :=
  ⟨h.cons, h.count, h.jobs, h.log, h.consd, fun f hf => h.frame f (fun a => hf (hh f a))⟩

theorem Rel2.refl {H} (s : UState) : Rel2 S H s s :=
  ⟨rfl, Nat.le_refl _, Nat.le_refl _, ⟨[], rfl⟩, fun _ => .inl rfl, fun _ _ a b => ⟨rfl, fun _ _ => rfl, rfl, rfl, rfl, b, a⟩⟩

theorem Quiet.rel2 {H s s'} (q : Quiet s s') : Rel2 S H s s' := by
  refine ⟨q.calm.cons, ?_, ?_, ⟨[], by rw [q.log]; rfl⟩, fun x => .inl (still_considered (q.calm.still x)), fun f _ a b => ?_⟩
  · unfold UState.count; rw [q.log]; exact Nat.le_refl _
  · unfold UState.count; rw [q.log, q.running]; exact Nat.le_refl _
  · exact ⟨still_deps (q.calm.still f), fun n _ => q.calm.dep n, (q.same f).1, (q.same f).2.1, (q.same f).2.2, by rw [q.running]; exact b, (still_updating (q.calm.still f)).trans a⟩

/-! ### Lists -/

theorem Stretch.congr {dep dep' : Nat → Option UDep} {a l z} (h : Stretch dep a l z)
    (hd : ∀ n ∈ l.map Prod.fst, (dep' n).map UDep.link = (dep n).map UDep.link) : Stretch dep' a l z := by
  induction h with
  | nil a => exact .nil a
  | @cons n x l z hx hs ih =>
    have := hd n (by simp)
    rw [hx] at this
    cases hy : dep' n with
    | none => rw [hy] at this; simp at this
    | some y =>
      rw [hy] at this
      simp only [Option.map_some, Option.some.injEq, UDep.link, Prod.mk.injEq] at this
      rw [← this.1]
      refine .cons hy ?_
      rw [this.2]
      exact ih (fun m hm => hd m (by simp only [List.map_cons, List.mem_cons]; exact .inr hm))

theorem Stretch.unique {dep : Nat → Option UDep} {a l} (h : Stretch dep a l none) : ∀ {l'}, Stretch dep a l' none → l = l' := by
  generalize hz : (none : Option Nat) = z at h
  induction h with
  | nil a =>
    intro l' h'
    subst hz
    cases h'
    rfl
  | @cons n x l z hx hs ih =>
    intro l' h'
    subst hz
    cases h' with
    | cons hx' hs' =>
      rw [hx] at hx'
      cases hx'
      rw [ih rfl hs']

theorem Stretch.append {dep : Nat → Option UDep} {a l z} (h : Stretch dep a l z) {l' z'} (h' : Stretch dep z l' z') : Stretch dep a (l ++ l') z' := by
  induction h with
  | nil a => exact h'
  | cons hx _ ih => exact .cons hx (ih h')

/-- A list that is followed from a struct dep ends as far as the whole list does. -/
theorem Stretch.split {dep : Nat → Option UDep} {a l z} (h : Stretch dep a l z) : ∀ {l'}, Stretch dep a l' none → ∃ l'', Stretch dep z l'' none ∧ l' = l ++ l'' := by
  induction h with
  | nil a => intro l' h'; exact ⟨l', h', rfl⟩
  | @cons n x l z hx hs ih =>
    intro l' h'
    cases h' with
    | cons hx' hs' =>
      rw [hx] at hx'
      cases hx'
      obtain ⟨l'', h1, h2⟩ := ih hs'
      exact ⟨l'', h1, by rw [h2]; rfl⟩

theorem Stretch.own {s : UState} (i : Fits S s) {a l z} (h : Stretch s.dep a l z) {f : Nat} (ha : ∀ n, a = some n → S.own n = f) :
    ∀ n ∈ l.map Prod.fst, S.own n = f := by
  induction h with
  | nil a => intro n hn; simp at hn
  | @cons n x l z hx hs ih =>
    intro m hm
    have hn := ha n rfl
    simp only [List.map_cons, List.mem_cons] at hm
    rcases hm with hm | hm
    · rw [hm]; exact hn
    · exact ih (fun k hk => ((i.node n x hx).2 k hk).1.trans hn) m hm

/-! ### The invariant -/

variable {pre0 : Nat → List Nat} {P : Nat → Prop} {b : Nat}

theorem Quiet.inv1 {s s'} (q : Quiet s s') (i : Inv1 S pre0 P b s) : Inv1 S pre0 P b s' := by
  have hc : s'.count = s.count := by unfold UState.count; rw [q.log]
  refine ⟨fun x => ?_, fun x => ?_, fun x => ?_, fun x st => ?_, fun x => ?_, ?_, ?_, fun x => ?_, ?_, ?_,
    fun f => ?_, ?_, ?_⟩
  · rw [(q.same x).1, (q.same x).2.1]; exact i.fin x
  · rw [(q.same x).1, (q.same x).2.2]; exact i.st x
  · rw [(q.same x).1, (q.same x).2.2, q.log]; exact i.dn x
  · rw [(q.same x).1, (q.same x).2.2, q.log]; exact i.dn' x st
  · rw [(q.same x).2.1, q.running]; exact i.run x
  · rw [q.running]; exact i.nodup
  · rw [q.running, q.log]; exact i.runStart
  · rw [(q.same x).1, (q.same x).2.1, q.calm.cons, still_considered (q.calm.still x), hc]; exact i.cons x
  · rw [hc, q.running]; exact i.kr
  · rw [hc]; exact i.kb
  · obtain ⟨l, hl, hp⟩ := i.lists f
    refine ⟨l, ?_, by rw [q.log]; exact hp⟩
    rw [still_deps (q.calm.still f)]
    exact hl.congr (fun n _ => q.calm.dep n)
  · rw [q.log]; exact i.order
  · rw [q.log]; exact i.startN

theorem Inv1.mono {s P'} (i : Inv1 S pre0 P b s) (h : ∀ x, P x → P' x) : Inv1 S pre0 P' b s :=
  { i with cons := fun x a => (i.cons x a).imp_left (h x) }

theorem Inv1.drop {s f} (i : Inv1 S pre0 (fun x => P x ∨ x = f) b s)
    (h : (s.file f).updated = true ∨ ((s.file f).cstate.busy = true ∧ s.count ≠ b)) : Inv1 S pre0 P b s := by
  refine { i with cons := fun x a => ?_ }
  rcases i.cons x a with (c | c) | c
  · exact .inl c
  · rw [c]; exact .inr h
  · exact .inr c

/-- The target is finished with a status. -/
structure Noticed (f : Nat) (u : UStatus) (s s' : UState) : Prop where
  still : ∀ x, (s'.file x).still = (s.file x).still
  inter : ∀ x, (s'.file x).intermediate = true → (s.file x).intermediate = true
  other : ∀ x, x ≠ f → (s'.file x).updated = (s.file x).updated ∧ (s'.file x).cstate = (s.file x).cstate ∧
    (s'.file x).ustatus = (s.file x).ustatus
  self : (s'.file f).updated = true ∧ (s'.file f).cstate = .finished ∧ (s'.file f).ustatus = u
  log : s'.log = .done f u :: s.log
  running : s'.running = s.running
  cons : s'.considered = s.considered
  dep : s'.dep = s.dep

/-- The status a target gets when it is finished. -/
def endUStatus (u : UStatus) : UStatus := if u = .none then .success else u

theorem notice_plain (f : Nat) (s : UState) (h : (s.file f).alsoMake = []) :
    wpT (notice e f) (fun _ s' => Noticed f (endUStatus (s.file f).ustatus) s s') s := by
  unfold notice wpT
  simp only [wp_bind, wp_modify, wp_get, wp_ite, wp_pure]
  have fin : ∀ t : UState, (∀ x, (t.file x).still = (s.file x).still) → (∀ x, (t.file x).intermediate = (s.file x).intermediate) →
      (∀ x, (t.file x).ustatus = (s.file x).ustatus) →
      (∀ x, x ≠ f → (t.file x).updated = (s.file x).updated ∧ (t.file x).cstate = (s.file x).cstate) →
      (t.file f).updated = true → (t.file f).cstate = .finished →
      t.log = s.log → t.running = s.running → t.considered = s.considered → t.dep = s.dep →
      wp (if (s.file f).cstate = CState.running ∧ (t.file f).ustatus ≠ .none then
          (do UM.modify fun s => s.note (.done f (s.file f).ustatus)
              noticeAlso e (t.file f).ustatus (t.file f).alsoMake)
        else UM.modify fun s => (s.setFile f fun x => if x.ustatus = .none then { x with ustatus := .success } else x).note
            (.done f ((s.setFile f fun x => if x.ustatus = .none then { x with ustatus := .success } else x).file f).ustatus))
        (fun _ s' => Noticed f (endUStatus (s.file f).ustatus) s s')
        (fun _ => False) (fun _ => False) t := by
    intro t h1 h2 h3 h4 h5 h6 h7 h8 h9 h10
    rw [wp_ite]
    have ha : (t.file f).alsoMake = [] := (still_also (h1 f)).trans h
    split
    · rename_i hc
      rw [wp_bind, wp_modify, ha]
      have hne : (s.file f).ustatus ≠ .none := by rw [← h3]; exact hc.2
      have : endUStatus (s.file f).ustatus = (s.file f).ustatus := by rw [endUStatus, if_neg hne]
      rw [this]
      refine ⟨h1, fun x a => by rw [← h2]; exact a, fun x hx => ⟨(h4 x hx).1, (h4 x hx).2, h3 x⟩, ⟨h5, h6, h3 f⟩, ?_, h8, h9, h10⟩
      show _ :: t.log = _
      rw [h3, h7]
    · rw [wp_modify]
      have key : ∀ x, ∃ u, (t.setFile f fun x => if x.ustatus = .none then { x with ustatus := .success } else x).file x =
          { t.file x with ustatus := u } ∧ (x ≠ f → u = (t.file x).ustatus) ∧
          (x = f → u = endUStatus (s.file f).ustatus) := by
        intro x
        by_cases hx : x = f
        · subst hx
          refine ⟨endUStatus (s.file x).ustatus, ?_, fun h => absurd rfl h, fun _ => rfl⟩
          simp only [UState.setFile, if_true, endUStatus]
          rw [← h3 x]
          split <;> rfl
        · exact ⟨(t.file x).ustatus, by simp [UState.setFile, hx], fun _ => rfl, fun h => absurd h hx⟩
      have k1 : (t.setFile f fun x => if x.ustatus = .none then { x with ustatus := .success } else x).log = s.log := h7
      have k2 : (t.setFile f fun x => if x.ustatus = .none then { x with ustatus := .success } else x).running = s.running := h8
      have k3 : (t.setFile f fun x => if x.ustatus = .none then { x with ustatus := .success } else x).considered = s.considered := h9
      have k4 : (t.setFile f fun x => if x.ustatus = .none then { x with ustatus := .success } else x).dep = s.dep := h10
      generalize (t.setFile f fun x => if x.ustatus = .none then { x with ustatus := .success } else x) = t' at *
      refine ⟨fun x => ?_, fun x a => ?_, fun x hx => ?_, ?_, ?_, k2, k3, k4⟩
      · obtain ⟨u, hu, _⟩ := key x
        show (t'.file x).still = _
        rw [hu]; exact h1 x
      · obtain ⟨u, hu, _⟩ := key x
        have a : (t'.file x).intermediate = true := a
        rw [hu] at a; rw [← h2]; exact a
      · obtain ⟨u, hu, hn, _⟩ := key x
        have hn := hn hx
        show (t'.file x).updated = _ ∧ (t'.file x).cstate = _ ∧ (t'.file x).ustatus = _
        rw [hu]
        exact ⟨(h4 x hx).1, (h4 x hx).2, hn.trans (h3 x)⟩
      · obtain ⟨u, hu, _, hn⟩ := key f
        have hn := hn rfl
        show (t'.file f).updated = _ ∧ (t'.file f).cstate = _ ∧ (t'.file f).ustatus = _
        rw [hu]
        exact ⟨h5, h6, hn⟩
      · obtain ⟨u, hu, _, hn⟩ := key f
        have hn := hn rfl
        show UEvent.done f _ :: t'.log = _
        rw [hu, k1]
        simp only
        rw [hn]
  simp only [wp_ite, wp_bind, wp_modify] at fin
  have hc : ∀ x, ∃ m c up, (s.setFile f fun x => { x with cstate := .finished, updated := true, mtime := if (s.file f).cstate = .running ∧ ¬ x.phony then mtimeAfter e x else x.mtime }).file x
      = { s.file x with mtime := m, cstate := c, updated := up } ∧ (x ≠ f → c = (s.file x).cstate ∧ up = (s.file x).updated) ∧
      (x = f → c = .finished ∧ up = true) := by
    intro x
    by_cases hx : x = f
    · subst hx
      refine ⟨?_, .finished, true, ?_, fun h => absurd rfl h, fun _ => ⟨rfl, rfl⟩⟩
      · exact if (s.file x).cstate = .running ∧ ¬ (s.file x).phony then mtimeAfter e (s.file x) else (s.file x).mtime
      · simp only [UState.setFile, if_true]
    · exact ⟨(s.file x).mtime, (s.file x).cstate, (s.file x).updated, by simp [UState.setFile, hx], fun _ => ⟨rfl, rfl⟩, fun h => absurd h hx⟩
  have g1 : (s.setFile f fun x => { x with cstate := .finished, updated := true, mtime := if (s.file f).cstate = .running ∧ ¬ x.phony then mtimeAfter e x else x.mtime }).log = s.log := rfl
  have g2 : (s.setFile f fun x => { x with cstate := .finished, updated := true, mtime := if (s.file f).cstate = .running ∧ ¬ x.phony then mtimeAfter e x else x.mtime }).running = s.running := rfl
  have g3 : (s.setFile f fun x => { x with cstate := .finished, updated := true, mtime := if (s.file f).cstate = .running ∧ ¬ x.phony then mtimeAfter e x else x.mtime }).considered = s.considered := rfl
  have g4 : (s.setFile f fun x => { x with cstate := .finished, updated := true, mtime := if (s.file f).cstate = .running ∧ ¬ x.phony then mtimeAfter e x else x.mtime }).dep = s.dep := rfl
  generalize (s.setFile f fun x => { x with cstate := .finished, updated := true, mtime := if (s.file f).cstate = .running ∧ ¬ x.phony then mtimeAfter e x else x.mtime }) = t at *
  have a1 : ∀ x, (t.file x).still = (s.file x).still := fun x => by obtain ⟨m, c, u, h, _⟩ := hc x; rw [h]; rfl
  have a2 : ∀ x, (t.file x).intermediate = (s.file x).intermediate := fun x => by obtain ⟨m, c, u, h, _⟩ := hc x; rw [h]
  have a3 : ∀ x, (t.file x).ustatus = (s.file x).ustatus := fun x => by obtain ⟨m, c, u, h, _⟩ := hc x; rw [h]
  have a4 : ∀ x, x ≠ f → (t.file x).updated = (s.file x).updated ∧ (t.file x).cstate = (s.file x).cstate := fun x hx => by
    obtain ⟨m, c, u, h, h', _⟩ := hc x; rw [h]; exact ⟨(h' hx).2, (h' hx).1⟩
  have a5 : (t.file f).updated = true := by obtain ⟨m, c, u, h, _, h'⟩ := hc f; rw [h]; exact (h' rfl).2
  have a6 : (t.file f).cstate = .finished := by obtain ⟨m, c, u, h, _, h'⟩ := hc f; rw [h]; exact (h' rfl).1
  split
  · split
    · have hb : ∀ x, ∃ m, (if x ∈ (t.file (t.file f).head).chain then
        { t.file x with mtime := maxMtime t (t.file f).mtime (t.file (t.file f).head).chain } else t.file x) = { t.file x with mtime := m } := by
        intro x
        split
        · exact ⟨_, rfl⟩
        · exact ⟨(t.file x).mtime, rfl⟩
      refine fin { t with file := fun x => if x ∈ (t.file (t.file f).head).chain then
        { t.file x with mtime := maxMtime t (t.file f).mtime (t.file (t.file f).head).chain } else t.file x } (fun x => ?_) (fun x => ?_) (fun x => ?_) (fun x hx => ?_) ?_ ?_ g1 g2 g3 g4
      · obtain ⟨m, hm⟩ := hb x; simp only [hm]; exact a1 x
      · obtain ⟨m, hm⟩ := hb x; simp only [hm]; exact a2 x
      · obtain ⟨m, hm⟩ := hb x; simp only [hm]; exact a3 x
      · obtain ⟨m, hm⟩ := hb x; simp only [hm]; exact a4 x hx
      · obtain ⟨m, hm⟩ := hb f; simp only [hm]; exact a5
      · obtain ⟨m, hm⟩ := hb f; simp only [hm]; exact a6
    · exact fin t a1 a2 a3 a4 a5 a6 g1 g2 g3 g4
  · exact fin t a1 a2 a3 a4 a5 a6 g1 g2 g3 g4

end Remake
