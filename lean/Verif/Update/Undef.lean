import Verif.Update.Once
/-!
# Updating targets: no freed struct dep is used

In graphs without intermediate files.
-/
namespace Remake
set_option linter.unusedVariables false
set_option linter.unusedSimpArgs false

variable {e : Env}

/-- What holds of a result; the behaviour is defined, and with `-k` the program does not give up. -/
def safe {α} (e : Env) (m : UM α) (Q : α → UState → Prop) (s : UState) : Prop :=
  match m s with
  | .ok a s => Q a s
  | .undef _ => False
  | .dead _ => e.keepGoing = false
  | .fuel _ => True

theorem safe_pure {α} (a : α) (Q s) : safe e (pure a : UM α) Q s = Q a s := rfl

theorem safe_get (Q s) : safe e UM.get Q s = Q s s := rfl

theorem safe_modify (g Q s) : safe e (UM.modify g) Q s = Q () (g s) := rfl

theorem safe_die {α} (Q s) : safe e (UM.die : UM α) Q s = (e.keepGoing = false) := rfl

theorem safe_fuel {α} (Q : α → UState → Prop) (s) : safe e (fun s => UOut.fuel s) Q s = True := rfl

theorem safe_bind {α β} (m : UM α) (k : α → UM β) (Q s) :
    safe e (m >>= k) Q s = safe e m (fun a s => safe e (k a) Q s) s := by
  show (match (match m s with | .ok a s => k a s | .dead s => UOut.dead s | .undef s => .undef s | .fuel s => .fuel s) with
    | .ok a s => Q a s | .undef _ => False | .dead _ => e.keepGoing = false | .fuel _ => True) = _
  unfold safe
  cases m s <;> rfl

theorem safe_readDep (d Q s) :
    safe e (readDep d) Q s = (match s.dep d with | none => False | some x => Q x s) := by
  unfold safe readDep
  cases s.dep d <;> rfl

theorem safe_mono {α} {m : UM α} {Q Q' : α → UState → Prop} {s}
    (h : safe e m Q s) (hQ : ∀ a s', Q a s' → Q' a s') : safe e m Q' s := by
  unfold safe at *
  cases hm : m s <;> rw [hm] at h
  · exact hQ _ _ h
  · exact h
  · exact h
  · trivial

theorem safe_of_T {α} {m : UM α} {Q Q' : α → UState → Prop} {s}
    (h : wpT m Q s) (hQ : ∀ a s', Q a s' → Q' a s') : safe e m Q' s := by
  unfold wpT wp UOut.sat at h
  unfold safe
  cases hm : m s <;> rw [hm] at h
  · exact hQ _ _ h
  · exact h.elim
  · exact h
  · trivial

theorem safe_ite {α} (c : Prop) [Decidable c] (a b : UM α) (Q s) :
    safe e (if c then a else b) Q s = if c then safe e a Q s else safe e b Q s := by
  split <;> rfl

/-- All the pointers to struct deps are good. -/
structure Solid (s : UState) : Prop where
  inter : ∀ x, (s.file x).intermediate = false
  deps : ∀ f n, (s.file f).deps = some n → (s.dep n).isSome
  next : ∀ n x m, s.dep n = some x → x.next = some m → (s.dep m).isSome

/-- The pointers remain good; a new state. -/
structure Widens (s s' : UState) : Prop where
  solid : Solid s'
  dep : ∀ d, (s.dep d).isSome → (s'.dep d).isSome

theorem Widens.refl {s} (h : Solid s) : Widens s s := ⟨h, fun _ a => a⟩

theorem Widens.trans {s s' s''} (h : Widens s s') (h' : Widens s' s'') : Widens s s'' :=
  ⟨h'.solid, fun d a => h'.dep d (h.dep d a)⟩

theorem Calm.grows {s s'} (c : Calm s s') (h : Solid s) : Widens s s' := by
  have k : ∀ d, (s'.dep d).isSome = (s.dep d).isSome := fun d => by
    have := congrArg Option.isSome (c.dep d)
    simpa using this
  refine ⟨⟨fun x => ?_, fun f n a => ?_, fun n x m a b => ?_⟩, fun d a => by rw [k]; exact a⟩
  · cases hi : (s'.file x).intermediate with
    | false => rfl
    | true => have := c.inter x hi; rw [h.inter x] at this; cases this
  · rw [k]; rw [still_deps (c.still f)] at a; exact h.deps f n a
  · rw [k]
    have := c.dep n
    rw [a] at this
    cases hs : s.dep n with
    | none => rw [hs] at this; simp at this
    | some y =>
      rw [hs] at this
      simp only [Option.map_some, Option.some.injEq, UDep.link, Prod.mk.injEq] at this
      exact h.next n y m hs (by rw [← this.2]; exact b)

theorem Widens.setFile {s : UState} (h : Solid s) (f : Nat) (g : UFile → UFile)
    (hg : ∀ x, (g x).intermediate = x.intermediate ∧ ∀ n, (g x).deps = some n → x.deps = some n) : Widens s (s.setFile f g) := by
  refine ⟨⟨fun x => ?_, fun x n a => ?_, h.next⟩, fun _ a => a⟩
  · simp only [UState.setFile]; split
    · rw [(hg _).1]; exact h.inter x
    · exact h.inter x
  · simp only [UState.setFile] at a; split at a
    · exact h.deps x n ((hg _).2 n a)
    · exact h.deps x n a

theorem Widens.cstate {s : UState} (h : Solid s) (f : Nat) (c : CState) : Widens s (setCState s f c) := by
  obtain ⟨k, hk, _, _⟩ := setCState_eq s f c
  rw [hk]
  exact ⟨⟨h.inter, h.deps, h.next⟩, fun _ a => a⟩

theorem finishJob_safe (f : Nat) (j : JobEnd) (s : UState) : safe e (finishJob e f j) (fun _ s' => Calm s s') s := by
  unfold finishJob
  simp only [safe_bind, safe_get, safe_ite, safe_modify, safe_pure, safe_die]
  split
  · have c1 : Calm s { s.setFile f fun x => { x with ustatus := endStatus e j } with running := s.running.erase f } :=
      Calm.running (s' := s.setFile f fun x => { x with ustatus := endStatus e j })
        (by refine Calm.ofSet ?_ ?_ ?_ ?_ <;> intro x <;> simp [UFile.still] <;> exact fun h => .inl h) _
    refine safe_of_T (notice_calm f _) (fun _ s2 q => ?_)
    split
    · rename_i h; simpa using h.2
    · exact c1.trans q.1
  · exact Calm.refl s

theorem finishJobs_safe (js : List (Nat × JobEnd)) (s : UState) : safe e (finishJobs e js) (fun _ s' => Calm s s') s := by
  induction js generalizing s with
  | nil => exact Calm.refl s
  | cons p js ih =>
    obtain ⟨f, j⟩ := p
    rw [finishJobs, safe_bind]
    exact safe_mono (finishJob_safe f j s) (fun _ s1 q1 => safe_mono (ih s1) (fun _ s2 q2 => q1.trans q2))

theorem reapSome_safe (s : UState) : safe e (reapSome e) (fun _ s' => Calm s s') s := by
  unfold reapSome
  simp only [safe_bind, safe_modify, safe_get]
  exact safe_mono (finishJobs_safe _ _) (fun _ s' q => ((Calm.refl s).tick _).trans q)

theorem reapBlock_safe (s : UState) : safe e (reapBlock e) (fun _ s' => Calm s s') s := by
  unfold reapBlock
  simp only [safe_bind, safe_get]
  refine safe_mono (reapSome_safe s) (fun _ s1 q1 => ?_)
  cases hr : s1.running with
  | nil => exact q1
  | cons f fs =>
    simp only [safe_ite, safe_pure]
    split
    · exact q1
    · exact safe_mono (finishJob_safe f _ s1) (fun _ s2 q2 => q1.trans q2)

theorem notice_safe (f : Nat) (s : UState) (h : Solid s) : safe e (notice e f) (fun _ s' => Widens s s') s :=
  safe_of_T (notice_calm f s) (fun _ _ q => q.1.grows h)

theorem newJob_safe (f : Nat) (s : UState) (h : Solid s) : safe e (newJob e f) (fun _ s' => Widens s s') s := by
  unfold newJob
  simp only [safe_bind, safe_modify, safe_get]
  refine safe_mono (reapSome_safe s) (fun _ s1 q1 => ?_)
  have g1 := q1.grows h
  have q2 : Widens s { s1.note (.start f) with tick := s1.tick + 1 } :=
    g1.trans ⟨⟨g1.solid.inter, g1.solid.deps, g1.solid.next⟩, fun _ a => a⟩
  generalize ({ s1.note (.start f) with tick := s1.tick + 1 } : UState) = t at *
  have run : ∀ st, safe e (notice e f) (fun _ s' => Widens s s') ((setCState t f .running).setFile f fun x => { x with ustatus := st }) := by
    intro st
    have a := Widens.cstate q2.solid f .running
    have b := Widens.setFile a.solid f (fun x => { x with ustatus := st }) (fun _ => ⟨rfl, fun _ a => a⟩)
    exact safe_mono (notice_safe f _ b.solid) (fun _ _ q => ((q2.trans a).trans b).trans q)
  cases e.launch s1.tick f with
  | spawned =>
    simp only [safe_bind, safe_modify, safe_ite, safe_pure]
    have q3 : Widens s { setCState t f .running with running := f :: t.running } := by
      have a := Widens.cstate q2.solid f .running
      exact (q2.trans a).trans ⟨⟨a.solid.inter, a.solid.deps, a.solid.next⟩, fun _ a => a⟩
    split
    · exact safe_mono (finishJob_safe f _ _) (fun _ _ q => q3.trans (q.grows q3.solid))
    · exact q3
  | nothing =>
    simp only [safe_bind, safe_modify]
    exact run _
  | asked =>
    simp only [safe_ite, safe_bind, safe_modify]
    split
    · have b := Widens.setFile q2.solid f (fun x => { x with ustatus := .question }) (fun _ => ⟨rfl, fun _ a => a⟩)
      exact safe_mono (notice_safe f _ b.solid) (fun _ _ q => (q2.trans b).trans q)
    · exact run _

theorem remakeFile_safe (f : Nat) (s : UState) (h : Solid s) : safe e (remakeFile e f) (fun _ s' => Widens s s') s := by
  have st : ∀ st, safe e (notice e f) (fun _ s' => Widens s s') (s.setFile f fun x => { x with ustatus := st }) := by
    intro st
    have b := Widens.setFile h f (fun x => { x with ustatus := st }) (fun _ => ⟨rfl, fun _ a => a⟩)
    exact safe_mono (notice_safe f _ b.solid) (fun _ _ q => b.trans q)
  unfold remakeFile executeCommands
  simp only [safe_bind, safe_modify, safe_get, safe_ite, safe_die]
  split
  · split
    · have a := Widens.cstate h f .running
      have b := Widens.setFile a.solid f (fun x => { x with ustatus := .success }) (fun _ => ⟨rfl, fun _ a => a⟩)
      exact safe_mono (notice_safe f _ b.solid) (fun _ _ q => (a.trans b).trans q)
    · exact newJob_safe f s h
  · split
    · exact st _
    · split
      · rename_i h; simpa using h
      · exact st _

theorem writeDep_grows {s : UState} (h : Solid s) (d : Nat) (y : UDep) (hy : ∀ m, y.next = some m → (s.dep m).isSome) :
    Widens s { s with dep := fun z => if z = d then some y else s.dep z } := by
  have k : ∀ n, (s.dep n).isSome → ((if n = d then some y else s.dep n) : Option UDep).isSome := by
    intro n hn; split
    · rfl
    · exact hn
  refine ⟨⟨h.inter, fun f n a => k n (h.deps f n a), fun n x m a b => ?_⟩, k⟩
  have a : (if n = d then some y else s.dep n) = some x := a
  split at a
  · cases a; exact k m (hy m b)
  · exact k m (h.next n x m a b)

theorem recordChanged_safe (noexist : Bool) (thisM n : Nat) (d : Option Nat) (must changed : Bool) (s : UState) (h : Solid s)
    (hd : ∀ m, d = some m → (s.dep m).isSome) :
    safe e (recordChanged e noexist thisM n d must changed) (fun _ s' => Widens s s') s := by
  induction n generalizing d must changed s with
  | zero =>
    cases d with
    | none => rw [recordChanged]; exact Widens.refl h
    | some d => rw [recordChanged]; trivial
  | succ n ih =>
    cases d with
    | none => rw [recordChanged]; exact Widens.refl h
    | some d =>
      rw [recordChanged]
      simp only [safe_bind, safe_readDep]
      have hd := hd d rfl
      cases hx : s.dep d with
      | none => rw [hx] at hd; cases hd
      | some x =>
        simp only
        refine safe_of_T (fileMtime_quiet x.file s) (fun m s1 q1 => ?_)
        have g1 := q1.calm.grows h
        unfold writeDep
        simp only [safe_get, safe_modify]
        have hn : ∀ m, x.next = some m → (s1.dep m).isSome := fun m hm => g1.dep m (h.next d x m hx hm)
        have g2 := writeDep_grows g1.solid d { x with changed := x.changed || noexist || decide (thisM < m) } hn
        exact safe_mono (ih x.next _ _ _ g2.solid (fun m hm => g2.dep m (hn m hm))) (fun _ _ q => (g1.trans g2).trans q)

theorem decideFile_safe (n f thisM : Nat) (sc : Scan) (s : UState) (h : Solid s) :
    safe e (decideFile e n f thisM sc) (fun _ s' => Widens s s') s := by
  unfold decideFile
  simp only [safe_bind, safe_modify, safe_get, safe_ite, safe_pure]
  have tail : ∀ t, Widens s t → safe e (recordChanged e (decide (thisM = 1)) thisM n (t.file f).deps sc.must false)
      (fun r u => if mustRemake e (u.file f) (decide (thisM = 1)) r.1 r.2 = true then
          safe e (remakeFile e f) (fun _ v => if (v.file f).cstate = .finished then
            Widens s (v.setFile f fun x => { x with updated := true }) else Widens s v) u
        else safe e (notice e f) (fun _ v => Widens s v) u) t := by
    intro t g
    refine safe_mono (recordChanged_safe _ _ _ _ _ _ t g.solid (fun m => g.solid.deps f m)) (fun r u q1 => ?_)
    split
    · refine safe_mono (remakeFile_safe f u q1.solid) (fun _ v q2 => ?_)
      split
      · exact ((g.trans q1).trans q2).trans (Widens.setFile q2.solid f _ (fun _ => ⟨rfl, fun _ a => a⟩))
      · exact (g.trans q1).trans q2
    · exact safe_mono (notice_safe f u q1.solid) (fun _ v q2 => (g.trans q1).trans q2)
  split
  · have b := Widens.setFile h f (fun x => { x with ustatus := if sc.status = .none then .failed else sc.status }) (fun _ => ⟨rfl, fun _ a => a⟩)
    exact safe_mono (notice_safe f _ b.solid) (fun _ _ q => b.trans q)
  · split
    · exact tail _ (Widens.cstate h f .notStarted)
    · exact tail _ (Widens.refl h)

theorem unlink_safe (f : Nat) (last next : Option Nat) (s : UState) (h : Solid s)
    (hl : ∀ l, last = some l → (s.dep l).isSome) (hn : ∀ m, next = some m → (s.dep m).isSome) :
    safe e (unlink f last next) (fun _ s' => Widens s s') s := by
  unfold unlink
  cases last with
  | none =>
    simp only [safe_modify]
    refine ⟨⟨fun x => ?_, fun x n a => ?_, h.next⟩, fun _ a => a⟩
    · simp only [UState.setFile]; split <;> exact h.inter x
    · simp only [UState.setFile] at a; split at a
      · exact hn n a
      · exact h.deps x n a
  | some l =>
    simp only [safe_bind, safe_readDep]
    have hl := hl l rfl
    cases hx : s.dep l with
    | none => rw [hx] at hl; cases hl
    | some y =>
      unfold writeDep
      simp only [safe_modify]
      exact writeDep_grows h l { y with next := next } hn

theorem run_safe : ∀ n,
    (∀ f s, Solid s → safe e (updateFile e n f) (fun _ s' => Widens s s') s) ∧
    (∀ xs st s, Solid s → safe e (updateEntries e n xs st) (fun _ s' => Widens s s') s) ∧
    (∀ f s, Solid s → safe e (updateFile1 e n f) (fun _ s' => Widens s s') s) ∧
    (∀ f m gs sc s, Solid s → safe e (scanLists e n f m gs sc) (fun _ s' => Widens s s') s) ∧
    (∀ f m last d sc s, Solid s → (∀ l, last = some l → (s.dep l).isSome) → (∀ m, d = some m → (s.dep m).isSome) →
      safe e (scanDeps e n f m last d sc) (fun _ s' => Widens s s') s) ∧
    (∀ f d sc s, Solid s → (∀ m, d = some m → (s.dep m).isSome) → safe e (updateIntermediates e n f d sc) (fun _ s' => Widens s s') s) ∧
    (∀ f m must s, Solid s → safe e (checkDep e n f m must) (fun _ s' => Widens s s') s) := by
  intro n
  induction n with
  | zero =>
    refine ⟨fun f s h => ?_, fun xs st s h => ?_, fun f s h => ?_, fun f m gs sc s h => ?_, fun f m last d sc s h hl hd => ?_,
      fun f d sc s h hd => ?_, fun f m must s h => ?_⟩
    · rw [updateFile]; trivial
    · cases xs with
      | nil => rw [updateEntries]; exact Widens.refl h
      | cons x xs => rw [updateEntries]; trivial
    · rw [updateFile1]; trivial
    · cases gs with
      | nil => rw [scanLists]; exact Widens.refl h
      | cons x xs => rw [scanLists]; trivial
    · cases d with
      | none => rw [scanDeps]; exact Widens.refl h
      | some d => rw [scanDeps]; trivial
    · cases d with
      | none => rw [updateIntermediates]; exact Widens.refl h
      | some d => rw [updateIntermediates]; trivial
    · rw [checkDep]; trivial
  | succ n ih =>
    obtain ⟨i1, i2, i3, i4, i5, i6, i7⟩ := ih
    have hu : ∀ f b s, Solid s → safe e (setUpdating b f) (fun _ s' => Widens s s') s := by
      intro f b s h
      unfold setUpdating
      rw [safe_modify]
      exact Widens.setFile h _ _ (fun _ => ⟨rfl, fun _ a => a⟩)
    refine ⟨fun f s h => ?_, fun xs st s h => ?_, fun f s h => ?_, fun f m gs sc s h => ?_, fun f m last d sc s h hl hd => ?_,
      fun f d sc s h hd => ?_, fun f m must s h => ?_⟩
    · rw [updateFile]
      simp only [safe_bind, safe_get, safe_ite, safe_pure]
      split
      · exact Widens.refl h
      · exact i2 _ _ s h
    · cases xs with
      | nil => rw [updateEntries]; exact Widens.refl h
      | cons x xs =>
        rw [updateEntries]
        simp only [safe_bind, safe_get, safe_modify, safe_ite, safe_pure]
        have b := Widens.setFile h x (fun y => { y with considered := s.considered }) (fun _ => ⟨rfl, fun _ a => a⟩)
        refine safe_mono (i3 x _ b.solid) (fun new s1 q1 => ?_)
        split
        · exact b.trans q1
        · split
          · exact b.trans q1
          · exact safe_mono (i2 xs _ s1 q1.solid) (fun _ _ q => (b.trans q1).trans q)
    · rw [updateFile1]
      simp only [safe_bind, safe_get, safe_modify, safe_ite, safe_pure]
      split
      · exact Widens.refl h
      · split
        · exact Widens.refl h
        · split
          · exact Widens.refl h
          · refine safe_mono (hu f true s h) (fun _ s1 q1 => ?_)
            refine safe_of_T (fileMtime_quiet f s1) (fun thisM s2 q2 => ?_)
            have g2 := q1.trans (q2.calm.grows q1.solid)
            refine safe_of_T (lastResort_quiet f s2) (fun _ s3 q3 => ?_)
            have g3 := g2.trans (q3.calm.grows g2.solid)
            refine safe_mono (i4 f thisM _ _ s3 g3.solid) (fun sc s4 q4 => ?_)
            have g4 := g3.trans q4
            have rest : ∀ (sc : Scan) t, Widens s t → safe e (setUpdating false f)
                (fun _ u => if sc.running = true then Widens s (setCState u f .depsRunning)
                  else safe e (decideFile e n f thisM sc) (fun _ s' => Widens s s') u) t := by
              intro sc t g
              refine safe_mono (hu f false t g.solid) (fun _ s1 q1 => ?_)
              split
              · exact (g.trans q1).trans (Widens.cstate q1.solid f _)
              · exact safe_mono (decideFile_safe n f thisM sc s1 q1.solid) (fun _ _ q => (g.trans q1).trans q)
            split
            · exact safe_mono (i6 f _ sc s4 g4.solid (fun m => g4.solid.deps f m)) (fun sc s5 q5 => rest sc s5 (g4.trans q5))
            · exact rest sc s4 g4
    · cases gs with
      | nil => rw [scanLists]; exact Widens.refl h
      | cons g gs =>
        rw [scanLists]
        simp only [safe_bind, safe_get]
        exact safe_mono (i5 f m none _ sc s h (fun _ a => by cases a) (fun m => h.deps g m))
          (fun sc s1 q1 => safe_mono (i4 f m gs sc s1 q1.solid) (fun _ _ q => q1.trans q))
    · cases d with
      | none => rw [scanDeps]; exact Widens.refl h
      | some d =>
        rw [scanDeps]
        simp only [safe_bind, safe_readDep]
        have hd := hd d rfl
        cases hx : s.dep d with
        | none => rw [hx] at hd; cases hd
        | some x =>
          simp only
          refine safe_of_T (fileMtime_quiet x.file s) (fun mtime s1 q1 => ?_)
          have g1 := q1.calm.grows h
          simp only [safe_get, safe_ite, safe_bind, safe_modify, safe_pure, safe_readDep]
          split
          · have gn : Widens s (s1.note (.dropped f x.file)) :=
              g1.trans ⟨⟨g1.solid.inter, g1.solid.deps, g1.solid.next⟩, fun _ a => a⟩
            refine safe_mono (unlink_safe f last x.next _ gn.solid (fun l a => gn.dep l (hl l a)) (fun m a => gn.dep m (h.next d x m hx a)))
              (fun _ s2 q2 => ?_)
            have g2 := gn.trans q2
            exact safe_mono (i5 f m last x.next sc s2 g2.solid (fun l a => g2.dep l (hl l a)) (fun m a => g2.dep m (h.next d x m hx a)))
              (fun _ _ q => g2.trans q)
          · refine safe_mono (i7 x.file m sc.must s1 g1.solid) (fun r s2 q2 => ?_)
            have g2 := g1.trans q2
            have hd2 := g2.dep d (by rw [hx]; rfl)
            cases hx2 : s2.dep d with
            | none => rw [hx2] at hd2; cases hd2
            | some x2 =>
              simp only
              have hsd : ∀ t, Widens s t → ∀ l, some d = some l → (t.dep l).isSome := fun t g l a => by
                cases a; exact g.dep d (by rw [hx]; rfl)
              split
              · exact g2
              · split
                · exact safe_mono (i5 f m (some d) x2.next _ s2 g2.solid (hsd s2 g2) (fun m a => g2.solid.next d x2 m hx2 a)) (fun _ _ q => g2.trans q)
                · refine safe_of_T (fileMtime_quiet x2.file s2) (fun m' s3 q3 => ?_)
                  have g3 := g2.trans (q3.calm.grows g2.solid)
                  have hn : ∀ m, x2.next = some m → (s3.dep m).isSome := fun m a =>
                    (q3.calm.grows g2.solid).dep m (g2.solid.next d x2 m hx2 a)
                  unfold writeDep
                  rw [safe_modify]
                  have g4 := writeDep_grows g3.solid d { x2 with changed := decide (m' ≠ mtime) || decide (mtime = 1) } hn
                  exact safe_mono (i5 f m (some d) x2.next _ _ g4.solid (hsd _ (g3.trans g4)) (fun m a => g4.dep m (hn m a)))
                    (fun _ _ q => (g3.trans g4).trans q)
    · cases d with
      | none => rw [updateIntermediates]; exact Widens.refl h
      | some d =>
        rw [updateIntermediates]
        simp only [safe_bind, safe_readDep]
        have hd := hd d rfl
        cases hx : s.dep d with
        | none => rw [hx] at hd; cases hd
        | some x =>
          simp only [safe_get, safe_ite, safe_bind, safe_modify, safe_pure, safe_readDep]
          rw [h.inter, if_neg (by simp)]
          exact i6 f x.next sc s h (fun m a => h.next d x m hx a)
    · rw [checkDep]
      simp only [safe_get, safe_ite, safe_bind, safe_modify, safe_pure]
      refine safe_mono (hu f true s h) (fun _ s1 q1 => ?_)
      rw [q1.solid.inter, if_pos (by simp)]
      refine safe_mono (i1 f s1 q1.solid) (fun st s2 q2 => ?_)
      refine safe_of_T (fileMtime_quiet f s2) (fun m' s3 q3 => ?_)
      have g3 := (q1.trans q2).trans (q3.calm.grows q2.solid)
      exact safe_mono (hu f false s3 g3.solid) (fun _ _ q => g3.trans q)

theorem goalEntries_safe (n : Nat) (xs : List Nat) (r : GoalRes) (s : UState) (h : Solid s) :
    safe e (goalEntries e n xs r) (fun _ s' => Solid s') s := by
  induction xs generalizing r s with
  | nil => exact h
  | cons x xs ih =>
    rw [goalEntries]
    simp only [safe_bind, safe_get, safe_ite, safe_pure]
    refine safe_mono ((run_safe n).1 x s h) (fun st s1 q1 => ?_)
    split
    · refine safe_of_T (fileMtime_quiet x s1) (fun _ s2 q2 => ?_)
      split
      · exact (q2.calm.grows q1.solid).solid
      · exact ih _ s2 (q2.calm.grows q1.solid).solid
    · split
      · exact q1.solid
      · exact ih _ s1 q1.solid

theorem goalPass_safe (n : Nat) (gs : List Nat) (st : UStatus) (s : UState) (h : Solid s) :
    safe e (goalPass e n gs st) (fun _ s' => Solid s') s := by
  induction gs generalizing st s with
  | nil => exact h
  | cons g gs ih =>
    rw [goalPass]
    simp only [safe_bind, safe_get, safe_ite, safe_pure]
    refine safe_mono (goalEntries_safe n _ _ s h) (fun r s1 q1 => ?_)
    split
    · exact q1
    · exact safe_mono (ih r.status s1 q1) (fun _ s2 q2 => q2)

theorem goalLoop_safe (n k : Nat) (gs : List Nat) (st : UStatus) (s : UState) (h : Solid s) :
    safe e (goalLoop e n k gs st) (fun _ s' => Solid s') s := by
  induction k generalizing gs st s with
  | zero =>
    cases gs with
    | nil => rw [goalLoop]; exact h
    | cons g gs => rw [goalLoop]; trivial
  | succ k ih =>
    cases gs with
    | nil => rw [goalLoop]; exact h
    | cons g gs =>
      rw [goalLoop]
      simp only [safe_bind, safe_ite, safe_modify, safe_pure]
      refine safe_mono (reapBlock_safe s) (fun _ s1 q1 => ?_)
      refine safe_mono (goalPass_safe n (g :: gs) st s1 (q1.grows h).solid) (fun r s2 q2 => ?_)
      split
      · exact ih _ _ s2 q2
      · exact ih _ _ _ ⟨q2.inter, q2.deps, q2.next⟩

theorem updateGoals_safe (n k : Nat) (gs : List Nat) (s : UState) (h : Solid s) :
    safe e (updateGoals e n k gs) (fun _ s' => Solid s') s := by
  unfold updateGoals
  rw [safe_bind, safe_modify]
  exact goalLoop_safe n k gs .none _ ⟨h.inter, h.deps, h.next⟩

end Remake
