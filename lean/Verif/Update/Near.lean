import Verif.Update.Calm
import Verif.Update.Spec
/-!
# Updating targets: only what the goals need is looked at

In all graphs.  `R` are the files that the goals need, `R'` those and the ones made together with them,
`N` the struct deps of the latter.
-/
namespace Remake
set_option linter.unusedVariables false
set_option linter.unusedSimpArgs false

variable {e : Env} {R R' N : Nat → Prop}

/-- What an event is about. -/
def EvIn (R R' : Nat → Prop) : UEvent → Prop
  | .start x => R x
  | .done x _ => R' x
  | .dropped x _ => R x

structure Near (R R' N : Nat → Prop) (s : UState) : Prop where
  log : ∀ ev ∈ s.log, EvIn R R' ev
  run : ∀ x ∈ s.running, R x
  deps : ∀ g d, R' g → (s.file g).deps = some d → N d
  node : ∀ n x, N n → s.dep n = some x → R x.file ∧ ∀ m, x.next = some m → N m
  ch : ∀ f, R f → ∀ x ∈ (s.file (s.file f).head).chain, R x
  also : ∀ f, R f → ∀ g ∈ (s.file f).alsoMake, R' g
  sub : ∀ f, R f → R' f

/-- Changes of a file that are of no concern. -/
def KeepsNear (N : Nat → Prop) (y y' : UFile) : Prop :=
  y'.head = y.head ∧ y'.chain = y.chain ∧ y'.alsoMake = y.alsoMake ∧ ∀ d, y'.deps = some d → y.deps = some d ∨ N d

theorem KeepsNear.refl (y : UFile) : KeepsNear N y y := ⟨rfl, rfl, rfl, fun _ => .inl⟩

theorem Near.files {s : UState} (h : Near R R' N s) (F : Nat → UFile) (hF : ∀ x, KeepsNear N (s.file x) (F x)) :
    Near R R' N { s with file := F } := by
  refine ⟨h.log, h.run, fun g d a b => ?_, h.node, fun f a x b => ?_, fun f a g b => ?_, h.sub⟩
  · exact ((hF g).2.2.2 d b).elim (h.deps g d a) id
  · have b : x ∈ (F (F f).head).chain := b
    rw [(hF f).1, (hF _).2.1] at b
    exact h.ch f a x b
  · have b : g ∈ (F f).alsoMake := b
    rw [(hF f).2.2.1] at b
    exact h.also f a g b

theorem Near.setFile {s : UState} (h : Near R R' N s) (f : Nat) (g : UFile → UFile) (hg : ∀ y, KeepsNear N y (g y)) :
    Near R R' N (s.setFile f g) := by
  refine h.files _ (fun x => ?_)
  split
  · exact hg _
  · exact .refl _

theorem Near.tick {s : UState} (h : Near R R' N s) (i : Nat) : Near R R' N { s with tick := i } :=
  ⟨h.log, h.run, h.deps, h.node, h.ch, h.also, h.sub⟩

theorem Near.cons {s : UState} (h : Near R R' N s) (i : Nat) : Near R R' N { s with considered := i } :=
  ⟨h.log, h.run, h.deps, h.node, h.ch, h.also, h.sub⟩

theorem Near.note {s : UState} (h : Near R R' N s) (ev : UEvent) (hev : EvIn R R' ev) : Near R R' N (s.note ev) :=
  ⟨fun x a => (List.mem_cons.mp a).elim (fun b => b ▸ hev) (h.log x), h.run, h.deps, h.node, h.ch, h.also, h.sub⟩

theorem Near.running {s : UState} (h : Near R R' N s) (r : List Nat) (hr : ∀ x ∈ r, x ∈ s.running ∨ R x) :
    Near R R' N { s with running := r } :=
  ⟨h.log, fun x a => (hr x a).elim (h.run x) id, h.deps, h.node, h.ch, h.also, h.sub⟩

theorem Near.writeDep {s : UState} (h : Near R R' N s) (d : Nat) (y : Option UDep)
    (hy : ∀ x, N d → y = some x → R x.file ∧ ∀ m, x.next = some m → N m) :
    Near R R' N { s with dep := fun z => if z = d then y else s.dep z } := by
  refine ⟨h.log, h.run, h.deps, fun n x a b => ?_, h.ch, h.also, h.sub⟩
  simp only at b
  split at b
  · rename_i hn
    subst hn
    exact hy x a b
  · exact h.node n x a b

theorem Near.setCState {s : UState} (h : Near R R' N s) (f : Nat) (c : CState) : Near R R' N (setCState s f c) := by
  unfold Remake.setCState
  simp only
  have key : ∀ (l : List Nat) (s : UState), Near R R' N s → Near R R' N (l.foldl (fun s g =>
      s.setFile g fun x => if x.cstate.rank < c.rank then { x with cstate := c } else x) s) := by
    intro l
    induction l with
    | nil => exact fun s h => h
    | cons g l ih =>
      intro s h
      refine ih _ (h.setFile g _ (fun y => ?_))
      split <;> exact ⟨rfl, rfl, rfl, fun _ => .inl⟩
  exact key _ _ (h.setFile f _ (fun y => ⟨rfl, rfl, rfl, fun _ => .inl⟩))

theorem Near.status {s : UState} (h : Near R R' N s) (f : Nat) (u : UStatus) : Near R R' N (s.setFile f fun x => { x with ustatus := u }) :=
  h.setFile f _ (fun y => ⟨rfl, rfl, rfl, fun _ => .inl⟩)

theorem fMtime_near (f : Nat) (s : UState) (h : Near R R' N s) : wpT (fMtime e f) (fun _ s' => Near R R' N s') s := by
  unfold fMtime wpT
  simp only [wp_bind, wp_get, wp_modify, wp_pure]
  refine (h.files _ (fun x => ?_)).tick _
  simp only
  split
  · split <;> split <;> exact ⟨rfl, rfl, rfl, fun _ => .inl⟩
  · exact .refl _

theorem fileMtime_near (f : Nat) (s : UState) (h : Near R R' N s) : wpT (fileMtime e f) (fun _ s' => Near R R' N s') s := by
  unfold fileMtime wpT
  simp only [wp_bind, wp_get, wp_ite, wp_pure]
  split
  · exact fMtime_near f s h
  · exact h

theorem noticeAlso_near (st : UStatus) (gs : List Nat) (s : UState) (h : Near R R' N s) (hg : ∀ g ∈ gs, R' g) :
    wpT (noticeAlso e st gs) (fun _ s' => Near R R' N s') s := by
  induction gs generalizing s with
  | nil => exact h
  | cons g gs ih =>
    unfold wpT at *
    rw [noticeAlso]
    simp only [wp_bind, wp_modify, wp_get, wp_ite, wp_pure]
    have k := (h.setFile g (fun x => { x with cstate := .finished, updated := true, ustatus := st }) (fun y => ⟨rfl, rfl, rfl, fun _ => .inl⟩)).note
      (.done g st) (hg g (List.mem_cons_self ..))
    split
    · exact ih _ k (fun x a => hg x (List.mem_cons_of_mem _ a))
    · exact wp_of_T (fMtime_near g _ k) (fun _ s1 q1 => ih s1 q1 (fun x a => hg x (List.mem_cons_of_mem _ a)))

theorem notice_near (f : Nat) (s : UState) (h : Near R R' N s) (hf : R f) : wpT (notice e f) (fun _ s' => Near R R' N s') s := by
  unfold notice wpT
  simp only [wp_bind, wp_modify, wp_get, wp_ite, wp_pure]
  have k : Near R R' N (s.setFile f fun x => { x with cstate := .finished, updated := true, mtime := if (s.file f).cstate = .running ∧ ¬ x.phony then mtimeAfter e x else x.mtime }) :=
    h.setFile f _ (fun y => ⟨rfl, rfl, rfl, fun _ => .inl⟩)
  generalize (s.setFile f fun x => { x with cstate := .finished, updated := true, mtime := if (s.file f).cstate = .running ∧ ¬ x.phony then mtimeAfter e x else x.mtime }) = t at *
  have tail : ∀ t : UState, Near R R' N t → (if (s.file f).cstate = .running ∧ (t.file f).ustatus ≠ .none then
      wp (noticeAlso e (t.file f).ustatus (t.file f).alsoMake) (fun _ s' => Near R R' N s') (fun _ => False) (fun _ => False)
        (t.note (.done f (t.file f).ustatus))
      else Near R R' N ((t.setFile f fun x => if x.ustatus = .none then { x with ustatus := .success } else x).note
        (.done f ((t.setFile f fun x => if x.ustatus = .none then { x with ustatus := .success } else x).file f).ustatus))) := by
    intro t k
    split
    · exact noticeAlso_near _ _ _ (k.note _ (k.sub f hf)) (fun g a => k.also f hf g a)
    · refine Near.note (k.setFile f _ (fun y => ?_)) _ (k.sub f hf)
      split <;> exact ⟨rfl, rfl, rfl, fun _ => .inl⟩
  split
  · split
    · refine tail { t with file := fun x => if x ∈ (t.file (t.file f).head).chain then
          { t.file x with mtime := maxMtime t (t.file f).mtime (t.file (t.file f).head).chain } else t.file x }
        (k.files _ (fun x => ?_))
      simp only
      split <;> exact ⟨rfl, rfl, rfl, fun _ => .inl⟩
    · exact tail _ k
  · exact tail _ k

theorem finishJob_near (f : Nat) (j : JobEnd) (s : UState) (h : Near R R' N s) :
    wp (finishJob e f j) (fun _ s' => Near R R' N s') (Near R R' N) (Near R R' N) s := by
  unfold finishJob
  simp only [wp_bind, wp_modify, wp_get, wp_ite, wp_pure, wp_die]
  split
  · rename_i hf
    refine wp_of_T (notice_near f _ (Near.running (h.status f _) _ (fun x a => .inl (List.mem_of_mem_erase a))) (h.run f hf)) (fun _ s2 q => ?_)
    split <;> exact q
  · exact h

theorem finishJobs_near (js : List (Nat × JobEnd)) (s : UState) (h : Near R R' N s) :
    wp (finishJobs e js) (fun _ s' => Near R R' N s') (Near R R' N) (Near R R' N) s := by
  induction js generalizing s with
  | nil => exact h
  | cons p js ih =>
    obtain ⟨f, j⟩ := p
    rw [finishJobs, wp_bind]
    exact wp_mono (finishJob_near f j s h) (fun _ s1 q1 => ih s1 q1) (fun _ q => q) (fun _ q => q)

theorem reapSome_near (s : UState) (h : Near R R' N s) :
    wp (reapSome e) (fun _ s' => Near R R' N s') (Near R R' N) (Near R R' N) s := by
  unfold reapSome
  simp only [wp_bind, wp_modify, wp_get]
  exact finishJobs_near _ _ (h.tick _)

theorem reapBlock_near (s : UState) (h : Near R R' N s) :
    wp (reapBlock e) (fun _ s' => Near R R' N s') (Near R R' N) (Near R R' N) s := by
  unfold reapBlock
  simp only [wp_bind, wp_get]
  refine wp_mono (reapSome_near s h) (fun _ s1 q1 => ?_) (fun _ q => q) (fun _ q => q)
  cases hr : s1.running with
  | nil => exact q1
  | cons f fs =>
    simp only [wp_ite, wp_pure]
    split
    · exact q1
    · exact finishJob_near f _ s1 q1

theorem noticeRun_near (f : Nat) (st : UStatus) (s : UState) (h : Near R R' N s) (hf : R f) :
    wpT (notice e f) (fun _ s' => Near R R' N s') ((setCState s f .running).setFile f fun x => { x with ustatus := st }) :=
  notice_near f _ ((h.setCState f _).status f st) hf

theorem newJob_near (f : Nat) (s : UState) (h : Near R R' N s) (hf : R f) :
    wp (newJob e f) (fun _ s' => Near R R' N s') (Near R R' N) (Near R R' N) s := by
  unfold newJob
  simp only [wp_bind, wp_modify, wp_get]
  refine wp_mono (reapSome_near s h) (fun _ s1 q1 => ?_) (fun _ q => q) (fun _ q => q)
  have q2 : Near R R' N { s1.note (.start f) with tick := s1.tick + 1 } := (q1.note (.start f) hf).tick _
  generalize ({ s1.note (.start f) with tick := s1.tick + 1 } : UState) = t at *
  cases e.launch s1.tick f with
  | spawned =>
    simp only [wp_bind, wp_modify, wp_ite, wp_pure]
    have q3 : Near R R' N { setCState t f .running with running := f :: t.running } :=
      (q2.setCState f .running).running _ (fun x a => by
        rcases List.mem_cons.mp a with b | b
        · exact .inr (b ▸ hf)
        · exact .inr (q2.run x b))
    split
    · exact finishJob_near f _ _ q3
    · exact q3
  | nothing =>
    simp only [wp_bind, wp_modify]
    exact wp_of_T (noticeRun_near f _ t q2 hf) (fun _ _ q => q)
  | asked =>
    simp only [wp_ite, wp_bind, wp_modify]
    split
    · exact wp_of_T (notice_near f _ (q2.status f _) hf) (fun _ _ q => q)
    · exact wp_of_T (noticeRun_near f _ t q2 hf) (fun _ _ q => q)

theorem remakeFile_near (f : Nat) (s : UState) (h : Near R R' N s) (hf : R f) :
    wp (remakeFile e f) (fun _ s' => Near R R' N s') (Near R R' N) (Near R R' N) s := by
  unfold remakeFile
  simp only [wp_bind, wp_modify, wp_get, wp_ite, wp_die]
  split
  · unfold executeCommands
    simp only [wp_bind, wp_modify, wp_get, wp_ite]
    split
    · exact wp_of_T (noticeRun_near f _ s h hf) (fun _ _ q => q)
    · exact newJob_near f s h hf
  · split
    · exact wp_of_T (notice_near f _ (h.status f _) hf) (fun _ _ q => q)
    · split
      · exact h
      · exact wp_of_T (notice_near f _ (h.status f _) hf) (fun _ _ q => q)

theorem recordChanged_near (noexist : Bool) (thisM n : Nat) (d : Option Nat) (must changed : Bool) (s : UState)
    (h : Near R R' N s) (hd : ∀ k, d = some k → N k) :
    wp (recordChanged e noexist thisM n d must changed) (fun _ s' => Near R R' N s') (Near R R' N) (Near R R' N) s := by
  induction n generalizing d must changed s with
  | zero =>
    cases d with
    | none => exact h
    | some d => exact h
  | succ n ih =>
    cases d with
    | none => exact h
    | some d =>
      rw [recordChanged]
      simp only [wp_bind, wp_readDep]
      cases hx : s.dep d with
      | none => exact h
      | some x =>
        simp only
        have nd := h.node d x (hd d rfl) hx
        refine wp_of_T (fileMtime_near x.file s h) (fun m s1 q1 => ?_)
        rw [wp_get]
        unfold writeDep
        rw [wp_modify]
        exact ih _ _ _ _ (q1.writeDep d _ (fun y _ a => by cases a; exact nd)) (fun k a => nd.2 k a)

theorem decideFile_near (n f thisM : Nat) (sc : Scan) (s : UState) (h : Near R R' N s) (hf : R f) :
    wp (decideFile e n f thisM sc) (fun _ s' => Near R R' N s') (Near R R' N) (Near R R' N) s := by
  unfold decideFile
  simp only [wp_bind, wp_modify, wp_get, wp_ite, wp_pure]
  have tail : ∀ s, Near R R' N s → wp (recordChanged e (decide (thisM = 1)) thisM n (s.file f).deps sc.must false)
      (fun r s => if mustRemake e (s.file f) (decide (thisM = 1)) r.1 r.2 = true then
          wp (remakeFile e f) (fun _ s => if (s.file f).cstate = .finished then
            Near R R' N (s.setFile f fun x => { x with updated := true }) else Near R R' N s) (Near R R' N) (Near R R' N) s
        else wp (notice e f) (fun _ s => Near R R' N s) (Near R R' N) (Near R R' N) s) (Near R R' N) (Near R R' N) s := by
    intro s h
    refine wp_mono (recordChanged_near _ _ _ _ _ _ s h (fun k a => h.deps f k (h.sub f hf) a)) (fun r s1 q1 => ?_) (fun _ q => q) (fun _ q => q)
    split
    · refine wp_mono (remakeFile_near f s1 q1 hf) (fun _ s2 q2 => ?_) (fun _ q => q) (fun _ q => q)
      split
      · exact q2.setFile f _ (fun y => ⟨rfl, rfl, rfl, fun _ => .inl⟩)
      · exact q2
    · exact wp_of_T (notice_near f s1 q1 hf) (fun _ _ q => q)
  split
  · exact wp_of_T (notice_near f _ (h.status f _) hf) (fun _ _ q => q)
  · split
    · exact tail _ (h.setCState f _)
    · exact tail _ h

theorem unlink_near (f : Nat) (last next : Option Nat) (s : UState) (h : Near R R' N s) (hn : ∀ k, next = some k → N k) :
    wp (unlink f last next) (fun _ s' => Near R R' N s') (Near R R' N) (Near R R' N) s := by
  unfold unlink
  cases last with
  | none =>
    simp only [wp_modify]
    exact h.setFile f _ (fun y => ⟨rfl, rfl, rfl, fun d a => .inr (hn d a)⟩)
  | some l =>
    simp only [wp_bind, wp_readDep]
    cases hx : s.dep l with
    | none => exact h
    | some y =>
      unfold writeDep
      simp only [wp_modify]
      exact h.writeDep l _ (fun z b a => by cases a; exact ⟨(h.node l y b hx).1, hn⟩)

theorem setUpdating_near (b : Bool) (f : Nat) (s : UState) (h : Near R R' N s) :
    Near R R' N (s.setFile (s.file f).head fun x => { x with updating := b }) :=
  h.setFile _ _ (fun y => ⟨rfl, rfl, rfl, fun _ => .inl⟩)

theorem lastResort_near (f : Nat) (s : UState) (h : Near R R' N s) : wpT (lastResort e f) (fun _ s' => Near R R' N s') s := by
  unfold lastResort wpT
  rw [wp_modify]
  refine h.setFile f _ (fun y => ?_)
  simp only
  split <;> split <;> exact ⟨rfl, rfl, rfl, fun _ => .inl⟩

theorem run_near : ∀ n,
    (∀ f s, Near R R' N s → R f → wp (updateFile e n f) (fun _ s' => Near R R' N s') (Near R R' N) (Near R R' N) s) ∧
    (∀ xs st s, Near R R' N s → (∀ x ∈ xs, R x) → wp (updateEntries e n xs st) (fun _ s' => Near R R' N s') (Near R R' N) (Near R R' N) s) ∧
    (∀ f s, Near R R' N s → R f → wp (updateFile1 e n f) (fun _ s' => Near R R' N s') (Near R R' N) (Near R R' N) s) ∧
    (∀ f m gs sc s, Near R R' N s → R f → (∀ g ∈ gs, R' g) →
      wp (scanLists e n f m gs sc) (fun r s' => Near R R' N s') (Near R R' N) (Near R R' N) s) ∧
    (∀ f m last d sc s, Near R R' N s → R f → (∀ k, d = some k → N k) →
      wp (scanDeps e n f m last d sc) (fun r s' => Near R R' N s') (Near R R' N) (Near R R' N) s) ∧
    (∀ f d sc s, Near R R' N s → (∀ k, d = some k → N k) →
      wp (updateIntermediates e n f d sc) (fun r s' => Near R R' N s') (Near R R' N) (Near R R' N) s) ∧
    (∀ f m must s, Near R R' N s → R f →
      wp (checkDep e n f m must) (fun r s' => Near R R' N s') (Near R R' N) (Near R R' N) s) ∧
    (∀ f m last d sc s, Near R R' N s → R f → (∀ k, d = some k → N k) →
      wp (checkDeps e n f m last d sc) (fun r s' => Near R R' N s') (Near R R' N) (Near R R' N) s) := by
  intro n
  induction n with
  | zero =>
    refine ⟨fun f s h hf => ?_, fun xs st s h hx => ?_, fun f s h hf => ?_, fun f m gs sc s h hf hg => ?_, fun f m last d sc s h hf hd => ?_,
      fun f d sc s h hd => ?_, fun f m must s h hf => ?_, fun f m last d sc s h hf hd => ?_⟩
    · rw [updateFile]; exact h
    · cases xs <;> (rw [updateEntries]; exact h)
    · rw [updateFile1]; exact h
    · cases gs <;> (rw [scanLists]; exact h)
    · cases d <;> (rw [scanDeps]; exact h)
    · cases d <;> (rw [updateIntermediates]; exact h)
    · rw [checkDep]; exact h
    · cases d <;> (rw [checkDeps]; exact h)
  | succ n ih =>
    obtain ⟨ihF, ihE, ih1, ihL, ihD, ihI, ihC, ihK⟩ := ih
    refine ⟨fun f s h hf => ?_, fun xs st s h hx => ?_, fun f s h hf => ?_, fun f m gs sc s h hf hg => ?_, fun f m last d sc s h hf hd => ?_,
      fun f d sc s h hd => ?_, fun f m must s h hf => ?_, fun f m last d sc s h hf hd => ?_⟩
    · rw [updateFile]
      simp only [wp_bind, wp_get, wp_ite, wp_pure]
      split
      · exact h
      · exact ihE _ _ s h (h.ch f hf)
    · cases xs with
      | nil => rw [updateEntries]; exact h
      | cons x xs =>
        rw [updateEntries]
        simp only [wp_bind, wp_get, wp_ite, wp_pure, wp_modify]
        refine wp_mono (ih1 x _ (h.setFile x _ (fun y => ⟨rfl, rfl, rfl, fun _ => .inl⟩)) (hx x (List.mem_cons_self ..))) (fun r s1 q1 => ?_)
          (fun _ q => q) (fun _ q => q)
        split
        · exact q1
        · split
          · exact q1
          · exact ihE _ _ s1 q1 (fun y a => hx y (List.mem_cons_of_mem _ a))
    · rw [updateFile1]
      simp only [wp_bind, wp_get, wp_ite, wp_pure, wp_modify]
      split
      · exact h
      · split
        · exact h
        · split
          · exact h
          · unfold setUpdating
            simp only [wp_modify]
            refine wp_of_T (fileMtime_near f _ (setUpdating_near true f s h)) (fun m s1 q1 => ?_)
            refine wp_of_T (lastResort_near f s1 q1) (fun _ s2 q2 => ?_)
            refine wp_mono (ihL f m _ _ s2 q2 hf (fun g a => ?_)) (fun sc s3 q3 => ?_) (fun _ q => q) (fun _ q => q)
            · rcases List.mem_cons.mp a with b | b
              · rw [b]; exact q2.sub f hf
              · exact q2.also f hf g b
            · have rest : ∀ (sc : Scan) s, Near R R' N s →
                  (if sc.running = true then Near R R' N (setCState (s.setFile (s.file f).head fun x => { x with updating := false }) f .depsRunning)
                    else wp (decideFile e n f m sc) (fun _ s' => Near R R' N s') (Near R R' N) (Near R R' N)
                      (s.setFile (s.file f).head fun x => { x with updating := false })) := by
                intro sc s q
                have q' := setUpdating_near false f s q
                split
                · exact q'.setCState f _
                · exact decideFile_near n f m sc _ q' hf
              split
              · exact wp_mono (ihI f _ sc s3 q3 (fun k a => q3.deps f k (q3.sub f hf) a)) (fun sc' s4 q4 => rest sc' s4 q4) (fun _ q => q) (fun _ q => q)
              · exact rest sc s3 q3
    · cases gs with
      | nil => rw [scanLists]; exact h
      | cons g gs =>
        rw [scanLists]
        simp only [wp_bind, wp_get]
        refine wp_mono (ihD f m none _ sc s h hf (fun k a => h.deps g k (hg g (List.mem_cons_self ..)) a)) (fun sc' s1 q1 => ?_) (fun _ q => q) (fun _ q => q)
        exact ihL f m gs sc' s1 q1 hf (fun x hx => hg x (List.mem_cons_of_mem _ hx))
    · cases d with
      | none => rw [scanDeps]; exact h
      | some d =>
        rw [scanDeps]
        simp only [wp_bind, wp_readDep]
        cases hx : s.dep d with
        | none => exact h
        | some x =>
          simp only
          have hn := h.node d x (hd d rfl) hx
          refine wp_of_T (fileMtime_near x.file s h) (fun mt s1 q1 => ?_)
          simp only [wp_get, wp_ite]
          split
          · simp only [wp_bind, wp_modify]
            exact wp_mono (unlink_near f last x.next _ (q1.note (.dropped f x.file) hf) hn.2)
              (fun _ s2 q2 => ihD f m last x.next sc s2 q2 hf hn.2) (fun _ q => q) (fun _ q => q)
          · simp only [wp_bind]
            refine wp_mono (ihC x.file m sc.must s1 q1 hn.1) (fun r s2 q2 => ?_) (fun _ q => q) (fun _ q => q)
            rw [wp_readDep]
            cases hx2 : s2.dep d with
            | none => exact q2
            | some y =>
              simp only [wp_get, wp_ite, wp_pure, wp_bind]
              have hn2 := q2.node d y (hd d rfl) hx2
              split
              · exact q2
              · split
                · exact ihD f m (some d) y.next _ s2 q2 hf hn2.2
                · refine wp_of_T (fileMtime_near y.file s2 q2) (fun mt' s3 q3 => ?_)
                  unfold writeDep
                  simp only [wp_modify]
                  exact ihD f m (some d) y.next _ _ (q3.writeDep d _ (fun z _ a => by cases a; exact hn2)) hf hn2.2
    · cases d with
      | none => rw [updateIntermediates]; exact h
      | some d =>
        rw [updateIntermediates]
        simp only [wp_bind, wp_readDep]
        cases hx : s.dep d with
        | none => exact h
        | some x =>
          have hn := h.node d x (hd d rfl) hx
          simp only [wp_get, wp_ite]
          split
          · simp only [wp_bind, wp_modify]
            refine wp_of_T (fileMtime_near x.file s h) (fun mt s1 q1 => ?_)
            refine wp_mono (ihF x.file _ (q1.setFile x.file _ (fun y => ⟨rfl, rfl, rfl, fun _ => .inl⟩)) hn.1) (fun r s2 q2 => ?_) (fun _ q => q) (fun _ q => q)
            rw [wp_readDep]
            cases hx2 : s2.dep d with
            | none => exact q2
            | some y =>
              simp only [wp_get, wp_ite, wp_pure, wp_bind]
              have hn2 := q2.node d y (hd d rfl) hx2
              split
              · exact q2
              · split
                · exact ihI f y.next _ s2 q2 hn2.2
                · refine wp_of_T (fileMtime_near y.file s2 q2) (fun mt' s3 q3 => ?_)
                  unfold writeDep
                  simp only [wp_modify]
                  exact ihI f y.next _ _ (q3.writeDep d _ (fun z _ a => by cases a; exact hn2)) hn2.2
          · exact ihI f x.next sc s h hn.2
    · rw [checkDep]
      unfold setUpdating
      simp only [wp_bind, wp_get, wp_ite, wp_pure, wp_modify]
      have h1 := setUpdating_near true f s h
      split
      · refine wp_mono (ihF f _ h1 hf) (fun st s1 q1 => ?_) (fun _ q => q) (fun _ q => q)
        exact wp_of_T (fileMtime_near f s1 q1) (fun mt s2 q2 => setUpdating_near false f s2 q2)
      · refine wp_of_T (lastResort_near f _ h1) (fun _ s1 q1 => ?_)
        refine wp_of_T (fileMtime_near f s1 q1) (fun mt s2 q2 => ?_)
        split
        · exact setUpdating_near false f s2 q2
        · have q3 : Near R R' N (if (s2.file f).cstate = .running then s2
              else setCState (if (s2.file f).cstate = .depsRunning then s2.setFile f fun x => { x with considered := 0 } else s2) f .notStarted) := by
            split
            · exact q2
            · split
              · exact (q2.setFile f (fun x => { x with considered := 0 }) (fun y => ⟨rfl, rfl, rfl, fun _ => .inl⟩)).setCState f _
              · exact q2.setCState f _
          refine wp_mono (ihK f m none _ _ _ q3 hf (fun k a => q3.deps f k (q3.sub f hf) a)) (fun r s4 q4 => ?_) (fun _ q => q) (fun _ q => q)
          split
          · exact setUpdating_near false f _ (q4.setCState f _)
          · exact setUpdating_near false f _ q4
    · cases d with
      | none => rw [checkDeps]; exact h
      | some d =>
        rw [checkDeps]
        simp only [wp_bind, wp_readDep]
        cases hx : s.dep d with
        | none => exact h
        | some x =>
          simp only
          have hn := h.node d x (hd d rfl) hx
          simp only [wp_get, wp_ite]
          split
          · simp only [wp_bind, wp_modify]
            refine wp_mono (unlink_near f last x.next _ (h.note (.dropped f x.file) hf) hn.2)
              (fun _ s2 q2 => ?_) (fun _ q => q) (fun _ q => q)
            unfold writeDep
            simp only [wp_modify]
            exact ihK f m last x.next sc _ (q2.writeDep d _ (fun z _ a => by cases a)) hf hn.2
          · simp only [wp_bind]
            refine wp_mono (ihC x.file m sc.must s h hn.1) (fun r s2 q2 => ?_) (fun _ q => q) (fun _ q => q)
            rw [wp_readDep]
            cases hx2 : s2.dep d with
            | none => exact q2
            | some y =>
              simp only [wp_get, wp_ite, wp_pure, wp_bind]
              have hn2 := q2.node d y (hd d rfl) hx2
              split
              · exact q2
              · exact ihK f m (some d) y.next _ s2 q2 hf hn2.2

theorem goalEntries_near (n : Nat) (xs : List Nat) (r : GoalRes) (s : UState) (h : Near R R' N s) (hx : ∀ x ∈ xs, R x) :
    wp (goalEntries e n xs r) (fun _ s' => Near R R' N s') (Near R R' N) (Near R R' N) s := by
  induction xs generalizing r s with
  | nil => exact h
  | cons x xs ih =>
    rw [goalEntries]
    simp only [wp_bind, wp_get, wp_ite, wp_pure]
    have hx' : ∀ y ∈ xs, R y := fun y a => hx y (List.mem_cons_of_mem _ a)
    refine wp_mono ((run_near n).1 x s h (hx x (List.mem_cons_self ..))) (fun st s1 q1 => ?_) (fun _ q => q) (fun _ q => q)
    split
    · refine wp_of_T (fileMtime_near x s1 q1) (fun _ s2 q2 => ?_)
      split
      · exact q2
      · exact ih _ s2 q2 hx'
    · split
      · exact q1
      · exact ih _ s1 q1 hx'

theorem goalPass_near (n : Nat) (gs : List Nat) (st : UStatus) (s : UState) (h : Near R R' N s) (hg : ∀ g ∈ gs, R g) :
    wp (goalPass e n gs st) (fun r s' => Near R R' N s' ∧ ∀ g ∈ r.2.1, R g) (Near R R' N) (Near R R' N) s := by
  induction gs generalizing st s with
  | nil => exact ⟨h, fun g a => nomatch a⟩
  | cons g gs ih =>
    rw [goalPass]
    simp only [wp_bind, wp_get, wp_ite, wp_pure]
    have hg' : ∀ y ∈ gs, R y := fun y a => hg y (List.mem_cons_of_mem _ a)
    refine wp_mono (goalEntries_near n _ _ s h (h.ch g (hg g (List.mem_cons_self ..)))) (fun r s1 q1 => ?_) (fun _ q => q) (fun _ q => q)
    split
    · exact ⟨q1, hg'⟩
    · refine wp_mono (ih r.status s1 q1 hg') (fun _ s2 q2 => ⟨q2.1, fun x hx => ?_⟩) (fun _ q => q) (fun _ q => q)
      split at hx
      · rcases List.mem_cons.mp hx with hx | hx
        · rw [hx]; exact hg g (List.mem_cons_self ..)
        · exact q2.2 x hx
      · exact q2.2 x hx

theorem goalLoop_near (n k : Nat) (gs : List Nat) (st : UStatus) (s : UState) (h : Near R R' N s) (hg : ∀ g ∈ gs, R g) :
    wp (goalLoop e n k gs st) (fun _ s' => Near R R' N s') (Near R R' N) (Near R R' N) s := by
  induction k generalizing gs st s with
  | zero => cases gs <;> (rw [goalLoop]; exact h)
  | succ k ih =>
    cases gs with
    | nil => rw [goalLoop]; exact h
    | cons g gs =>
      rw [goalLoop]
      simp only [wp_bind, wp_ite, wp_modify, wp_pure]
      refine wp_mono (reapBlock_near s h) (fun _ s1 q1 => ?_) (fun _ q => q) (fun _ q => q)
      refine wp_mono (goalPass_near n (g :: gs) st s1 q1 hg) (fun r s2 q2 => ?_) (fun _ q => q) (fun _ q => q)
      split
      · exact ih _ _ s2 q2.1 q2.2
      · exact ih _ _ _ (q2.1.cons _) q2.2

theorem updateGoals_near (n k : Nat) (gs : List Nat) (s : UState) (h : Near R R' N s) (hg : ∀ g ∈ gs, R g) :
    wp (updateGoals e n k gs) (fun _ s' => Near R R' N s') (Near R R' N) (Near R R' N) s := by
  unfold updateGoals
  rw [wp_bind, wp_modify]
  exact goalLoop_near n k gs .none _ (h.cons _) hg

end Remake
