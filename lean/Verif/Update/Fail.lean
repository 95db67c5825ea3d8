import Verif.Update.Once
/-!
# Updating targets: failures without `-k`

No assumption is made about the graph.
-/
namespace Remake
set_option linter.unusedVariables false
set_option linter.unusedSimpArgs false

variable {e : Env}

/-- Nothing has failed. -/
structure NoFail (s : UState) : Prop where
  st : ∀ x, (s.file x).ustatus ≠ .failed
  fin : ∀ x, (s.file x).cstate = .finished → (s.file x).ustatus ≠ .none
  log : ∀ x, UEvent.done x .failed ∉ s.log

/-- After the first failure nothing happens but that targets are finished. -/
def FailLast (s : UState) : Prop :=
  ∃ l1 l2, s.log = l1 ++ l2 ∧ (∀ ev ∈ l1, ∃ x st, ev = UEvent.done x st) ∧ ∀ x, UEvent.done x .failed ∉ l2

theorem NoFail.last {s} (h : NoFail s) : FailLast s := ⟨[], s.log, rfl, by simp, h.log⟩

theorem NoFail.calmLast {s s'} (h : NoFail s) (c : Calm s s') : FailLast s' := by
  obtain ⟨l, hl, hd⟩ := c.log
  exact ⟨l, s.log, hl, hd, h.log⟩

theorem NoFail.quiet {s s'} (h : NoFail s) (q : Quiet s s') : NoFail s' := by
  refine ⟨fun x => ?_, fun x => ?_, fun x => ?_⟩
  · rw [(q.same x).2.2]; exact h.st x
  · rw [(q.same x).2.2, (q.same x).2.1]; exact h.fin x
  · rw [q.log]; exact h.log x

/-- A change of the files that leaves the statuses alone and finishes nothing. -/
theorem NoFail.ofFile {s s' : UState} (h : NoFail s) (hl : s'.log = s.log)
    (hf : ∀ x, (s'.file x).ustatus = (s.file x).ustatus ∧ ((s'.file x).cstate = .finished → (s.file x).cstate = .finished)) : NoFail s' := by
  refine ⟨fun x => ?_, fun x a => ?_, fun x => ?_⟩
  · rw [(hf x).1]; exact h.st x
  · rw [(hf x).1]; exact h.fin x ((hf x).2 a)
  · rw [hl]; exact h.log x

theorem NoFail.setFile {s : UState} (h : NoFail s) (f : Nat) (g : UFile → UFile)
    (hg : ∀ x, (g x).ustatus = x.ustatus ∧ (g x).cstate = x.cstate) : NoFail (s.setFile f g) := by
  refine h.ofFile rfl (fun x => ?_)
  simp only [UState.setFile]
  split
  · exact ⟨(hg _).1, fun a => by rw [(hg _).2] at a; exact a⟩
  · exact ⟨rfl, fun a => a⟩

theorem NoFail.cstate {s : UState} (h : NoFail s) (f : Nat) {c : CState} (hc : c ≠ .finished) : NoFail (setCState s f c) := by
  obtain ⟨k, hk, hf, hp⟩ := setCState_eq s f c
  rw [hk]
  refine h.ofFile rfl (fun x => ⟨rfl, fun a => ?_⟩)
  have a : k x = .finished := a
  by_cases hx : x = f
  · rw [hx, hf] at a; exact absurd a hc
  · rcases hp x hx with b | b
    · rw [← b]; exact a
    · rw [b.2.1] at a; exact absurd a hc

theorem NoFail.note {s : UState} (h : NoFail s) (ev : UEvent) (hev : ∀ x, ev ≠ .done x .failed) : NoFail (s.note ev) := by
  refine ⟨h.st, h.fin, fun x a => ?_⟩
  rcases List.mem_cons.mp a with a | a
  · exact hev x a.symm
  · exact h.log x a

theorem noticeAlso_nf {st : UStatus} (h1 : st ≠ .failed) (h2 : st ≠ .none) (gs : List Nat) (s : UState) (h : NoFail s) :
    wpT (noticeAlso e st gs) (fun _ s' => NoFail s') s := by
  induction gs generalizing s with
  | nil => exact h
  | cons g gs ih =>
    unfold wpT
    rw [noticeAlso]
    simp only [wp_bind, wp_modify, wp_get, wp_ite, wp_pure]
    have c1 : NoFail ((s.setFile g fun x => { x with cstate := .finished, updated := true, ustatus := st }).note (.done g st)) := by
      refine NoFail.note (s := s.setFile g fun x => { x with cstate := .finished, updated := true, ustatus := st })
        ⟨fun x => ?_, fun x => ?_, h.log⟩ (.done g st) (fun x a => h1 (by injection a))
      · simp only [UState.setFile]; split
        · exact h1
        · exact h.st x
      · simp only [UState.setFile]; split
        · exact fun _ => h2
        · exact h.fin x
    split
    · exact ih _ c1
    · exact wp_of_T (fMtime_quiet g _) (fun _ s2 q2 => ih s2 (c1.quiet q2))

/-- Finishing a target that has not failed. -/
theorem notice_nf (f : Nat) (s : UState) (h1 : ∀ x, (s.file x).ustatus ≠ .failed)
    (h2 : ∀ x, x ≠ f → (s.file x).cstate = .finished → (s.file x).ustatus ≠ .none) (h3 : ∀ x, UEvent.done x .failed ∉ s.log) :
    wpT (notice e f) (fun _ s' => NoFail s') s := by
  unfold notice wpT
  simp only [wp_bind, wp_modify, wp_get, wp_ite, wp_pure]
  have fin : ∀ t : UState, (∀ x, (t.file x).ustatus ≠ .failed) → (∀ x, x ≠ f → (t.file x).cstate = .finished → (t.file x).ustatus ≠ .none) →
      (∀ x, UEvent.done x .failed ∉ t.log) →
      wp (if (s.file f).cstate = CState.running ∧ (t.file f).ustatus ≠ .none then
          (do UM.modify fun s => s.note (.done f (s.file f).ustatus)
              noticeAlso e (t.file f).ustatus (t.file f).alsoMake)
        else UM.modify fun s => (s.setFile f fun x => if x.ustatus = .none then { x with ustatus := .success } else x).note
            (.done f ((s.setFile f fun x => if x.ustatus = .none then { x with ustatus := .success } else x).file f).ustatus))
        (fun _ s' => NoFail s') (fun _ => False) (fun _ => False) t := by
    intro t a1 a2 a3
    rw [wp_ite]
    split
    · rename_i hr
      rw [wp_bind, wp_modify]
      refine noticeAlso_nf (a1 f) hr.2 _ _ (NoFail.note ⟨a1, fun x => ?_, a3⟩ _ (fun x a => ?_))
      · by_cases hx : x = f
        · rw [hx]; exact fun _ => hr.2
        · exact a2 x hx
      · have : (t.file f).ustatus = .failed := by injection a
        exact a1 f this
    · rw [wp_modify]
      have key : ∀ x, ((t.setFile f fun x => if x.ustatus = .none then { x with ustatus := .success } else x).file x).ustatus =
          (if x = f then (if (t.file x).ustatus = .none then .success else (t.file x).ustatus) else (t.file x).ustatus) ∧
          ((t.setFile f fun x => if x.ustatus = .none then { x with ustatus := .success } else x).file x).cstate = (t.file x).cstate := by
        intro x
        simp only [UState.setFile]
        split
        · split <;> exact ⟨rfl, rfl⟩
        · exact ⟨rfl, rfl⟩
      have nf : ∀ x, ((t.setFile f fun x => if x.ustatus = .none then { x with ustatus := .success } else x).file x).ustatus ≠ .failed := by
        intro x
        rw [(key x).1]
        split
        · split
          · simp
          · exact a1 x
        · exact a1 x
      refine NoFail.note ⟨nf, fun x => ?_, a3⟩ _ (fun x a => ?_)
      · rw [(key x).1, (key x).2]
        split
        · split
          · simp
          · rename_i hn; exact fun _ => hn
        · rename_i hx; exact a2 x hx
      · exact nf f (by injection a)
  simp only [wp_ite, wp_bind, wp_modify] at fin
  have k1 : ∀ x, ((s.setFile f fun x => { x with cstate := .finished, updated := true, mtime := if (s.file f).cstate = .running ∧ ¬ x.phony then mtimeAfter e x else x.mtime }).file x).ustatus = (s.file x).ustatus := by
    intro x; simp only [UState.setFile]; split <;> rfl
  have k2 : ∀ x, x ≠ f → ((s.setFile f fun x => { x with cstate := .finished, updated := true, mtime := if (s.file f).cstate = .running ∧ ¬ x.phony then mtimeAfter e x else x.mtime }).file x).cstate = (s.file x).cstate := by
    intro x hx; simp only [UState.setFile, if_neg hx]
  have k3 : (s.setFile f fun x => { x with cstate := .finished, updated := true, mtime := if (s.file f).cstate = .running ∧ ¬ x.phony then mtimeAfter e x else x.mtime }).log = s.log := rfl
  generalize (s.setFile f fun x => { x with cstate := .finished, updated := true, mtime := if (s.file f).cstate = .running ∧ ¬ x.phony then mtimeAfter e x else x.mtime }) = t at *
  have t1 : ∀ x, (t.file x).ustatus ≠ .failed := fun x => by rw [k1]; exact h1 x
  have t2 : ∀ x, x ≠ f → (t.file x).cstate = .finished → (t.file x).ustatus ≠ .none := fun x hx => by rw [k1, k2 x hx]; exact h2 x hx
  have t3 : ∀ x, UEvent.done x .failed ∉ t.log := fun x => by rw [k3]; exact h3 x
  split
  · split
    · refine fin { t with file := fun x => if x ∈ (t.file (t.file f).head).chain then
        { t.file x with mtime := maxMtime t (t.file f).mtime (t.file (t.file f).head).chain } else t.file x } (fun x => ?_) (fun x hx => ?_) t3
      · simp only; split <;> exact t1 x
      · simp only; split <;> exact t2 x hx
    · exact fin t t1 t2 t3
  · exact fin t t1 t2 t3

/-- Finishing a target right after its status was set. -/
theorem notice_set {st : UStatus} (hst : st ≠ .failed) (f : Nat) (s : UState) (h : NoFail s) (r : List Nat) :
    wpT (notice e f) (fun _ s' => NoFail s') { s.setFile f fun x => { x with ustatus := st } with running := r } := by
  refine notice_nf f _ (fun x => ?_) (fun x hx => ?_) h.log
  · simp only [UState.setFile]; split
    · exact hst
    · exact h.st x
  · simp only [UState.setFile, if_neg hx]; exact h.fin x

variable (hk : e.keepGoing = false)
include hk

theorem finishJob_nf (f : Nat) (j : JobEnd) (s : UState) (h : NoFail s) :
    wp (finishJob e f j) (fun _ s' => NoFail s') FailLast FailLast s := by
  by_cases hj : j.failed = true
  · refine wp_mono (wp_and (finishJob_calm f j s) (Q' := fun _ s' => NoFail s') (E' := fun _ => True) (F' := fun _ => True) ?_)
      (fun _ _ q => q.2) (fun _ q => h.calmLast q.1) (fun _ q => q.1.elim)
    unfold finishJob
    simp only [wp_bind, wp_modify, wp_get, wp_ite, wp_pure, hk, hj]
    split
    · exact wp_of_T (notice_calm f _) (fun _ _ _ => trivial)
    · exact h
  · have hst : endStatus e j ≠ .failed := by
      cases j <;> simp [JobEnd.failed, endStatus] at hj ⊢
      split <;> simp
    unfold finishJob
    simp only [wp_bind, wp_modify, wp_get, wp_ite, wp_pure]
    split
    · refine wp_of_T (notice_set hst f s h _) (fun _ s2 q2 => ?_)
      rw [if_neg (fun a => hj a.1)]
      exact q2
    · exact h

theorem finishJobs_nf (js : List (Nat × JobEnd)) (s : UState) (h : NoFail s) :
    wp (finishJobs e js) (fun _ s' => NoFail s') FailLast FailLast s := by
  induction js generalizing s with
  | nil => exact h
  | cons p js ih =>
    obtain ⟨f, j⟩ := p
    rw [finishJobs, wp_bind]
    exact wp_mono (finishJob_nf hk f j s h) (fun _ s1 q1 => ih s1 q1) (fun _ q => q) (fun _ q => q)

theorem reapSome_nf (s : UState) (h : NoFail s) : wp (reapSome e) (fun _ s' => NoFail s') FailLast FailLast s := by
  unfold reapSome
  simp only [wp_bind, wp_modify, wp_get]
  exact finishJobs_nf hk _ _ ⟨h.st, h.fin, h.log⟩

theorem reapBlock_nf (s : UState) (h : NoFail s) : wp (reapBlock e) (fun _ s' => NoFail s') FailLast FailLast s := by
  unfold reapBlock
  simp only [wp_bind, wp_get]
  refine wp_mono (reapSome_nf hk s h) (fun _ s1 q1 => ?_) (fun _ q => q) (fun _ q => q)
  cases hr : s1.running with
  | nil => exact q1
  | cons f fs =>
    simp only [wp_ite, wp_pure]
    split
    · exact q1
    · exact finishJob_nf hk f _ s1 q1

omit hk in
theorem notice_run {st : UStatus} (hst : st ≠ .failed) (f : Nat) (s : UState) (h : NoFail s) :
    wpT (notice e f) (fun _ s' => NoFail s') ((setCState s f .running).setFile f fun x => { x with ustatus := st }) :=
  notice_set hst f _ (h.cstate f (by simp)) _

theorem newJob_nf (f : Nat) (s : UState) (h : NoFail s) : wp (newJob e f) (fun _ s' => NoFail s') FailLast FailLast s := by
  unfold newJob
  simp only [wp_bind, wp_modify, wp_get]
  refine wp_mono (reapSome_nf hk s h) (fun _ s1 q1 => ?_) (fun _ q => q) (fun _ q => q)
  have q2 : NoFail { s1.note (.start f) with tick := s1.tick + 1 } := by
    have := q1.note (.start f) (by simp)
    exact ⟨this.st, this.fin, this.log⟩
  generalize ({ s1.note (.start f) with tick := s1.tick + 1 } : UState) = t at *
  cases e.launch s1.tick f with
  | spawned =>
    simp only [wp_bind, wp_modify, wp_ite, wp_pure]
    have q3 : NoFail { setCState t f .running with running := f :: t.running } := by
      have := q2.cstate f (c := .running) (by simp)
      exact ⟨this.st, this.fin, this.log⟩
    split
    · exact finishJob_nf hk f _ _ q3
    · exact q3
  | nothing =>
    simp only [wp_bind, wp_modify]
    exact wp_of_T (notice_run (by simp) f t q2) (fun _ _ q => q)
  | asked =>
    simp only [wp_ite, wp_bind, wp_modify]
    split
    · exact wp_of_T (notice_set (by simp) f t q2 _) (fun _ _ q => q)
    · exact wp_of_T (notice_run (by simp) f t q2) (fun _ _ q => q)

theorem executeCommands_nf (f : Nat) (s : UState) (h : NoFail s) :
    wp (executeCommands e f) (fun _ s' => NoFail s') FailLast FailLast s := by
  unfold executeCommands
  simp only [wp_bind, wp_modify, wp_get, wp_ite]
  split
  · exact wp_of_T (notice_run (by simp) f s h) (fun _ _ q => q)
  · exact newJob_nf hk f s h

theorem remakeFile_nf (f : Nat) (s : UState) (h : NoFail s) :
    wp (remakeFile e f) (fun _ s' => NoFail s') FailLast FailLast s := by
  unfold remakeFile
  simp only [wp_bind, wp_modify, wp_get, wp_ite, wp_die, hk]
  split
  · exact executeCommands_nf hk f s h
  · split
    · exact wp_of_T (notice_set (by simp) f s h _) (fun _ _ q => q)
    · rw [if_pos (by simp)]; exact h.last

/-- A status that is not a failure. -/
def Fair (st : UStatus) : Prop := st ≠ .none ∧ st ≠ .failed

omit hk in
theorem Fair.max {a b} (ha : Fair a) (hb : Fair b) : Fair (UStatus.max a b) := by
  unfold UStatus.max; split
  · exact hb
  · exact ha

omit hk in
theorem recordChanged_nf (noexist : Bool) (thisM n : Nat) (d : Option Nat) (must changed : Bool) (s : UState) (h : NoFail s) :
    wp (recordChanged e noexist thisM n d must changed) (fun _ s' => NoFail s') FailLast FailLast s :=
  wp_mono (recordChanged_quiet noexist thisM n d must changed s) (fun _ _ q => h.quiet q) (fun _ q => (h.quiet q).last)
    (fun _ q => (h.quiet q).last)

theorem decideFile_nf (n f thisM : Nat) (sc : Scan) (s : UState) (h : NoFail s) (hs : Fair sc.status) :
    wp (decideFile e n f thisM sc) (fun r s' => NoFail s' ∧ Fair r) FailLast FailLast s := by
  unfold decideFile
  simp only [wp_bind, wp_modify, wp_get, wp_ite, wp_pure, if_neg hs.1]
  have tail : ∀ s, NoFail s → wp (recordChanged e (decide (thisM = 1)) thisM n (s.file f).deps sc.must false)
      (fun r s => if mustRemake e (s.file f) (decide (thisM = 1)) r.1 r.2 = true then
          wp (remakeFile e f) (fun _ s => if (s.file f).cstate = .finished then
            NoFail (s.setFile f fun x => { x with updated := true }) ∧ Fair (s.file f).ustatus else NoFail s ∧ Fair .success) FailLast FailLast s
        else wp (notice e f) (fun _ s => NoFail s ∧ Fair .success) FailLast FailLast s) FailLast FailLast s := by
    intro s h
    refine wp_mono (recordChanged_nf _ _ _ _ _ _ s h) (fun r s1 q1 => ?_) (fun _ q => q) (fun _ q => q)
    split
    · refine wp_mono (remakeFile_nf hk f s1 q1) (fun _ s2 q2 => ?_) (fun _ q => q) (fun _ q => q)
      split
      · rename_i hf
        exact ⟨q2.setFile f _ (fun _ => ⟨rfl, rfl⟩), q2.fin f hf, q2.st f⟩
      · exact ⟨q2, by simp [Fair]⟩
    · exact wp_of_T (notice_nf f s1 q1.st (fun x _ => q1.fin x) q1.log) (fun _ _ q => ⟨q, by simp [Fair]⟩)
  split
  · exact wp_of_T (notice_set hs.2 f s h _) (fun _ _ q => ⟨q, hs⟩)
  · split
    · exact tail _ (h.cstate f (by simp))
    · exact tail _ h

omit hk in
theorem unlink_nf (f : Nat) (last next : Option Nat) (s : UState) (h : NoFail s) :
    wp (unlink f last next) (fun _ s' => NoFail s') FailLast FailLast s := by
  unfold unlink
  cases last with
  | none => simp only [wp_modify]; exact h.setFile f _ (fun _ => ⟨rfl, rfl⟩)
  | some l =>
    simp only [wp_bind, wp_readDep]
    cases s.dep l with
    | none => exact h.last
    | some y => exact ⟨h.st, h.fin, h.log⟩

theorem run_nf : ∀ n,
    (∀ f s, NoFail s → wp (updateFile e n f) (fun r s' => NoFail s' ∧ Fair r) FailLast FailLast s) ∧
    (∀ xs st s, NoFail s → Fair st → wp (updateEntries e n xs st) (fun r s' => NoFail s' ∧ Fair r) FailLast FailLast s) ∧
    (∀ f s, NoFail s → wp (updateFile1 e n f) (fun r s' => NoFail s' ∧ Fair r) FailLast FailLast s) ∧
    (∀ f m gs sc s, NoFail s → Fair sc.status → wp (scanLists e n f m gs sc) (fun r s' => NoFail s' ∧ Fair r.status) FailLast FailLast s) ∧
    (∀ f m last d sc s, NoFail s → Fair sc.status → wp (scanDeps e n f m last d sc) (fun r s' => NoFail s' ∧ Fair r.status) FailLast FailLast s) ∧
    (∀ f d sc s, NoFail s → Fair sc.status → wp (updateIntermediates e n f d sc) (fun r s' => NoFail s' ∧ Fair r.status) FailLast FailLast s) ∧
    (∀ f m must s, NoFail s → wp (checkDep e n f m must) (fun r s' => NoFail s' ∧ Fair r.1) FailLast FailLast s) ∧
    (∀ f m last d sc s, NoFail s → Fair sc.status → wp (checkDeps e n f m last d sc) (fun r s' => NoFail s' ∧ Fair r.status) FailLast FailLast s) := by
  have fs : Fair .success := by simp [Fair]
  intro n
  induction n with
  | zero =>
    refine ⟨fun f s h => ?_, fun xs st s h hs => ?_, fun f s h => ?_, fun f m gs sc s h hs => ?_, fun f m last d sc s h hs => ?_,
      fun f d sc s h hs => ?_, fun f m must s h => ?_, fun f m last d sc s h hs => ?_⟩
    · rw [updateFile]; exact h.last
    · cases xs with
      | nil => rw [updateEntries]; exact ⟨h, hs⟩
      | cons x xs => rw [updateEntries]; exact h.last
    · rw [updateFile1]; exact h.last
    · cases gs with
      | nil => rw [scanLists]; exact ⟨h, hs⟩
      | cons x xs => rw [scanLists]; exact h.last
    · cases d with
      | none => rw [scanDeps]; exact ⟨h, hs⟩
      | some d => rw [scanDeps]; exact h.last
    · cases d with
      | none => rw [updateIntermediates]; exact ⟨h, hs⟩
      | some d => rw [updateIntermediates]; exact h.last
    · rw [checkDep]; exact h.last
    · cases d with
      | none => rw [checkDeps]; exact ⟨h, hs⟩
      | some d => rw [checkDeps]; exact h.last
  | succ n ih =>
    obtain ⟨i1, i2, i3, i4, i5, i6, i7, i8⟩ := ih
    refine ⟨fun f s h => ?_, fun xs st s h hs => ?_, fun f s h => ?_, fun f m gs sc s h hs => ?_, fun f m last d sc s h hs => ?_,
      fun f d sc s h hs => ?_, fun f m must s h => ?_, fun f m last d sc s h hs => ?_⟩
    · rw [updateFile]
      simp only [wp_bind, wp_get, wp_ite, wp_pure]
      split
      · refine ⟨h, ?_⟩
        split
        · rename_i hf; exact ⟨h.fin _ hf, h.st _⟩
        · exact fs
      · exact i2 _ _ s h fs
    · cases xs with
      | nil => rw [updateEntries]; exact ⟨h, hs⟩
      | cons x xs =>
        rw [updateEntries]
        simp only [wp_bind, wp_get, wp_modify, wp_ite, wp_pure]
        refine wp_mono (i3 x _ (h.setFile x _ (fun _ => ⟨rfl, rfl⟩))) (fun new s1 q1 => ?_) (fun _ q => q) (fun _ q => q)
        split
        · exact q1
        · split
          · exact ⟨q1.1, fs⟩
          · exact i2 xs _ s1 q1.1 (hs.max q1.2)
    · rw [updateFile1]
      simp only [wp_bind, wp_get, wp_modify, wp_ite, wp_pure]
      split
      · refine ⟨h, ?_⟩
        split
        · rename_i hr
          refine ⟨fun a => ?_, h.st f⟩
          rw [a] at hr; exact absurd hr (Nat.lt_irrefl _)
        · exact fs
      · split
        · exact ⟨h, fs⟩
        · split
          · rename_i hf; exact ⟨h, h.fin f hf, h.st f⟩
          · have hu : ∀ b s, NoFail s → wp (setUpdating b f) (fun _ s' => NoFail s') FailLast FailLast s := by
              intro b s h
              unfold setUpdating
              rw [wp_modify]
              exact h.setFile _ _ (fun _ => ⟨rfl, rfl⟩)
            refine wp_mono (hu true s h) (fun _ s1 q1 => ?_) (fun _ q => q) (fun _ q => q)
            refine wp_of_T (fileMtime_quiet f s1) (fun thisM s2 q2 => ?_)
            refine wp_of_T (lastResort_quiet f s2) (fun _ s3 q3 => ?_)
            refine wp_mono (i4 f thisM _ _ s3 ((q1.quiet q2).quiet q3) fs) (fun sc s4 q4 => ?_) (fun _ q => q) (fun _ q => q)
            have rest : ∀ sc s, NoFail s → Fair sc.status → wp (setUpdating false f)
                (fun _ s => if sc.running = true then NoFail (setCState s f .depsRunning) ∧ Fair .success
                  else wp (decideFile e n f thisM sc) (fun r s' => NoFail s' ∧ Fair r) FailLast FailLast s) FailLast FailLast s := by
              intro sc s h hs
              refine wp_mono (hu false s h) (fun _ s1 q1 => ?_) (fun _ q => q) (fun _ q => q)
              split
              · exact ⟨q1.cstate f (by simp), fs⟩
              · exact decideFile_nf hk n f thisM sc s1 q1 hs
            split
            · exact wp_mono (i6 f _ sc s4 q4.1 q4.2) (fun sc s5 q5 => rest sc s5 q5.1 q5.2) (fun _ q => q) (fun _ q => q)
            · exact rest sc s4 q4.1 q4.2
    · cases gs with
      | nil => rw [scanLists]; exact ⟨h, hs⟩
      | cons g gs =>
        rw [scanLists]
        simp only [wp_bind, wp_get]
        exact wp_mono (i5 f m none _ sc s h hs) (fun sc s1 q1 => i4 f m gs sc s1 q1.1 q1.2) (fun _ q => q) (fun _ q => q)
    · cases d with
      | none => rw [scanDeps]; exact ⟨h, hs⟩
      | some d =>
        rw [scanDeps]
        simp only [wp_bind, wp_readDep]
        cases hx : s.dep d with
        | none => exact h.last
        | some x =>
          refine wp_of_T (fileMtime_quiet x.file s) (fun mtime s1 q1 => ?_)
          have h1 := h.quiet q1
          simp only [wp_get, wp_ite, wp_bind, wp_modify, wp_pure, wp_readDep]
          split
          · refine wp_mono (unlink_nf f last x.next _ (h1.note _ (by simp))) (fun _ s2 q2 => ?_) (fun _ q => q) (fun _ q => q)
            exact i5 f m last x.next sc s2 q2 hs
          · refine wp_mono (i7 x.file m sc.must s1 h1) (fun r s2 q2 => ?_) (fun _ q => q) (fun _ q => q)
            cases hx2 : s2.dep d with
            | none => exact q2.1.last
            | some x2 =>
              simp only
              have hs2 := hs.max q2.2
              split
              · exact ⟨q2.1, hs2⟩
              · split
                · exact i5 f m (some d) x2.next _ s2 q2.1 hs2
                · refine wp_of_T (fileMtime_quiet x2.file s2) (fun m' s3 q3 => ?_)
                  have h3 := q2.1.quiet q3
                  unfold writeDep
                  rw [wp_modify]
                  exact i5 f m (some d) x2.next _ _ ⟨h3.st, h3.fin, h3.log⟩ hs2
    · cases d with
      | none => rw [updateIntermediates]; exact ⟨h, hs⟩
      | some d =>
        rw [updateIntermediates]
        simp only [wp_bind, wp_readDep]
        cases hx : s.dep d with
        | none => exact h.last
        | some x =>
          simp only [wp_get, wp_ite, wp_bind, wp_modify, wp_pure, wp_readDep]
          split
          · refine wp_of_T (fileMtime_quiet x.file s) (fun mtime s1 q1 => ?_)
            have h1 := (h.quiet q1).setFile x.file (fun y => { y with considered := 0 }) (fun _ => ⟨rfl, rfl⟩)
            refine wp_mono (i1 x.file _ h1) (fun r s2 q2 => ?_) (fun _ q => q) (fun _ q => q)
            cases hx2 : s2.dep d with
            | none => exact q2.1.last
            | some x2 =>
              simp only
              have hs2 := hs.max q2.2
              split
              · exact ⟨q2.1, hs2⟩
              · split
                · exact i6 f x2.next _ s2 q2.1 hs2
                · refine wp_of_T (fileMtime_quiet x2.file s2) (fun m' s3 q3 => ?_)
                  have h3 := q2.1.quiet q3
                  unfold writeDep
                  rw [wp_modify]
                  exact i6 f x2.next _ _ ⟨h3.st, h3.fin, h3.log⟩ hs2
          · exact i6 f x.next sc s h hs
    · rw [checkDep]
      simp only [wp_get, wp_ite, wp_bind, wp_modify, wp_pure]
      have hu : ∀ b s, NoFail s → wp (setUpdating b f) (fun _ s' => NoFail s') FailLast FailLast s := by
        intro b s h
        unfold setUpdating
        rw [wp_modify]
        exact h.setFile _ _ (fun _ => ⟨rfl, rfl⟩)
      have fini : ∀ (r : UStatus × Bool) s, NoFail s → Fair r.1 → wp (setUpdating false f) (fun _ s' => NoFail s' ∧ Fair r.1) FailLast FailLast s := by
        intro r s h hr
        exact wp_mono (hu false s h) (fun _ _ q => ⟨q, hr⟩) (fun _ q => q) (fun _ q => q)
      refine wp_mono (hu true s h) (fun _ s1 q1 => ?_) (fun _ q => q) (fun _ q => q)
      split
      · refine wp_mono (i1 f s1 q1) (fun st s2 q2 => ?_) (fun _ q => q) (fun _ q => q)
        refine wp_of_T (fileMtime_quiet f s2) (fun m' s3 q3 => ?_)
        exact fini (st, true) s3 (q2.1.quiet q3) q2.2
      · refine wp_of_T (lastResort_quiet f s1) (fun _ s2 q2 => ?_)
        refine wp_of_T (fileMtime_quiet f s2) (fun m' s3 q3 => ?_)
        have h3 := (q1.quiet q2).quiet q3
        split
        · exact fini (.success, true) s3 h3 fs
        · have h4 : NoFail (if (s3.file f).cstate = .running then s3 else
              setCState (if (s3.file f).cstate = .depsRunning then s3.setFile f fun x => { x with considered := 0 } else s3) f .notStarted) := by
            split
            · exact h3
            · refine NoFail.cstate ?_ f (by simp)
              split
              · exact h3.setFile f _ (fun _ => ⟨rfl, rfl⟩)
              · exact h3
          generalize (if (s3.file f).cstate = .running then s3 else
              setCState (if (s3.file f).cstate = .depsRunning then s3.setFile f fun x => { x with considered := 0 } else s3) f .notStarted) = s4 at *
          refine wp_mono (i8 f m none _ { must := must } s4 h4 fs) (fun r s5 q5 => ?_) (fun _ q => q) (fun _ q => q)
          split
          · exact fini (r.status, true) _ (q5.1.cstate f (by simp)) q5.2
          · exact fini (r.status, true) _ q5.1 q5.2
    · cases d with
      | none => rw [checkDeps]; exact ⟨h, hs⟩
      | some d =>
        rw [checkDeps]
        simp only [wp_bind, wp_readDep]
        cases hx : s.dep d with
        | none => exact h.last
        | some x =>
          simp only [wp_get, wp_ite, wp_bind, wp_modify, wp_pure, wp_readDep]
          split
          · refine wp_mono (unlink_nf f last x.next _ (h.note _ (by simp))) (fun _ s2 q2 => ?_) (fun _ q => q) (fun _ q => q)
            unfold writeDep
            rw [wp_modify]
            exact i8 f m last x.next sc _ ⟨q2.st, q2.fin, q2.log⟩ hs
          · refine wp_mono (i7 x.file m sc.must s h) (fun r s2 q2 => ?_) (fun _ q => q) (fun _ q => q)
            cases hx2 : s2.dep d with
            | none => exact q2.1.last
            | some x2 =>
              simp only
              have hs2 := hs.max q2.2
              split
              · exact ⟨q2.1, hs2⟩
              · exact i8 f m (some d) x2.next _ s2 q2.1 hs2

theorem goalEntries_nf (n : Nat) (xs : List Nat) (r : GoalRes) (s : UState) (h : NoFail s) :
    wp (goalEntries e n xs r) (fun _ s' => NoFail s') FailLast FailLast s := by
  induction xs generalizing r s with
  | nil => exact h
  | cons x xs ih =>
    rw [goalEntries]
    simp only [wp_bind, wp_get, wp_ite, wp_pure]
    refine wp_mono ((run_nf hk n).1 x s h) (fun st s1 q1 => ?_) (fun _ q => q) (fun _ q => q)
    split
    · refine wp_of_T (fileMtime_quiet x s1) (fun _ s2 q2 => ?_)
      split
      · exact q1.1.quiet q2
      · exact ih _ s2 (q1.1.quiet q2)
    · split
      · exact q1.1
      · exact ih _ s1 q1.1

theorem goalPass_nf (n : Nat) (gs : List Nat) (st : UStatus) (s : UState) (h : NoFail s) :
    wp (goalPass e n gs st) (fun _ s' => NoFail s') FailLast FailLast s := by
  induction gs generalizing st s with
  | nil => exact h
  | cons g gs ih =>
    rw [goalPass]
    simp only [wp_bind, wp_get, wp_ite, wp_pure]
    refine wp_mono (goalEntries_nf hk n _ _ s h) (fun r s1 q1 => ?_) (fun _ q => q) (fun _ q => q)
    split
    · exact q1
    · exact wp_mono (ih r.status s1 q1) (fun _ s2 q2 => q2) (fun _ q => q) (fun _ q => q)

theorem goalLoop_nf (n k : Nat) (gs : List Nat) (st : UStatus) (s : UState) (h : NoFail s) :
    wp (goalLoop e n k gs st) (fun _ s' => NoFail s') FailLast FailLast s := by
  induction k generalizing gs st s with
  | zero =>
    cases gs with
    | nil => rw [goalLoop]; exact h
    | cons g gs => rw [goalLoop]; exact h.last
  | succ k ih =>
    cases gs with
    | nil => rw [goalLoop]; exact h
    | cons g gs =>
      rw [goalLoop]
      simp only [wp_bind, wp_ite, wp_modify, wp_pure]
      refine wp_mono (reapBlock_nf hk s h) (fun _ s1 q1 => ?_) (fun _ q => q) (fun _ q => q)
      refine wp_mono (goalPass_nf hk n (g :: gs) st s1 q1) (fun r s2 q2 => ?_) (fun _ q => q) (fun _ q => q)
      split
      · exact ih _ _ s2 q2
      · exact ih _ _ _ ⟨q2.st, q2.fin, q2.log⟩

theorem updateGoals_nf (n k : Nat) (gs : List Nat) (s : UState) (h : NoFail s) :
    wp (updateGoals e n k gs) (fun _ s' => NoFail s') FailLast FailLast s := by
  unfold updateGoals
  rw [wp_bind, wp_modify]
  exact goalLoop_nf hk n k gs .none _ ⟨h.st, h.fin, h.log⟩

end Remake
