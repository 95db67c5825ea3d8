import Verif.Update.Wp
/-!
# Updating targets: the steps that start nothing
-/
namespace Remake
set_option linter.unusedVariables false
set_option linter.unusedSimpArgs false

/-- What of a struct dep does not change while it is in a list. -/
def UDep.link (x : UDep) : Nat × Option Nat := (x.file, x.next)

/-- The part of a file that steps which start nothing leave as it is. -/
def UFile.still (x : UFile) : Nat × List Nat × List Nat × Option Nat × Bool × Nat :=
  (x.head, x.chain, x.alsoMake, x.deps, x.updating, x.considered)

/-- Going from one state to the other, nothing is started, no list is changed, what was updated
remains so, and what was running still is or is finished. -/
structure Calm (s s' : UState) : Prop where
  still : ∀ x, (s'.file x).still = (s.file x).still
  inter : ∀ x, (s'.file x).intermediate = true → (s.file x).intermediate = true
  upd : ∀ x, (s.file x).updated = true → (s'.file x).updated = true
  run : ∀ x, (s.file x).cstate = .running → (s'.file x).cstate = .running ∨ (s'.file x).updated = true
  cons : s'.considered = s.considered
  dep : ∀ n, (s'.dep n).map UDep.link = (s.dep n).map UDep.link
  log : ∃ l, s'.log = l ++ s.log ∧ ∀ ev ∈ l, ∃ x st, ev = .done x st

theorem Calm.refl (s : UState) : Calm s s :=
  ⟨fun _ => rfl, fun _ h => h, fun _ h => h, fun _ h => .inl h, rfl, fun _ => rfl, [], rfl, by simp⟩

theorem Calm.trans {s s' s'' : UState} (h : Calm s s') (h' : Calm s' s'') : Calm s s'' := by
  refine ⟨fun x => (h'.still x).trans (h.still x), fun x a => h.inter x (h'.inter x a),
    fun x a => h'.upd x (h.upd x a), fun x a => ?_, h'.cons.trans h.cons,
    fun n => (h'.dep n).trans (h.dep n), ?_⟩
  · rcases h.run x a with b | b
    · exact h'.run x b
    · exact .inr (h'.upd x b)
  · obtain ⟨l, hl, p⟩ := h.log
    obtain ⟨l', hl', p'⟩ := h'.log
    refine ⟨l' ++ l, by rw [hl', hl, List.append_assoc], fun ev hev => ?_⟩
    rcases List.mem_append.mp hev with q | q
    · exact p' ev q
    · exact p ev q

/-- Changing files only. -/
theorem Calm.ofFile {s : UState} {g : Nat → UFile}
    (still : ∀ x, (g x).still = (s.file x).still)
    (inter : ∀ x, (g x).intermediate = true → (s.file x).intermediate = true)
    (upd : ∀ x, (s.file x).updated = true → (g x).updated = true)
    (run : ∀ x, (s.file x).cstate = .running → (g x).cstate = .running ∨ (g x).updated = true) :
    Calm s { s with file := g } :=
  ⟨still, inter, upd, run, rfl, fun _ => rfl, [], rfl, by simp⟩

theorem Calm.ofSet {s : UState} {f : Nat} {g : UFile → UFile}
    (still : ∀ x, (g x).still = x.still)
    (inter : ∀ x, (g x).intermediate = true → x.intermediate = true)
    (upd : ∀ x, x.updated = true → (g x).updated = true)
    (run : ∀ x, x.cstate = .running → (g x).cstate = .running ∨ (g x).updated = true) :
    Calm s (s.setFile f g) := by
  apply Calm.ofFile <;> intro x <;> by_cases h : x = f <;> simp only [h, if_true, if_false] <;>
    first
    | apply still
    | apply inter
    | apply upd
    | apply run
    | exact fun a => a
    | exact fun a => .inl a

theorem Calm.note {s s' : UState} (h : Calm s s') (x st) : Calm s (s'.note (.done x st)) := by
  refine h.trans ⟨fun _ => rfl, fun _ h => h, fun _ h => h, fun _ h => .inl h, rfl, fun _ => rfl,
    [.done x st], rfl, ?_⟩
  intro ev hev
  simp only [List.mem_singleton] at hev
  exact ⟨x, st, hev⟩

theorem Calm.tick {s s' : UState} (h : Calm s s') (t : Nat) : Calm s { s' with tick := t } :=
  h.trans ⟨fun _ => rfl, fun _ h => h, fun _ h => h, fun _ h => .inl h, rfl, fun _ => rfl, [], rfl, by simp⟩

theorem Calm.running {s s' : UState} (h : Calm s s') (t : List Nat) : Calm s { s' with running := t } :=
  h.trans ⟨fun _ => rfl, fun _ h => h, fun _ h => h, fun _ h => .inl h, rfl, fun _ => rfl, [], rfl, by simp⟩

/-- Nothing but times changes. -/
structure Quiet (s s' : UState) : Prop where
  calm : Calm s s'
  same : ∀ x, (s'.file x).updated = (s.file x).updated ∧ (s'.file x).cstate = (s.file x).cstate ∧
    (s'.file x).ustatus = (s.file x).ustatus
  log : s'.log = s.log
  running : s'.running = s.running

theorem Quiet.refl (s : UState) : Quiet s s := ⟨Calm.refl s, fun _ => ⟨rfl, rfl, rfl⟩, rfl, rfl⟩

theorem Quiet.trans {s s' s'' : UState} (h : Quiet s s') (h' : Quiet s' s'') : Quiet s s'' :=
  ⟨h.calm.trans h'.calm, fun x => ⟨(h'.same x).1.trans (h.same x).1, (h'.same x).2.1.trans (h.same x).2.1,
    (h'.same x).2.2.trans (h.same x).2.2⟩, h'.log.trans h.log, h'.running.trans h.running⟩

theorem storeMtime_quiet (s : UState) (f m : Nat) : Quiet s (storeMtime s f m) := by
  have key : ∀ x, ((storeMtime s f m).file x).still = (s.file x).still ∧
      (((storeMtime s f m).file x).intermediate = true → (s.file x).intermediate = true) ∧
      ((storeMtime s f m).file x).updated = (s.file x).updated ∧
      ((storeMtime s f m).file x).cstate = (s.file x).cstate ∧
      ((storeMtime s f m).file x).ustatus = (s.file x).ustatus := by
    intro x
    unfold storeMtime
    simp only
    by_cases h1 : x ∈ (s.file (s.file f).head).chain
    · rw [if_pos h1]
      by_cases h2 : m ≠ 1 ∧ (s.file x).cstate = CState.notStarted ∧ ¬(s.file x).triedImplicit = true ∧ (s.file x).intermediate = true
      · rw [if_pos h2]
        split <;> exact ⟨rfl, fun h => (Bool.noConfusion h), rfl, rfl, rfl⟩
      · rw [if_neg h2]
        split <;> exact ⟨rfl, fun h => h, rfl, rfl, rfl⟩
    · rw [if_neg h1]
      exact ⟨rfl, fun h => h, rfl, rfl, rfl⟩
  refine ⟨?_, fun x => (key x).2.2, rfl, rfl⟩
  exact Calm.ofFile (fun x => (key x).1) (fun x => (key x).2.1) (fun x h => (key x).2.2.1.trans h)
    (fun x h => .inl ((key x).2.2.2.1.trans h))

theorem Quiet.tick {s s' : UState} (h : Quiet s s') (t : Nat) : Quiet s { s' with tick := t } :=
  ⟨h.calm.tick t, h.same, h.log, h.running⟩

variable {e : Env}

theorem fMtime_quiet (f : Nat) (s : UState) : wpT (fMtime e f) (fun _ s' => Quiet s s') s := by
  unfold fMtime wpT
  simp only [wp_bind, wp_get, wp_modify, wp_pure]
  exact (storeMtime_quiet s f _).tick _

theorem fileMtime_quiet (f : Nat) (s : UState) : wpT (fileMtime e f) (fun _ s' => Quiet s s') s := by
  unfold fileMtime wpT
  simp only [wp_bind, wp_get, wp_ite, wp_pure]
  split
  · exact fMtime_quiet f s
  · exact Quiet.refl s

theorem writeDep_quiet (d : Nat) (y : UDep) (s : UState) (x : UDep) (hx : s.dep d = some x)
    (hy : y.link = x.link) : wpT (writeDep d (some y)) (fun _ s' => Quiet s s') s := by
  unfold writeDep wpT
  rw [wp_modify]
  refine ⟨⟨fun _ => rfl, fun _ h => h, fun _ h => h, fun _ h => .inl h, rfl, fun n => ?_, [], rfl, by simp⟩,
    fun _ => ⟨rfl, rfl, rfl⟩, rfl, rfl⟩
  by_cases h : n = d
  · simp only [h, if_true, hx, Option.map_some, hy]
  · simp only [h, if_false]

theorem lastResort_quiet (f : Nat) (s : UState) : wpT (lastResort e f) (fun _ s' => Quiet s s') s := by
  unfold lastResort wpT
  rw [wp_modify]
  have key : ∀ x : UFile, let y := (let x := if ¬ x.phony ∧ ¬ x.cmds ∧ ¬ x.triedImplicit then { x with triedImplicit := true } else x
      if ¬ x.cmds ∧ ¬ x.isTarget ∧ e.hasDefault then { x with cmds := true } else x);
      y.still = x.still ∧ y.intermediate = x.intermediate ∧ y.updated = x.updated ∧ y.cstate = x.cstate ∧ y.ustatus = x.ustatus := by
    intro x
    simp only
    split <;> split <;> exact ⟨rfl, rfl, rfl, rfl, rfl⟩
  refine ⟨Calm.ofSet (fun x => (key x).1) (fun x h => by rw [← (key x).2.1]; exact h)
    (fun x h => by rw [(key x).2.2.1]; exact h) (fun x h => .inl (by rw [(key x).2.2.2.1]; exact h)), ?_, rfl, rfl⟩
  intro x
  by_cases h : x = f
  · simp only [UState.setFile, h, if_true]
    exact ⟨(key _).2.2.1, (key _).2.2.2.1, (key _).2.2.2.2⟩
  · simp only [UState.setFile, h, if_false, and_self]

/-- The end of the lists. -/
theorem recordChanged_quiet (noexist : Bool) (thisM n : Nat) (d : Option Nat) (must changed : Bool) (s : UState) :
    wp (recordChanged e noexist thisM n d must changed) (fun _ s' => Quiet s s') (fun s' => Quiet s s')
      (fun s' => Quiet s s') s := by
  induction n generalizing d must changed s with
  | zero =>
    cases d with
    | none => exact Quiet.refl s
    | some d => exact Quiet.refl s
  | succ n ih =>
    cases d with
    | none => exact Quiet.refl s
    | some d =>
      rw [recordChanged]
      simp only [wp_bind, wp_readDep]
      cases hx : s.dep d with
      | none => exact Quiet.refl s
      | some x =>
        simp only
        refine wp_of_T (fileMtime_quiet x.file s) (fun m s1 q1 => ?_)
        simp only [wp_get]
        have hl := q1.calm.dep d
        rw [hx] at hl
        cases hy : s1.dep d with
        | none => rw [hy] at hl; simp at hl
        | some y =>
          rw [hy] at hl
          simp only [Option.map_some, Option.some.injEq] at hl
          refine wp_of_T (writeDep_quiet d _ s1 y hy (by rw [hl]; rfl)) (fun _ s2 q2 => ?_)
          exact wp_mono (ih x.next _ _ s2) (fun _ _ q => (q1.trans q2).trans q) (fun _ q => (q1.trans q2).trans q)
            (fun _ q => (q1.trans q2).trans q)

/-! ### Finishing -/

theorem noticeAlso_calm (st : UStatus) (gs : List Nat) (s : UState) :
    wpT (noticeAlso e st gs) (fun _ s' => Calm s s' ∧ s'.running = s.running) s := by
  induction gs generalizing s with
  | nil => exact ⟨Calm.refl s, rfl⟩
  | cons g gs ih =>
    unfold wpT
    rw [noticeAlso]
    simp only [wp_bind, wp_modify, wp_get, wp_ite, wp_pure]
    have c1 : Calm s ((s.setFile g fun x => { x with cstate := .finished, updated := true, ustatus := st }).note (.done g st)) :=
      Calm.note (by refine Calm.ofSet ?_ ?_ ?_ ?_ <;> intro x <;> simp [UFile.still]) _ _
    split
    · exact wp_of_T (ih _) (fun _ s' q => ⟨c1.trans q.1, q.2⟩)
    · refine wp_of_T (fMtime_quiet g _) (fun _ s2 q2 => ?_)
      exact wp_of_T (ih s2) (fun _ s' q => ⟨(c1.trans q2.calm).trans q.1, q.2.trans q2.running⟩)

theorem notice_calm (f : Nat) (s : UState) :
    wpT (notice e f) (fun _ s' => Calm s s' ∧ s'.running = s.running ∧ (s'.file f).updated = true) s := by
  unfold notice wpT
  simp only [wp_bind, wp_modify, wp_get, wp_ite, wp_pure]
  have c1 : Calm s (s.setFile f fun x => { x with cstate := .finished, updated := true, mtime := if (s.file f).cstate = .running ∧ ¬ x.phony then mtimeAfter e x else x.mtime }) :=
    Calm.ofSet (fun _ => rfl) (fun _ h => h) (fun _ _ => rfl) (fun _ _ => .inr rfl)
  have r1 : (s.setFile f fun x => { x with cstate := .finished, updated := true, mtime := if (s.file f).cstate = .running ∧ ¬ x.phony then mtimeAfter e x else x.mtime }).running = s.running := rfl
  have u1 : ((s.setFile f fun x => { x with cstate := .finished, updated := true, mtime := if (s.file f).cstate = .running ∧ ¬ x.phony then mtimeAfter e x else x.mtime }).file f).updated = true := by
    simp [UState.setFile]
  have fin : ∀ t : UState, Calm s t → t.running = s.running → (t.file f).updated = true →
      wp (if (s.file f).cstate = CState.running ∧ (t.file f).ustatus ≠ .none then
          (do UM.modify fun s => s.note (.done f (s.file f).ustatus)
              noticeAlso e (t.file f).ustatus (t.file f).alsoMake)
        else UM.modify fun s => (s.setFile f fun x => if x.ustatus = .none then { x with ustatus := .success } else x).note
            (.done f ((s.setFile f fun x => if x.ustatus = .none then { x with ustatus := .success } else x).file f).ustatus))
        (fun _ s' => Calm s s' ∧ s'.running = s.running ∧ (s'.file f).updated = true) (fun _ => False) (fun _ => False) t := by
    intro t ct rt ut
    rw [wp_ite]
    split
    · rw [wp_bind, wp_modify]
      exact wp_of_T (noticeAlso_calm _ _ _) (fun _ s' q => ⟨(ct.note _ _).trans q.1, q.2.trans rt, q.1.upd f ut⟩)
    · rw [wp_modify]
      refine ⟨(ct.trans (Calm.ofSet ?_ ?_ ?_ ?_)).note _ _, rt, ?_⟩
      · intro x; split <;> rfl
      · intro x h; split at h <;> exact h
      · intro x h; split <;> exact h
      · intro x h; refine .inl ?_; split <;> exact h
      · simp only [UState.note, UState.setFile, if_true]
        split <;> exact ut
  simp only [wp_ite, wp_bind, wp_modify] at fin
  generalize (s.setFile f fun x => { x with cstate := .finished, updated := true, mtime := if (s.file f).cstate = .running ∧ ¬ x.phony then mtimeAfter e x else x.mtime }) = t at *
  split
  · split
    · refine fin { t with file := fun x => if x ∈ (t.file (t.file f).head).chain then
        { t.file x with mtime := maxMtime t (t.file f).mtime (t.file (t.file f).head).chain } else t.file x } (c1.trans (Calm.ofFile ?_ ?_ ?_ ?_)) r1 ?_
      · intro x; simp only; split <;> rfl
      · intro x h; simp only at h; split at h <;> exact h
      · intro x h; simp only; split <;> exact h
      · intro x h; refine .inl ?_; simp only; split <;> exact h
      · simp only; split <;> exact u1
    · exact fin t c1 r1 u1
  · exact fin t c1 r1 u1

theorem finishJob_calm (f : Nat) (j : JobEnd) (s : UState) :
    wp (finishJob e f j) (fun _ s' => Calm s s' ∧ s'.running = s.running.erase f) (fun s' => Calm s s') (fun _ => False) s := by
  unfold finishJob
  simp only [wp_bind, wp_modify, wp_get, wp_ite, wp_pure]
  split
  · rename_i hf
    have c1 : Calm s { s.setFile f fun x => { x with ustatus := endStatus e j } with running := s.running.erase f } :=
      Calm.running (s' := s.setFile f fun x => { x with ustatus := endStatus e j })
        (by refine Calm.ofSet ?_ ?_ ?_ ?_ <;> intro x <;> simp [UFile.still] <;> exact fun h => .inl h) _
    refine wp_of_T (notice_calm f _) (fun _ s2 q2 => ?_)
    split
    · exact c1.trans q2.1
    · exact ⟨c1.trans q2.1, q2.2.1⟩
  · rename_i hf
    exact ⟨Calm.refl s, (List.erase_of_not_mem hf).symm⟩

theorem finishJobs_calm (js : List (Nat × JobEnd)) (s : UState) :
    wp (finishJobs e js) (fun _ s' => Calm s s' ∧ s'.running.length ≤ s.running.length) (fun s' => Calm s s') (fun _ => False) s := by
  induction js generalizing s with
  | nil => exact ⟨Calm.refl s, Nat.le_refl _⟩
  | cons p js ih =>
    obtain ⟨f, j⟩ := p
    rw [finishJobs, wp_bind]
    refine wp_mono (finishJob_calm f j s) (fun _ s1 q1 => ?_) (fun _ q => q) (fun _ q => q)
    refine wp_mono (ih s1) (fun _ s2 q2 => ⟨q1.1.trans q2.1, ?_⟩) (fun _ q => q1.1.trans q) (fun _ q => q)
    have := (List.erase_sublist (a := f) (l := s.running)).length_le
    have := q1.2 ▸ q2.2
    omega

theorem reapSome_calm (s : UState) :
    wp (reapSome e) (fun _ s' => Calm s s' ∧ s'.running.length ≤ s.running.length) (fun s' => Calm s s') (fun _ => False) s := by
  unfold reapSome
  simp only [wp_bind, wp_modify, wp_get]
  exact wp_mono (finishJobs_calm _ _) (fun _ s' q => ⟨((Calm.refl s).tick _).trans q.1, q.2⟩)
    (fun _ q => ((Calm.refl s).tick _).trans q) (fun _ q => q)

theorem reapBlock_calm (s : UState) :
    wp (reapBlock e) (fun _ s' => Calm s s' ∧ (s'.running.length < s.running.length ∨ s'.running = []))
      (fun s' => Calm s s') (fun _ => False) s := by
  unfold reapBlock
  simp only [wp_bind, wp_get]
  refine wp_mono (reapSome_calm s) (fun _ s1 q1 => ?_) (fun _ q => q) (fun _ q => q)
  cases hr : s1.running with
  | nil => exact ⟨q1.1, .inr hr⟩
  | cons f fs =>
    simp only [wp_ite, wp_pure]
    split
    · rename_i h
      exact ⟨q1.1, .inl (by rw [hr]; exact h)⟩
    · refine wp_mono (finishJob_calm f _ s1) (fun _ s2 q2 => ⟨q1.1.trans q2.1, .inl ?_⟩) (fun _ q => q1.1.trans q) (fun _ q => q)
      have h1 := q1.2
      rw [q2.2, hr, List.erase_cons_head]
      rw [hr] at h1
      simp only [List.length_cons] at h1
      omega

end Remake
