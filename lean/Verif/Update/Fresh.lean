import Verif.Update.Calm
import Verif.Update.Spec
import Verif.Update.StartLemmas
/-!
# Updating targets: what is up to date is left alone

In graphs without double-colon rules, grouped targets and intermediate files.  `St` is the set of the
files that may be remade.
-/
namespace Remake
set_option linter.unusedVariables false
set_option linter.unusedSimpArgs false

variable {e : Env} {St : Nat → Prop} {t0 : Nat → Nat} {L : Lay}

/-- What does not change about the struct deps: the target, the prerequisite, the mark of order-only
ones. -/
structure Lay where
  own : Nat → Nat
  to : Nat → Nat
  order : Nat → Bool

/-- The world as far as it concerns the files that are not to be remade: they exist, their times do
not change, and none of them is to be made anyway. -/
structure Fixed (e : Env) (St : Nat → Prop) (t0 : Nat → Nat) (L : Lay) : Prop where
  stat : ∀ i l x, ¬ St x → max 1 (e.stat i l x) = t0 x
  exist : ∀ x, ¬ St x → t0 x ≠ 1
  always : ∀ x, ¬ St x → e.alwaysMake = false
  edge : ∀ n, L.order n = false → ¬ St (L.own n) → ¬ St (L.to n) ∧ t0 (L.to n) ≤ t0 (L.own n)

structure Fresh (St : Nat → Prop) (t0 : Nat → Nat) (L : Lay) (s : UState) : Prop where
  run : ∀ x, x ∈ s.running → St x
  cst : ∀ x, (s.file x).cstate = .running → St x
  log : ∀ x, UEvent.start x ∈ s.log → St x
  mt : ∀ x, ¬ St x → (s.file x).mtime = 0 ∨ (s.file x).mtime = t0 x
  plain : ∀ x, (s.file x).head = x ∧ (s.file x).chain = [x] ∧ (s.file x).alsoMake = [] ∧ (s.file x).intermediate = false ∧
    (s.file x).dcolon = false
  ow : ∀ x d, (s.file x).deps = some d → L.own d = x
  nx : ∀ n x, s.dep n = some x → (∀ d, x.next = some d → L.own d = L.own n) ∧ x.file = L.to n ∧ x.ignoreMtime = L.order n

/-- The parts of a file that changes must respect. -/
def KeepsFile (St : Nat → Prop) (t0 : Nat → Nat) (L : Lay) (x : Nat) (y y' : UFile) : Prop :=
  (y'.cstate = .running → St x ∨ y.cstate = .running) ∧
  (¬ St x → y'.mtime = 0 ∨ y'.mtime = t0 x ∨ y'.mtime = y.mtime) ∧
  y'.head = y.head ∧ y'.chain = y.chain ∧ y'.alsoMake = y.alsoMake ∧ (y'.intermediate = true → y.intermediate = true) ∧
  y'.dcolon = y.dcolon ∧ (∀ d, y'.deps = some d → L.own d = x ∨ y.deps = some d)

theorem KeepsFile.refl (x : Nat) (y : UFile) : KeepsFile St t0 L x y y :=
  ⟨.inr, fun _ => .inr (.inr rfl), rfl, rfl, rfl, id, rfl, fun _ h => .inr h⟩

theorem Fresh.files {s : UState} (h : Fresh St t0 L s) (F : Nat → UFile) (hF : ∀ x, KeepsFile St t0 L x (s.file x) (F x)) :
    Fresh St t0 L { s with file := F } := by
  refine ⟨h.run, fun x a => ?_, h.log, fun x a => ?_, fun x => ?_, fun x d a => ?_, h.nx⟩
  · rcases (hF x).1 a with b | b
    · exact b
    · exact h.cst x b
  · rcases (hF x).2.1 a with b | b | b
    · exact .inl b
    · exact .inr b
    · show (F x).mtime = 0 ∨ (F x).mtime = t0 x
      rw [b]; exact h.mt x a
  · obtain ⟨_, _, a3, a4, a5, a6, a7, _⟩ := hF x
    obtain ⟨b1, b2, b3, b4, b5⟩ := h.plain x
    refine ⟨a3.trans b1, a4.trans b2, a5.trans b3, ?_, a7.trans b5⟩
    show (F x).intermediate = false
    cases hi : (F x).intermediate with
    | false => rfl
    | true => rw [a6 hi] at b4; cases b4
  · rcases (hF x).2.2.2.2.2.2.2 d a with b | b
    · exact b
    · exact h.ow x d b

theorem Fresh.setFile {s : UState} (h : Fresh St t0 L s) (f : Nat) (g : UFile → UFile)
    (hg : ∀ y, KeepsFile St t0 L f y (g y)) : Fresh St t0 L (s.setFile f g) := by
  refine h.files _ (fun x => ?_)
  split
  · rename_i hx; rw [hx]; exact hg _
  · exact KeepsFile.refl x _

/-- Changes that are of no concern. -/
theorem keeps_easy (x : Nat) (y y' : UFile) (h1 : y'.cstate = y.cstate ∨ y'.cstate ≠ .running ∨ St x) (h2 : y'.mtime = y.mtime)
    (h3 : y'.head = y.head) (h4 : y'.chain = y.chain) (h5 : y'.alsoMake = y.alsoMake) (h6 : y'.intermediate = y.intermediate)
    (h7 : y'.dcolon = y.dcolon) (h8 : y'.deps = y.deps) : KeepsFile St t0 L x y y' := by
  refine ⟨fun a => ?_, fun _ => .inr (.inr h2), h3, h4, h5, fun a => h6 ▸ a, h7, fun d a => .inr (h8 ▸ a)⟩
  rcases h1 with b | b | b
  · exact .inr (b ▸ a)
  · exact absurd a b
  · exact .inl b

theorem Fresh.note {s : UState} (h : Fresh St t0 L s) (ev : UEvent) (hev : ∀ x, ev = .start x → St x) : Fresh St t0 L (s.note ev) := by
  refine ⟨h.run, h.cst, fun x a => ?_, h.mt, h.plain, h.ow, h.nx⟩
  rcases List.mem_cons.mp a with a | a
  · exact hev x a.symm
  · exact h.log x a

theorem Fresh.tick {s : UState} (h : Fresh St t0 L s) (i : Nat) : Fresh St t0 L { s with tick := i } :=
  ⟨h.run, h.cst, h.log, h.mt, h.plain, h.ow, h.nx⟩

theorem Fresh.cons {s : UState} (h : Fresh St t0 L s) (i : Nat) : Fresh St t0 L { s with considered := i } :=
  ⟨h.run, h.cst, h.log, h.mt, h.plain, h.ow, h.nx⟩

theorem Fresh.running {s : UState} (h : Fresh St t0 L s) (r : List Nat) (hr : ∀ x ∈ r, x ∈ s.running ∨ St x) :
    Fresh St t0 L { s with running := r } :=
  ⟨fun x a => (hr x a).elim (h.run x) id, h.cst, h.log, h.mt, h.plain, h.ow, h.nx⟩

theorem Fresh.writeDep {s : UState} (h : Fresh St t0 L s) (d : Nat) (y : UDep)
    (hy : (∀ k, y.next = some k → L.own k = L.own d) ∧ y.file = L.to d ∧ y.ignoreMtime = L.order d) :
    Fresh St t0 L { s with dep := fun z => if z = d then some y else s.dep z } := by
  refine ⟨h.run, h.cst, h.log, h.mt, h.plain, h.ow, fun n x a => ?_⟩
  simp only at a
  split at a
  · rename_i hn
    cases a
    rw [hn]; exact hy
  · exact h.nx n x a

theorem Fresh.setCState {s : UState} (h : Fresh St t0 L s) (f : Nat) (c : CState) (hc : c = .running → St f) :
    Fresh St t0 L (setCState s f c) := by
  unfold Remake.setCState
  simp only
  have : ((s.setFile f fun x => { x with cstate := c }).file f).alsoMake = [] := by
    simp only [UState.setFile, if_true]
    exact (h.plain f).2.2.1
  rw [this]
  simp only [List.foldl_nil]
  exact h.setFile f _ (fun y => keeps_easy f y _ (by
    by_cases hr : c = .running
    · exact .inr (.inr (hc hr))
    · exact .inr (.inl hr)) rfl rfl rfl rfl rfl rfl rfl)

variable (hw : Fixed e St t0 L)
include hw

theorem fMtime_fresh (f : Nat) (s : UState) (h : Fresh St t0 L s) :
    wpT (fMtime e f) (fun m s' => Fresh St t0 L s' ∧ (¬ St f → m = t0 f)) s := by
  unfold fMtime wpT
  simp only [wp_bind, wp_get, wp_modify, wp_pure]
  refine ⟨(h.files _ (fun x => ?_)).tick _, fun a => hw.stat _ _ f a⟩
  have hp := h.plain f
  simp only [hp.1, hp.2.1]
  split
  · rename_i hx
    simp only [List.mem_singleton] at hx
    subst hx
    refine ⟨fun a => ?_, fun a => ?_, ?_, ?_, ?_, ?_, ?_, ?_⟩
    · split at a <;> split at a <;> first | exact .inr a
    · rw [hw.stat _ _ x a]
      split <;> split <;> simp
    · split <;> split <;> rfl
    · split <;> split <;> rfl
    · split <;> split <;> rfl
    · split <;> split <;> simp
    · split <;> split <;> rfl
    · split <;> split <;> exact fun _ a => .inr a
  · exact KeepsFile.refl x _

theorem fileMtime_fresh (f : Nat) (s : UState) (h : Fresh St t0 L s) :
    wpT (fileMtime e f) (fun m s' => Fresh St t0 L s' ∧ (¬ St f → m = t0 f)) s := by
  unfold fileMtime wpT
  simp only [wp_bind, wp_get, wp_ite, wp_pure]
  split
  · exact fMtime_fresh hw f s h
  · rename_i hn
    refine ⟨h, fun a => ?_⟩
    rcases h.mt f a with b | b
    · exact absurd b hn
    · exact b

omit hw in
theorem notice_fresh (f : Nat) (s : UState) (h : Fresh St t0 L s) :
    wpT (notice e f) (fun _ s' => Fresh St t0 L s') s := by
  unfold notice wpT
  simp only [wp_bind, wp_modify, wp_get, wp_ite, wp_pure]
  have k : Fresh St t0 L (s.setFile f fun x => { x with cstate := .finished, updated := true, mtime := if (s.file f).cstate = .running ∧ ¬ x.phony then mtimeAfter e x else x.mtime }) := by
    refine h.setFile f _ (fun y => ⟨fun a => by simp at a, fun a => .inr (.inr ?_), rfl, rfl, rfl, id, rfl, fun _ b => .inr b⟩)
    simp only
    rw [if_neg (fun b => a (h.cst f b.1))]
  generalize (s.setFile f fun x => { x with cstate := .finished, updated := true, mtime := if (s.file f).cstate = .running ∧ ¬ x.phony then mtimeAfter e x else x.mtime }) = t at *
  simp only [(k.plain f).2.2.2.2, (k.plain f).2.2.1]
  simp only [Bool.false_eq_true, if_false]
  split
  · exact Fresh.note k _ (by simp)
  · refine Fresh.note (k.setFile f _ (fun y => ?_)) _ (by simp)
    split
    · exact keeps_easy f y _ (.inl rfl) rfl rfl rfl rfl rfl rfl rfl
    · exact KeepsFile.refl f y

omit hw in
theorem status_fresh (f : Nat) (st : UStatus) (s : UState) (h : Fresh St t0 L s) :
    Fresh St t0 L (s.setFile f fun x => { x with ustatus := st }) :=
  h.setFile f _ (fun y => keeps_easy f y _ (.inl rfl) rfl rfl rfl rfl rfl rfl rfl)

omit hw in
theorem finishJob_fresh (f : Nat) (j : JobEnd) (s : UState) (h : Fresh St t0 L s) :
    wp (finishJob e f j) (fun _ s' => Fresh St t0 L s') (Fresh St t0 L) (Fresh St t0 L) s := by
  unfold finishJob
  simp only [wp_bind, wp_modify, wp_get, wp_ite, wp_pure, wp_die]
  split
  · refine wp_of_T (notice_fresh f _ (Fresh.running (status_fresh f _ s h) _ (fun x a => .inl (List.mem_of_mem_erase a)))) (fun _ s2 q => ?_)
    split <;> exact q
  · exact h

omit hw in
theorem finishJobs_fresh (js : List (Nat × JobEnd)) (s : UState) (h : Fresh St t0 L s) :
    wp (finishJobs e js) (fun _ s' => Fresh St t0 L s') (Fresh St t0 L) (Fresh St t0 L) s := by
  induction js generalizing s with
  | nil => exact h
  | cons p js ih =>
    obtain ⟨f, j⟩ := p
    rw [finishJobs, wp_bind]
    exact wp_mono (finishJob_fresh f j s h) (fun _ s1 q1 => ih s1 q1) (fun _ q => q) (fun _ q => q)

omit hw in
theorem reapSome_fresh (s : UState) (h : Fresh St t0 L s) :
    wp (reapSome e) (fun _ s' => Fresh St t0 L s') (Fresh St t0 L) (Fresh St t0 L) s := by
  unfold reapSome
  simp only [wp_bind, wp_modify, wp_get]
  exact finishJobs_fresh _ _ (h.tick _)

omit hw in
theorem reapBlock_fresh (s : UState) (h : Fresh St t0 L s) :
    wp (reapBlock e) (fun _ s' => Fresh St t0 L s') (Fresh St t0 L) (Fresh St t0 L) s := by
  unfold reapBlock
  simp only [wp_bind, wp_get]
  refine wp_mono (reapSome_fresh s h) (fun _ s1 q1 => ?_) (fun _ q => q) (fun _ q => q)
  cases hr : s1.running with
  | nil => exact q1
  | cons f fs =>
    simp only [wp_ite, wp_pure]
    split
    · exact q1
    · exact finishJob_fresh f _ s1 q1

omit hw in
theorem noticeRun_fresh (f : Nat) (st : UStatus) (s : UState) (h : Fresh St t0 L s) (hf : St f) :
    wpT (notice e f) (fun _ s' => Fresh St t0 L s') ((setCState s f .running).setFile f fun x => { x with ustatus := st }) :=
  notice_fresh f _ (status_fresh f st _ (h.setCState f _ (fun _ => hf)))

omit hw in
theorem newJob_fresh (f : Nat) (s : UState) (h : Fresh St t0 L s) (hf : St f) :
    wp (newJob e f) (fun _ s' => Fresh St t0 L s') (Fresh St t0 L) (Fresh St t0 L) s := by
  unfold newJob
  simp only [wp_bind, wp_modify, wp_get]
  refine wp_mono (reapSome_fresh s h) (fun _ s1 q1 => ?_) (fun _ q => q) (fun _ q => q)
  have q2 : Fresh St t0 L { s1.note (.start f) with tick := s1.tick + 1 } :=
    (q1.note (.start f) (fun x a => by cases a; exact hf)).tick _
  generalize ({ s1.note (.start f) with tick := s1.tick + 1 } : UState) = t at *
  cases e.launch s1.tick f with
  | spawned =>
    simp only [wp_bind, wp_modify, wp_ite, wp_pure]
    have q3 : Fresh St t0 L { setCState t f .running with running := f :: t.running } :=
      (q2.setCState f .running (fun _ => hf)).running _ (fun x a => by
        rcases List.mem_cons.mp a with b | b
        · exact .inr (b ▸ hf)
        · exact .inr (q2.run x b))
    split
    · exact finishJob_fresh f _ _ q3
    · exact q3
  | nothing =>
    simp only [wp_bind, wp_modify]
    exact wp_of_T (noticeRun_fresh f _ t q2 hf) (fun _ _ q => q)
  | asked =>
    simp only [wp_ite, wp_bind, wp_modify]
    split
    · exact wp_of_T (notice_fresh f _ (status_fresh f _ t q2)) (fun _ _ q => q)
    · exact wp_of_T (noticeRun_fresh f _ t q2 hf) (fun _ _ q => q)

omit hw in
theorem remakeFile_fresh (f : Nat) (s : UState) (h : Fresh St t0 L s) (hf : St f) :
    wp (remakeFile e f) (fun _ s' => Fresh St t0 L s') (Fresh St t0 L) (Fresh St t0 L) s := by
  unfold remakeFile
  simp only [wp_bind, wp_modify, wp_get, wp_ite, wp_die]
  split
  · unfold executeCommands
    simp only [wp_bind, wp_modify, wp_get, wp_ite]
    split
    · exact wp_of_T (noticeRun_fresh f _ s h hf) (fun _ _ q => q)
    · exact newJob_fresh f s h hf
  · split
    · exact wp_of_T (notice_fresh f _ (status_fresh f _ s h)) (fun _ _ q => q)
    · split
      · exact h
      · exact wp_of_T (notice_fresh f _ (status_fresh f _ s h)) (fun _ _ q => q)

theorem recordChanged_fresh (noexist : Bool) (thisM n f : Nat) (d : Option Nat) (must changed : Bool) (s : UState)
    (h : Fresh St t0 L s) (hd : ∀ k, d = some k → L.own k = f) (hm : ¬ St f → must = false) :
    wp (recordChanged e noexist thisM n d must changed) (fun r s' => Fresh St t0 L s' ∧ (¬ St f → r.1 = false))
      (Fresh St t0 L) (Fresh St t0 L) s := by
  induction n generalizing d must changed s with
  | zero =>
    cases d with
    | none => exact ⟨h, hm⟩
    | some d => exact h
  | succ n ih =>
    cases d with
    | none => exact ⟨h, hm⟩
    | some d =>
      rw [recordChanged]
      simp only [wp_bind, wp_readDep]
      cases hx : s.dep d with
      | none => exact h
      | some x =>
        simp only
        refine wp_of_T (fileMtime_fresh hw x.file s h) (fun m s1 q1 => ?_)
        rw [wp_get]
        unfold writeDep
        rw [wp_modify]
        have hn := h.nx d x hx
        refine ih _ _ _ _ (q1.1.writeDep d _ hn) (fun k a => by rw [hn.1 k a]; exact hd d rfl) (fun a => ?_)
        rw [hm a]
        cases hi : x.ignoreMtime with
        | true => rfl
        | false =>
          have := (hw.edge d (hn.2.2 ▸ hi) (by rw [hd d rfl]; exact a)).1
          rw [← hn.2.1] at this
          rw [q1.2 this]
          simp [hw.exist _ this]

theorem decideFile_fresh (n f thisM : Nat) (sc : Scan) (s : UState) (h : Fresh St t0 L s) (ht : ¬ St f → thisM = t0 f)
    (hm : ¬ St f → sc.must = false) :
    wp (decideFile e n f thisM sc) (fun _ s' => Fresh St t0 L s') (Fresh St t0 L) (Fresh St t0 L) s := by
  unfold decideFile
  simp only [wp_bind, wp_modify, wp_get, wp_ite, wp_pure]
  have tail : ∀ s, Fresh St t0 L s → wp (recordChanged e (decide (thisM = 1)) thisM n (s.file f).deps sc.must false)
      (fun r s => if mustRemake e (s.file f) (decide (thisM = 1)) r.1 r.2 = true then
          wp (remakeFile e f) (fun _ s => if (s.file f).cstate = .finished then
            Fresh St t0 L (s.setFile f fun x => { x with updated := true }) else Fresh St t0 L s) (Fresh St t0 L) (Fresh St t0 L) s
        else wp (notice e f) (fun _ s => Fresh St t0 L s) (Fresh St t0 L) (Fresh St t0 L) s) (Fresh St t0 L) (Fresh St t0 L) s := by
    intro s h
    refine wp_mono (recordChanged_fresh hw _ _ _ f _ _ _ s h (h.ow f) hm) (fun r s1 q1 => ?_) (fun _ q => q) (fun _ q => q)
    split
    · rename_i hr
      have hf : St f := by
        refine Classical.byContradiction (fun a => ?_)
        have h1 := q1.2 a
        have h2 := hw.always f a
        unfold mustRemake at hr
        rw [(q1.1.plain f).2.2.2.2, h1, h2] at hr
        simp at hr
      refine wp_mono (remakeFile_fresh f s1 q1.1 hf) (fun _ s2 q2 => ?_) (fun _ q => q) (fun _ q => q)
      split
      · exact q2.setFile f _ (fun y => keeps_easy f y _ (.inl rfl) rfl rfl rfl rfl rfl rfl rfl)
      · exact q2
    · exact wp_of_T (notice_fresh f s1 q1.1) (fun _ _ q => q)
  split
  · exact wp_of_T (notice_fresh f _ (h.setFile f _ (fun y => keeps_easy f y _ (.inl rfl) rfl rfl rfl rfl rfl rfl rfl))) (fun _ _ q => q)
  · split
    · exact tail _ (h.setCState f _ (by simp))
    · exact tail _ h

omit hw in
theorem unlink_fresh (f : Nat) (last next : Option Nat) (s : UState) (h : Fresh St t0 L s)
    (hl : ∀ k, last = some k → L.own k = f) (hn : ∀ k, next = some k → L.own k = f) :
    wp (unlink f last next) (fun _ s' => Fresh St t0 L s') (Fresh St t0 L) (Fresh St t0 L) s := by
  unfold unlink
  cases last with
  | none =>
    simp only [wp_modify]
    exact h.setFile f _ (fun y => ⟨.inr, fun _ => .inr (.inr rfl), rfl, rfl, rfl, id, rfl, fun d a => .inl (hn d a)⟩)
  | some l =>
    simp only [wp_bind, wp_readDep]
    cases hx : s.dep l with
    | none => exact h
    | some y =>
      unfold writeDep
      simp only [wp_modify]
      refine h.writeDep l _ ⟨fun k a => ?_, (h.nx l y hx).2⟩
      rw [hl l rfl]; exact hn k a

omit hw in
theorem setUpdating_fresh (b : Bool) (f : Nat) (s : UState) (h : Fresh St t0 L s) :
    Fresh St t0 L (s.setFile (s.file f).head fun x => { x with updating := b }) :=
  h.setFile _ _ (fun y => keeps_easy _ y _ (.inl rfl) rfl rfl rfl rfl rfl rfl rfl)

omit hw in
theorem lastResort_fresh (f : Nat) (s : UState) (h : Fresh St t0 L s) :
    wpT (lastResort e f) (fun _ s' => Fresh St t0 L s') s := by
  unfold lastResort wpT
  rw [wp_modify]
  refine h.setFile f _ (fun y => ?_)
  simp only
  split <;> split <;> exact keeps_easy _ y _ (.inl rfl) rfl rfl rfl rfl rfl rfl rfl

theorem run_fresh : ∀ n,
    (∀ f s, Fresh St t0 L s → wp (updateFile e n f) (fun _ s' => Fresh St t0 L s') (Fresh St t0 L) (Fresh St t0 L) s) ∧
    (∀ xs st s, Fresh St t0 L s → wp (updateEntries e n xs st) (fun _ s' => Fresh St t0 L s') (Fresh St t0 L) (Fresh St t0 L) s) ∧
    (∀ f s, Fresh St t0 L s → wp (updateFile1 e n f) (fun _ s' => Fresh St t0 L s') (Fresh St t0 L) (Fresh St t0 L) s) ∧
    (∀ f m gs sc s, Fresh St t0 L s → (∀ g ∈ gs, g = f) → (¬ St f → m = t0 f) → (¬ St f → sc.must = false) →
      wp (scanLists e n f m gs sc) (fun r s' => Fresh St t0 L s' ∧ (¬ St f → r.must = false)) (Fresh St t0 L) (Fresh St t0 L) s) ∧
    (∀ f m last d sc s, Fresh St t0 L s → (∀ k, last = some k → L.own k = f) → (∀ k, d = some k → L.own k = f) → (¬ St f → m = t0 f) →
      (¬ St f → sc.must = false) →
      wp (scanDeps e n f m last d sc) (fun r s' => Fresh St t0 L s' ∧ (¬ St f → r.must = false)) (Fresh St t0 L) (Fresh St t0 L) s) ∧
    (∀ f d sc s, Fresh St t0 L s →
      wp (updateIntermediates e n f d sc) (fun r s' => Fresh St t0 L s' ∧ r.must = sc.must) (Fresh St t0 L) (Fresh St t0 L) s) ∧
    (∀ f m must s, Fresh St t0 L s →
      wp (checkDep e n f m must) (fun r s' => Fresh St t0 L s' ∧ (¬ St f → t0 f ≤ m → must = false → r.2 = false))
        (Fresh St t0 L) (Fresh St t0 L) s) := by
  intro n
  induction n with
  | zero =>
    refine ⟨fun f s h => ?_, fun xs st s h => ?_, fun f s h => ?_, fun f m gs sc s h _ _ hm => ?_, fun f m last d sc s h _ _ _ hm => ?_,
      fun f d sc s h => ?_, fun f m must s h => ?_⟩
    · rw [updateFile]; exact h
    · cases xs <;> (rw [updateEntries]; exact h)
    · rw [updateFile1]; exact h
    · cases gs with
      | nil => rw [scanLists]; exact ⟨h, hm⟩
      | cons => rw [scanLists]; exact h
    · cases d with
      | none => rw [scanDeps]; exact ⟨h, hm⟩
      | some => rw [scanDeps]; exact h
    · cases d with
      | none => rw [updateIntermediates]; exact ⟨h, rfl⟩
      | some => rw [updateIntermediates]; exact h
    · rw [checkDep]; exact h
  | succ n ih =>
    obtain ⟨ihF, ihE, ih1, ihL, ihD, ihI, ihC⟩ := ih
    refine ⟨fun f s h => ?_, fun xs st s h => ?_, fun f s h => ?_, fun f m gs sc s h hg ht hm => ?_, fun f m last d sc s h hl hd ht hm => ?_,
      fun f d sc s h => ?_, fun f m must s h => ?_⟩
    · rw [updateFile]
      simp only [wp_bind, wp_get, wp_ite, wp_pure]
      split
      · exact h
      · exact ihE _ _ s h
    · cases xs with
      | nil => rw [updateEntries]; exact h
      | cons x xs =>
        rw [updateEntries]
        simp only [wp_bind, wp_get, wp_ite, wp_pure, wp_modify]
        refine wp_mono (ih1 x _ (h.setFile x _ (fun y => keeps_easy x y _ (.inl rfl) rfl rfl rfl rfl rfl rfl rfl))) (fun r s1 q1 => ?_)
          (fun _ q => q) (fun _ q => q)
        split
        · exact q1
        · split
          · exact q1
          · exact ihE _ _ s1 q1
    · rw [updateFile1]
      simp only [wp_bind, wp_get, wp_ite, wp_pure, wp_modify]
      split
      · exact h
      · split
        · exact h
        · split
          · exact h
          · unfold setUpdating
            simp only [wp_modify]
            refine wp_of_T (fileMtime_fresh hw f _ (setUpdating_fresh true f s h)) (fun m s1 q1 => ?_)
            refine wp_of_T (lastResort_fresh f s1 q1.1) (fun _ s2 q2 => ?_)
            rw [(q2.plain f).2.2.1]
            refine wp_mono (ihL f m [f] _ s2 q2 (by simp) q1.2 (fun a => ?_)) (fun sc s3 q3 => ?_) (fun _ q => q) (fun _ q => q)
            · simp only [decide_eq_false_iff_not]
              rw [q1.2 a]; exact hw.exist f a
            · have rest : ∀ sc s, Fresh St t0 L s ∧ (¬ St f → sc.must = false) →
                  (if sc.running = true then Fresh St t0 L (setCState (s.setFile (s.file f).head fun x => { x with updating := false }) f .depsRunning)
                    else wp (decideFile e n f m sc) (fun _ s' => Fresh St t0 L s') (Fresh St t0 L) (Fresh St t0 L)
                      (s.setFile (s.file f).head fun x => { x with updating := false })) := by
                intro sc s q
                have q' := setUpdating_fresh false f s q.1
                split
                · exact q'.setCState f _ (by simp)
                · exact decideFile_fresh hw n f m sc _ q' q1.2 q.2
              split
              · refine wp_mono (ihI f _ sc s3 q3.1) (fun sc' s4 q4 => rest sc' s4 ⟨q4.1, fun a => by rw [q4.2]; exact q3.2 a⟩) (fun _ q => q) (fun _ q => q)
              · exact rest sc s3 q3
    · cases gs with
      | nil => rw [scanLists]; exact ⟨h, hm⟩
      | cons g gs =>
        rw [scanLists]
        simp only [wp_bind, wp_get]
        have hgf : g = f := hg g (List.mem_cons_self ..)
        refine wp_mono (ihD f m none _ sc s h (by simp) (fun k a => by rw [hgf] at a; exact h.ow f k a) ht hm) (fun sc' s1 q1 => ?_) (fun _ q => q) (fun _ q => q)
        exact ihL f m gs sc' s1 q1.1 (fun x hx => hg x (List.mem_cons_of_mem _ hx)) ht q1.2
    · cases d with
      | none => rw [scanDeps]; exact ⟨h, hm⟩
      | some d =>
        rw [scanDeps]
        simp only [wp_bind, wp_readDep]
        cases hx : s.dep d with
        | none => exact h
        | some x =>
          simp only
          have hn := h.nx d x hx
          have hod := hd d rfl
          refine wp_of_T (fileMtime_fresh hw x.file s h) (fun mt s1 q1 => ?_)
          simp only [wp_get, wp_ite]
          split
          · simp only [wp_bind, wp_modify]
            refine wp_mono (unlink_fresh f last x.next _ (q1.1.note (.dropped f x.file) (by simp)) hl (fun k a => by rw [hn.1 k a, hod]))
              (fun _ s2 q2 => ?_) (fun _ q => q) (fun _ q => q)
            exact ihD f m last x.next sc s2 q2 hl (fun k a => by rw [hn.1 k a, hod]) ht hm
          · simp only [wp_bind]
            refine wp_mono (ihC x.file m sc.must s1 q1.1) (fun r s2 q2 => ?_) (fun _ q => q) (fun _ q => q)
            rw [wp_readDep]
            cases hx2 : s2.dep d with
            | none => exact q2.1
            | some y =>
              simp only [wp_get, wp_ite, wp_pure, wp_bind]
              have hn2 := q2.1.nx d y hx2
              have must : ¬ St f → (if y.ignoreMtime = true then sc.must else r.2) = false := by
                intro a
                split
                · exact hm a
                · rename_i hi
                  rw [Bool.not_eq_true, hn2.2.2] at hi
                  have := hw.edge d hi (by rw [hod]; exact a)
                  rw [hod, ← hn.2.1, ← ht a] at this
                  exact q2.2 this.1 this.2 (hm a)
              have nxt : ∀ k, y.next = some k → L.own k = f := fun k a => by rw [hn2.1 k a, hod]
              have lst : ∀ k, some d = some k → L.own k = f := fun k a => by cases a; exact hod
              split
              · exact ⟨q2.1, must⟩
              · split
                · exact ihD f m (some d) y.next _ s2 q2.1 lst nxt ht must
                · refine wp_of_T (fileMtime_fresh hw y.file s2 q2.1) (fun mt' s3 q3 => ?_)
                  unfold writeDep
                  simp only [wp_modify]
                  exact ihD f m (some d) y.next _ _ (q3.1.writeDep d _ ⟨fun k a => hn2.1 k a, hn2.2⟩) lst nxt ht must
    · cases d with
      | none => rw [updateIntermediates]; exact ⟨h, rfl⟩
      | some d =>
        rw [updateIntermediates]
        simp only [wp_bind, wp_readDep]
        cases hx : s.dep d with
        | none => exact h
        | some x =>
          simp only [wp_get, wp_ite]
          rw [if_neg (by rw [(h.plain x.file).2.2.2.1]; simp)]
          exact ihI f _ sc s h
    · rw [checkDep]
      unfold setUpdating
      simp only [wp_bind, wp_get, wp_ite, wp_pure, wp_modify]
      have h1 := setUpdating_fresh true f s h
      rw [if_pos (.inr (by rw [(h1.plain f).2.2.2.1]; simp))]
      refine wp_mono (ihF f _ h1) (fun st s1 q1 => ?_) (fun _ q => q) (fun _ q => q)
      refine wp_of_T (fileMtime_fresh hw f s1 q1) (fun mt s2 q2 => ?_)
      refine ⟨setUpdating_fresh false f s2 q2.1, fun a b c => ?_⟩
      simp only [c, q2.2 a, hw.exist f a, decide_false, Bool.false_or, decide_eq_false_iff_not]
      omega

theorem goalEntries_fresh (n : Nat) (xs : List Nat) (r : GoalRes) (s : UState) (h : Fresh St t0 L s) :
    wp (goalEntries e n xs r) (fun _ s' => Fresh St t0 L s') (Fresh St t0 L) (Fresh St t0 L) s := by
  induction xs generalizing r s with
  | nil => exact h
  | cons x xs ih =>
    rw [goalEntries]
    simp only [wp_bind, wp_get, wp_ite, wp_pure]
    refine wp_mono ((run_fresh hw n).1 x s h) (fun st s1 q1 => ?_) (fun _ q => q) (fun _ q => q)
    split
    · refine wp_of_T (fileMtime_fresh hw x s1 q1) (fun _ s2 q2 => ?_)
      split
      · exact q2.1
      · exact ih _ s2 q2.1
    · split
      · exact q1
      · exact ih _ s1 q1

theorem goalPass_fresh (n : Nat) (gs : List Nat) (st : UStatus) (s : UState) (h : Fresh St t0 L s) :
    wp (goalPass e n gs st) (fun _ s' => Fresh St t0 L s') (Fresh St t0 L) (Fresh St t0 L) s := by
  induction gs generalizing st s with
  | nil => exact h
  | cons g gs ih =>
    rw [goalPass]
    simp only [wp_bind, wp_get, wp_ite, wp_pure]
    refine wp_mono (goalEntries_fresh hw n _ _ s h) (fun r s1 q1 => ?_) (fun _ q => q) (fun _ q => q)
    split
    · exact q1
    · exact wp_mono (ih r.status s1 q1) (fun _ s2 q2 => q2) (fun _ q => q) (fun _ q => q)

theorem goalLoop_fresh (n k : Nat) (gs : List Nat) (st : UStatus) (s : UState) (h : Fresh St t0 L s) :
    wp (goalLoop e n k gs st) (fun _ s' => Fresh St t0 L s') (Fresh St t0 L) (Fresh St t0 L) s := by
  induction k generalizing gs st s with
  | zero => cases gs <;> (rw [goalLoop]; exact h)
  | succ k ih =>
    cases gs with
    | nil => rw [goalLoop]; exact h
    | cons g gs =>
      rw [goalLoop]
      simp only [wp_bind, wp_ite, wp_modify, wp_pure]
      refine wp_mono (reapBlock_fresh s h) (fun _ s1 q1 => ?_) (fun _ q => q) (fun _ q => q)
      refine wp_mono (goalPass_fresh hw n (g :: gs) st s1 q1) (fun r s2 q2 => ?_) (fun _ q => q) (fun _ q => q)
      split
      · exact ih _ _ s2 q2
      · exact ih _ _ _ (q2.cons _)

theorem updateGoals_fresh (n k : Nat) (gs : List Nat) (s : UState) (h : Fresh St t0 L s) :
    wp (updateGoals e n k gs) (fun _ s' => Fresh St t0 L s') (Fresh St t0 L) (Fresh St t0 L) s := by
  unfold updateGoals
  rw [wp_bind, wp_modify]
  exact goalLoop_fresh hw n k gs .none _ (h.cons _)

omit hw

/-- The struct deps at the beginning. -/
def Graph.lay (G : Graph) : Lay where
  own n := n / G.width
  to n := (((G.rule (n / G.width)).prereqs[n % G.width]?).getD (0, true)).1
  order n := (((G.rule (n / G.width)).prereqs[n % G.width]?).getD (0, true)).2

theorem initial_fresh {G : Graph} (hG : Spec.Simple G) (hp : ∀ x, ¬ St x → (G.rule x).phony = false) : Fresh St t0 G.lay G.initial := by
  have simple : ∀ x, (G.rule x).colons = none ∧ (G.rule x).group = none ∧ (G.rule x).intermediate = false := by
    intro x
    unfold Graph.rule
    rw [List.getD_eq_getElem?_getD]
    cases hx : G[x]? with
    | none => exact ⟨rfl, rfl, rfl⟩
    | some r => exact hG r (List.mem_of_getElem? hx)
  refine ⟨fun x a => (nomatch a), fun x a => (nomatch a), fun x a => (nomatch a), fun x a => .inl ?_, fun x => ?_, fun x d a => ?_, fun n x a => ?_⟩
  · simp [Graph.initial, hp x a]
  · obtain ⟨h1, h2, h3⟩ := simple x
    simp [Graph.initial, Graph.entries, Graph.mates, h1, h2, h3]
  · simp only [Graph.initial] at a
    split at a
    · cases a
    · cases a
      have : 0 < G.width := Nat.succ_pos _
      exact Nat.mul_div_cancel _ this
  · simp only [Graph.initial] at a
    cases hx : (G.rule (n / G.width)).prereqs[n % G.width]? with
    | none => rw [hx] at a; cases a
    | some p =>
      rw [hx] at a
      cases a
      refine ⟨fun d b => ?_, ?_, ?_⟩
      · simp only at b
        split at b
        · rename_i hlt
          cases b
          have hwd := G.width_lt (n / G.width)
          exact (div_step (n := n) (W := G.width) (by omega)).1
        · cases b
      · simp [Graph.lay, hx]
      · simp [Graph.lay, hx]

end Remake
