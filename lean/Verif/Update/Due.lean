import Verif.Update.Fresh
/-!
# Updating targets: what is out of date is remade

In graphs without double-colon rules, grouped targets and intermediate files, in a world in which
recipes renew their targets.
-/
namespace Remake
set_option linter.unusedVariables false
set_option linter.unusedSimpArgs false
open Spec

variable {e : Env} {G : Graph} {t0 : Nat → Nat}

/-- The time of a file as make sees it at the beginning. -/
def seenTime (G : Graph) (t0 : Nat → Nat) (x : Nat) : Nat := if (G.rule x).phony then 1 else max 1 (t0 x)

theorem seenTime_there {x : Nat} : seenTime G t0 x ≠ 1 ↔ IsThere G t0 x := by
  unfold seenTime IsThere
  cases (G.rule x).phony <;> simp <;> omega

/-- Later than all the files at the beginning. -/
def Later (G : Graph) (t0 : Nat → Nat) (m : Nat) : Prop := ∀ y, seenTime G t0 y < m

/-- The recipes are really run, and none is added. -/
def Really (e : Env) : Prop := e.question = false ∧ e.justPrint = false ∧ e.hasDefault = false

/-- What a time of a file that is known may be. -/
def Val (e : Env) (G : Graph) (t0 : Nat → Nat) (log : List UEvent) (x m : Nat) : Prop :=
  ((∃ u, UEvent.done x u ∈ log) ∧ Later G t0 m ∧ (UEvent.start x ∈ log ∨ ¬ Really e)) ∨
  (UEvent.start x ∉ log ∧ m = seenTime G t0 x) ∨
  (UEvent.start x ∈ log ∧ (UEvent.done x .success ∉ log ∨ m = 1))

/-- A prerequisite that is no reason to remake the target. -/
def NoReason (G : Graph) (t0 : Nat → Nat) (log : List UEvent) (f p : Nat) : Prop :=
  UEvent.done p .success ∈ log ∧ UEvent.start p ∉ log ∧ seenTime G t0 p ≠ 1 ∧ seenTime G t0 p ≤ seenTime G t0 f

/-- None of the prerequisites is a reason to remake the target. -/
def NoneIsReason (G : Graph) (t0 : Nat → Nat) (log : List UEvent) (f : Nat) : Prop :=
  ∀ p, (p, false) ∈ (G.rule f).prereqs → UEvent.dropped f p ∈ log ∨ NoReason G t0 log f p

/-- There is no reason to remake the target. -/
def Spared (e : Env) (G : Graph) (t0 : Nat → Nat) (log : List UEvent) (f : Nat) : Prop :=
  e.alwaysMake = false ∧ seenTime G t0 f ≠ 1 ∧ NoneIsReason G t0 log f

/-- What holds of what has been observed. -/
structure DueLog (e : Env) (G : Graph) (t0 : Nat → Nat) (log : List UEvent) : Prop where
  first : ∀ l1 x l2, log = l1 ++ .start x :: l2 → ∀ u, UEvent.done x u ∉ l2
  spared : ∀ f, HasRecipe G f → UEvent.done f .success ∈ log → UEvent.start f ∈ log ∨ Spared e G t0 log f
  reason : Really e → ∀ f, UEvent.start f ∈ log → HasRecipe G f ∧ OutOfDate e G t0 (fun _ _ => False) f

structure Due (e : Env) (G : Graph) (t0 : Nat → Nat) (s : UState) : Prop where
  log : DueLog e G t0 s.log
  ph : ∀ x, (s.file x).phony = (G.rule x).phony
  own : ∀ x, (G.rule x).cmds = true → (s.file x).cmds = true
  dflt : e.hasDefault = false → ∀ x, (s.file x).cmds = true → (G.rule x).cmds = true
  emp : ∀ x, (s.file x).emptyCmds = (G.rule x).emptyCmds
  node : ∀ n y, s.dep n = some y → (G.rule (n / G.width)).prereqs[n % G.width]? = some (y.file, y.ignoreMtime)
  plain : ∀ x, (s.file x).head = x ∧ (s.file x).chain = [x] ∧ (s.file x).alsoMake = [] ∧ (s.file x).intermediate = false ∧
    (s.file x).dcolon = false
  mt : ∀ x, (s.file x).mtime = 0 ∨ Val e G t0 s.log x (s.file x).mtime
  mp : ∀ x, (G.rule x).phony = true → (s.file x).mtime = 1

theorem Val.congr {log log' : List UEvent} {x m : Nat} (h : Val e G t0 log x m) (hs : UEvent.start x ∈ log' ↔ UEvent.start x ∈ log)
    (hd : ∀ u, UEvent.done x u ∈ log' ↔ UEvent.done x u ∈ log) : Val e G t0 log' x m := by
  unfold Val at *
  simpa only [hs, hd] using h

theorem NoReason.mono {log : List UEvent} {f p : Nat} (h : NoReason G t0 log f p) (l : List UEvent)
    (hf : ∀ l1 x l2, l ++ log = l1 ++ .start x :: l2 → ∀ u, UEvent.done x u ∉ l2) : NoReason G t0 (l ++ log) f p := by
  refine ⟨List.mem_append_right _ h.1, fun a => ?_, h.2.2⟩
  rcases List.mem_append.mp a with a | a
  · obtain ⟨l1, l2, rfl⟩ := List.append_of_mem a
    exact hf l1 p (l2 ++ log) (by simp) .success (List.mem_append_right _ h.1)
  · exact h.2.1 a

theorem NoneIsReason.mono {log : List UEvent} {f : Nat} (h : NoneIsReason G t0 log f) (l : List UEvent)
    (hf : ∀ l1 x l2, l ++ log = l1 ++ .start x :: l2 → ∀ u, UEvent.done x u ∉ l2) : NoneIsReason G t0 (l ++ log) f :=
  fun p hp => (h p hp).imp (List.mem_append_right _) (fun a => a.mono l hf)

theorem Spared.mono {log : List UEvent} {f : Nat} (h : Spared e G t0 log f) (l : List UEvent)
    (hf : ∀ l1 x l2, l ++ log = l1 ++ .start x :: l2 → ∀ u, UEvent.done x u ∉ l2) : Spared e G t0 (l ++ log) f :=
  ⟨h.1, h.2.1, h.2.2.mono l hf⟩

/-- A start must come before. -/
theorem first_cons {log : List UEvent} {ev : UEvent} (h : ∀ l1 x l2, log = l1 ++ .start x :: l2 → ∀ u, UEvent.done x u ∉ l2)
    (hev : ∀ x, ev = .start x → ∀ u, UEvent.done x u ∉ log) : ∀ l1 x l2, ev :: log = l1 ++ .start x :: l2 → ∀ u, UEvent.done x u ∉ l2 := by
  intro l1 x l2 heq
  cases l1 with
  | nil =>
    simp only [List.nil_append, List.cons.injEq] at heq
    obtain ⟨h1, rfl⟩ := heq
    exact hev x h1
  | cons a l1 =>
    simp only [List.cons_append, List.cons.injEq] at heq
    exact h l1 x l2 heq.2

theorem DueLog.dropped {log : List UEvent} (h : DueLog e G t0 log) (f d : Nat) : DueLog e G t0 (.dropped f d :: log) := by
  have hf := first_cons (ev := .dropped f d) h.first (fun x a => by cases a)
  refine ⟨hf, fun g hg hd => ?_, fun hr g hg => ?_⟩
  · rcases h.spared g hg (by simpa using hd) with a | a
    · exact .inl (List.mem_cons_of_mem _ a)
    · exact .inr (a.mono [_] hf)
  · exact h.reason hr g (by simpa using hg)

theorem DueLog.start {log : List UEvent} (h : DueLog e G t0 log) (f : Nat) (hd : ∀ u, UEvent.done f u ∉ log)
    (hr : Really e → HasRecipe G f ∧ OutOfDate e G t0 (fun _ _ => False) f) : DueLog e G t0 (.start f :: log) := by
  have hf := first_cons (ev := .start f) h.first (fun x a => by cases a; exact hd)
  refine ⟨hf, fun g hg hd => ?_, fun hr' g hg => ?_⟩
  · rcases h.spared g hg (by simpa using hd) with a | a
    · exact .inl (List.mem_cons_of_mem _ a)
    · exact .inr (a.mono [_] hf)
  · rcases List.mem_cons.mp hg with hg | hg
    · cases hg; exact hr hr'
    · exact h.reason hr' g hg

theorem DueLog.done {log : List UEvent} (h : DueLog e G t0 log) (f : Nat) (u : UStatus)
    (hs : u = .success → HasRecipe G f → UEvent.start f ∈ log ∨ Spared e G t0 log f) : DueLog e G t0 (.done f u :: log) := by
  have hf := first_cons (ev := .done f u) h.first (fun x a => by cases a)
  refine ⟨hf, fun g hg hd => ?_, fun hr' g hg => ?_⟩
  · have : UEvent.start g ∈ log ∨ Spared e G t0 log g := by
      rcases List.mem_cons.mp hd with hd | hd
      · cases hd; exact hs rfl hg
      · exact h.spared g hg hd
    rcases this with a | a
    · exact .inl (List.mem_cons_of_mem _ a)
    · exact .inr (a.mono [_] hf)
  · exact h.reason hr' g (by simpa using hg)

/-- Changes of a file that are of no concern. -/
def KeepsDue (e : Env) (G : Graph) (x : Nat) (y y' : UFile) : Prop :=
  y'.phony = y.phony ∧ (y.cmds = true → y'.cmds = true) ∧ (e.hasDefault = false → y'.cmds = true → y.cmds = true) ∧
  y'.emptyCmds = y.emptyCmds ∧ y'.head = y.head ∧ y'.chain = y.chain ∧ y'.alsoMake = y.alsoMake ∧
  (y'.intermediate = true → y.intermediate = true) ∧ y'.dcolon = y.dcolon

theorem Due.files {s : UState} (h : Due e G t0 s) (F : Nat → UFile) (hF : ∀ x, KeepsDue e G x (s.file x) (F x))
    (hm : ∀ x, (F x).mtime = (s.file x).mtime ∨ (G.rule x).phony = false ∧ ((F x).mtime = 0 ∨ Val e G t0 s.log x (F x).mtime)) :
    Due e G t0 { s with file := F } := by
  refine ⟨h.log, fun x => (hF x).1.trans (h.ph x), fun x a => (hF x).2.1 (h.own x a), fun d x a => h.dflt d x ((hF x).2.2.1 d a),
    fun x => (hF x).2.2.2.1.trans (h.emp x), h.node, fun x => ?_, fun x => ?_, fun x a => ?_⟩
  · obtain ⟨_, _, _, _, a3, a4, a5, a6, a7⟩ := hF x
    obtain ⟨b1, b2, b3, b4, b5⟩ := h.plain x
    refine ⟨a3.trans b1, a4.trans b2, a5.trans b3, ?_, a7.trans b5⟩
    show (F x).intermediate = false
    cases hi : (F x).intermediate with
    | false => rfl
    | true => rw [a6 hi] at b4; cases b4
  · show (F x).mtime = 0 ∨ Val e G t0 s.log x (F x).mtime
    rcases hm x with b | b
    · rw [b]; exact h.mt x
    · exact b.2
  · show (F x).mtime = 1
    rcases hm x with b | b
    · rw [b]; exact h.mp x a
    · rw [a] at b; cases b.1

theorem Due.setFile {s : UState} (h : Due e G t0 s) (f : Nat) (g : UFile → UFile) (hg : ∀ y, KeepsDue e G f y (g y))
    (hm : ((g (s.file f)).mtime = (s.file f).mtime ∨ (G.rule f).phony = false ∧ ((g (s.file f)).mtime = 0 ∨ Val e G t0 s.log f (g (s.file f)).mtime))) :
    Due e G t0 (s.setFile f g) := by
  refine h.files _ (fun x => ?_) (fun x => ?_)
  · split
    · rename_i hx; rw [hx]; exact hg _
    · exact ⟨rfl, id, fun _ => id, rfl, rfl, rfl, rfl, id, rfl⟩
  · split
    · rename_i hx; rw [hx]; exact hm
    · exact .inl rfl

theorem Due.tick {s : UState} (h : Due e G t0 s) (i : Nat) : Due e G t0 { s with tick := i } :=
  ⟨h.log, h.ph, h.own, h.dflt, h.emp, h.node, h.plain, h.mt, h.mp⟩

theorem Due.cons {s : UState} (h : Due e G t0 s) (i : Nat) : Due e G t0 { s with considered := i } :=
  ⟨h.log, h.ph, h.own, h.dflt, h.emp, h.node, h.plain, h.mt, h.mp⟩

theorem Due.running {s : UState} (h : Due e G t0 s) (r : List Nat) : Due e G t0 { s with running := r } :=
  ⟨h.log, h.ph, h.own, h.dflt, h.emp, h.node, h.plain, h.mt, h.mp⟩

theorem Due.setCState {s : UState} (h : Due e G t0 s) (f : Nat) (c : CState) : Due e G t0 (setCState s f c) := by
  rw [setCState_plain s f c (h.plain f).2.2.1]
  exact h.setFile f _ (fun y => ⟨rfl, id, fun _ => id, rfl, rfl, rfl, rfl, id, rfl⟩) (.inl rfl)

theorem Due.status {s : UState} (h : Due e G t0 s) (f : Nat) (u : UStatus) : Due e G t0 (s.setFile f fun x => { x with ustatus := u }) :=
  h.setFile f _ (fun y => ⟨rfl, id, fun _ => id, rfl, rfl, rfl, rfl, id, rfl⟩) (.inl rfl)

theorem Due.flag {s : UState} (h : Due e G t0 s) (f : Nat) (b : Bool) : Due e G t0 (s.setFile f fun x => { x with updating := b }) :=
  h.setFile f _ (fun y => ⟨rfl, id, fun _ => id, rfl, rfl, rfl, rfl, id, rfl⟩) (.inl rfl)

theorem Due.writeDep {s : UState} (h : Due e G t0 s) (d : Nat) (x y : UDep) (hx : s.dep d = some x) (hf : y.file = x.file)
    (ho : y.ignoreMtime = x.ignoreMtime) : Due e G t0 { s with dep := fun z => if z = d then some y else s.dep z } := by
  refine ⟨h.log, h.ph, h.own, h.dflt, h.emp, fun n z a => ?_, h.plain, h.mt, h.mp⟩
  simp only at a
  split at a
  · rename_i hn
    cases a
    rw [hn, hf, ho]
    exact h.node d x hx
  · exact h.node n z a

theorem Due.noteDropped {s : UState} (h : Due e G t0 s) (f d : Nat) : Due e G t0 (s.note (.dropped f d)) := by
  refine ⟨h.log.dropped f d, h.ph, h.own, h.dflt, h.emp, h.node, h.plain, fun x => (h.mt x).imp_right (fun a => ?_), h.mp⟩
  exact a.congr (by simp [UState.note]) (fun u => by simp [UState.note])

theorem Due.noteStart {s : UState} (h : Due e G t0 s) (f : Nat) (hd : ∀ u, UEvent.done f u ∉ s.log)
    (hr : Really e → HasRecipe G f ∧ OutOfDate e G t0 (fun _ _ => False) f) : Due e G t0 (s.note (.start f)) := by
  refine ⟨h.log.start f hd hr, h.ph, h.own, h.dflt, h.emp, h.node, h.plain, fun x => ?_, h.mp⟩
  by_cases hx : x = f
  · subst hx
    refine .inr (.inr (.inr ⟨List.mem_cons_self .., .inl ?_⟩))
    simpa [UState.note] using hd .success
  · refine (h.mt x).imp_right (fun a => a.congr ?_ (fun u => by simp [UState.note]))
    simp [UState.note, hx]

variable (hw : Renews e t0)
include hw

theorem fMtime_due (f : Nat) (s : UState) (h : Due e G t0 s) (h0 : (s.file f).mtime = 0) :
    wpT (fMtime e f) (fun m s' => Due e G t0 s' ∧ Val e G t0 s'.log f m) s := by
  unfold fMtime wpT
  simp only [wp_bind, wp_get, wp_modify, wp_pure]
  have hph : (G.rule f).phony = false := by
    cases hp : (G.rule f).phony with
    | false => rfl
    | true => rw [h.mp f hp] at h0; cases h0
  have val : Val e G t0 s.log f (max 1 (e.stat s.tick s.log f)) := by
    by_cases hs : UEvent.start f ∈ s.log
    · by_cases hd : UEvent.done f .success ∈ s.log
      · rcases hw.after s.tick s.log f hs hd with a | a
        · exact .inr (.inr ⟨hs, .inr (by omega)⟩)
        · by_cases h1 : e.stat s.tick s.log f ≤ 1
          · exact .inr (.inr ⟨hs, .inr (by omega)⟩)
          · refine .inl ⟨⟨_, hd⟩, fun y => ?_, .inl hs⟩
            have := a y
            unfold seenTime
            split <;> omega
      · exact .inr (.inr ⟨hs, .inl hd⟩)
    · refine .inr (.inl ⟨hs, ?_⟩)
      rw [hw.before _ _ f hs, seenTime, hph]
      simp
  refine ⟨Due.tick (h.files _ (fun x => ?_) (fun x => ?_)) _, val⟩
  · have hp := h.plain f
    simp only [hp.1, hp.2.1]
    split
    · split <;> split <;> exact ⟨rfl, id, fun _ => id, rfl, rfl, rfl, rfl, by simp, rfl⟩
    · exact ⟨rfl, id, fun _ => id, rfl, rfl, rfl, rfl, id, rfl⟩
  · have hp := h.plain f
    simp only [hp.1, hp.2.1]
    split
    · rename_i hx
      simp only [List.mem_singleton] at hx
      subst hx
      refine .inr ⟨hph, ?_⟩
      split <;> split <;> first | exact .inr val | exact .inl h0
    · exact .inl rfl

theorem fileMtime_due (f : Nat) (s : UState) (h : Due e G t0 s) :
    wpT (fileMtime e f) (fun m s' => Due e G t0 s' ∧ Val e G t0 s'.log f m) s := by
  unfold fileMtime wpT
  simp only [wp_bind, wp_get, wp_ite, wp_pure]
  split
  · rename_i h0
    exact fMtime_due hw f s h h0
  · rename_i hn
    exact ⟨h, (h.mt f).resolve_left hn⟩

/-- A target is finished. -/
theorem notice_due (f : Nat) (s : UState) (h : Due e G t0 s)
    (hs : endUStatus (s.file f).ustatus = .success → (UEvent.start f ∈ s.log → (s.file f).cstate = .running) ∧
      (HasRecipe G f → UEvent.start f ∈ s.log ∨ Spared e G t0 s.log f))
    (hc : (s.file f).cstate = .running → UEvent.start f ∈ s.log ∨ (s.file f).cmds = true) :
    wpT (notice e f) (fun _ s' => Due e G t0 s') s := by
  refine wp_mono (wp_and (E' := fun _ => True) (F' := fun _ => True) (notice_plain (e := e) f s (h.plain f).2.2.1)
    (show wp (notice e f) (fun _ s' => s'.log = UEvent.done f (endUStatus (s.file f).ustatus) :: s.log → Due e G t0 s') _ _ s from ?_))
    (fun _ s' q => q.2 q.1.log) (fun _ q => q.1) (fun _ q => q.1)
  unfold notice
  simp only [wp_bind, wp_modify, wp_get, wp_ite, wp_pure]
  -- the file
  have key : ∀ t : UState, t.log = s.log → t.dep = s.dep → (∀ x, ∃ c u v m w, t.file x = { s.file x with cstate := c, updated := u, ustatus := v, mtime := m, phony := w } ∧
      w = (s.file x).phony ∧
      (x ≠ f → m = (s.file x).mtime) ∧ (x = f → m = if (s.file f).cstate = .running ∧ ¬ (s.file f).phony = true then mtimeAfter e (s.file f) else (s.file f).mtime)) →
      Due e G t0 (t.note (.done f (endUStatus (s.file f).ustatus))) := by
    intro t h1 h2 h3
    have hl := h.log.done f (endUStatus (s.file f).ustatus) (fun a => (hs a).2)
    refine ⟨by show DueLog e G t0 (_ :: t.log); rw [h1]; exact hl, fun x => ?_, fun x => ?_, fun d x => ?_, fun x => ?_, ?_, fun x => ?_, fun x => ?_, fun x a => ?_⟩
    · obtain ⟨c, u, v, m, w, hx, hw', _⟩ := h3 x
      show (t.file x).phony = _
      rw [hx]; exact hw'.trans (h.ph x)
    · obtain ⟨c, u, v, m, w, hx, _⟩ := h3 x
      show _ → (t.file x).cmds = _
      rw [hx]; exact h.own x
    · obtain ⟨c, u, v, m, w, hx, _⟩ := h3 x
      show (t.file x).cmds = _ → _
      rw [hx]; exact h.dflt d x
    · obtain ⟨c, u, v, m, w, hx, _⟩ := h3 x
      show (t.file x).emptyCmds = _
      rw [hx]; exact h.emp x
    · show ∀ n y, t.dep n = some y → _
      rw [h2]; exact h.node
    · obtain ⟨c, u, v, m, w, hx, _⟩ := h3 x
      show (t.file x).head = x ∧ (t.file x).chain = [x] ∧ (t.file x).alsoMake = [] ∧ (t.file x).intermediate = false ∧ (t.file x).dcolon = false
      rw [hx]; exact h.plain x
    · obtain ⟨c, u, v, m, w, hx, _, hm, hm'⟩ := h3 x
      show (t.file x).mtime = 0 ∨ Val e G t0 (_ :: t.log) x (t.file x).mtime
      rw [h1, hx]
      simp only
      by_cases hxf : x = f
      · subst hxf
        rw [hm' rfl]
        by_cases hrun : (s.file x).cstate = .running ∧ ¬ (s.file x).phony = true
        · rw [if_pos hrun]
          have later : Later G t0 e.newMtime := by
            intro y
            have := hw.new.2 y
            have := hw.new.1
            unfold seenTime
            split <;> omega
          have hdone : ∃ u, UEvent.done x u ∈ UEvent.done x (endUStatus (s.file x).ustatus) :: s.log := ⟨_, List.mem_cons_self ..⟩
          unfold mtimeAfter
          split
          · rename_i hq
            split
            · exact .inl rfl
            · refine .inr (.inl ⟨hdone, later, .inr (fun hr => ?_)⟩)
              rw [hr.1, hr.2.1] at hq
              simp at hq
          · split
            · rename_i hq
              refine .inr (.inl ⟨hdone, later, ?_⟩)
              rcases hc hrun.1 with a | a
              · exact .inl (List.mem_cons_of_mem _ a)
              · rw [a] at hq; simp at hq
            · exact .inl rfl
        · rw [if_neg hrun]
          rcases h.mt x with a | a
          · exact .inl a
          · refine .inr ?_
            by_cases hst : UEvent.start x ∈ s.log
            · by_cases hu : endUStatus (s.file x).ustatus = .success
              · -- it was running, so it is phony
                have hp : (s.file x).phony = true := by
                  cases hp : (s.file x).phony with
                  | true => rfl
                  | false => exact absurd ⟨(hs hu).1 hst, by rw [hp]; simp⟩ hrun
                rw [h.mp x ((h.ph x).symm.trans hp)]
                exact .inr (.inr ⟨List.mem_cons_of_mem _ hst, .inr rfl⟩)
              · rcases a with a | a | a
                · exact .inl ⟨⟨_, List.mem_cons_self ..⟩, a.2.1, .inl (List.mem_cons_of_mem _ hst)⟩
                · exact absurd hst a.1
                · refine .inr (.inr ⟨List.mem_cons_of_mem _ hst, a.2.imp_left (fun b c => ?_)⟩)
                  rcases List.mem_cons.mp c with c | c
                  · exact hu (UEvent.done.inj c).2.symm
                  · exact b c
            · rcases a with a | a | a
              · exact .inl ⟨⟨_, List.mem_cons_self ..⟩, a.2.1, a.2.2.imp_left (List.mem_cons_of_mem _)⟩
              · exact .inr (.inl ⟨by simpa using hst, a.2⟩)
              · exact absurd a.1 hst
      · rw [hm hxf]
        refine (h.mt x).imp_right (fun a => a.congr (by simp) (fun u => ?_))
        simp [hxf]
    · obtain ⟨c, u, v, m, w, hx, _, hm, hm'⟩ := h3 x
      show (t.file x).mtime = 1
      rw [hx]
      simp only
      by_cases hxf : x = f
      · subst hxf
        rw [hm' rfl, if_neg (fun b => b.2 ((h.ph x).trans a))]
        exact h.mp x a
      · rw [hm hxf]; exact h.mp x a
  simp only [show ((s.setFile f fun x => { x with cstate := .finished, updated := true, mtime := if (s.file f).cstate = .running ∧ ¬ x.phony then mtimeAfter e x else x.mtime }).file f).dcolon = false from by
    simp only [UState.setFile, if_true]; exact (h.plain f).2.2.2.2, Bool.false_eq_true, if_false]
  have other : ∀ x, x ≠ f → (s.setFile f fun x => { x with cstate := .finished, updated := true, mtime := if (s.file f).cstate = .running ∧ ¬ x.phony then mtimeAfter e x else x.mtime }).file x = s.file x := by
    intro x hx
    simp [UState.setFile, hx]
  have self : (s.setFile f fun x => { x with cstate := .finished, updated := true, mtime := if (s.file f).cstate = .running ∧ ¬ x.phony then mtimeAfter e x else x.mtime }).file f = { s.file f with cstate := .finished, updated := true, mtime := if (s.file f).cstate = .running ∧ ¬ (s.file f).phony then mtimeAfter e (s.file f) else (s.file f).mtime } := by
    simp only [UState.setFile, if_true]
  have l1 : (s.setFile f fun x => { x with cstate := .finished, updated := true, mtime := if (s.file f).cstate = .running ∧ ¬ x.phony then mtimeAfter e x else x.mtime }).log = s.log := rfl
  have l2 : (s.setFile f fun x => { x with cstate := .finished, updated := true, mtime := if (s.file f).cstate = .running ∧ ¬ x.phony then mtimeAfter e x else x.mtime }).dep = s.dep := rfl
  generalize (s.setFile f fun x => { x with cstate := .finished, updated := true, mtime := if (s.file f).cstate = .running ∧ ¬ x.phony then mtimeAfter e x else x.mtime }) = t at *
  have ust : (t.file f).ustatus = (s.file f).ustatus := by rw [self]
  have also' : (t.file f).alsoMake = [] := by rw [self]; exact (h.plain f).2.2.1
  split
  · rename_i hc'
    rw [also']
    intro hl
    have heq : (t.file f).ustatus = endUStatus (s.file f).ustatus := by
      rw [ust, endUStatus_of_ne (by rw [← ust]; exact hc'.2)]
    rw [heq]
    refine key t l1 l2 (fun x => ?_)
    by_cases hx : x = f
    · subst hx
      exact ⟨_, _, _, _, _, self, rfl, fun a => absurd rfl a, fun _ => rfl⟩
    · exact ⟨_, _, _, _, _, other x hx, rfl, fun _ => rfl, fun a => absurd a hx⟩
  · intro hl
    have heq : ((t.setFile f fun x => if x.ustatus = .none then { x with ustatus := .success } else x).file f).ustatus = endUStatus (s.file f).ustatus := by
      simp only [UState.setFile, if_true]
      unfold endUStatus
      rw [← ust]
      split <;> rfl
    rw [heq]
    refine key _ l1 l2 (fun x => ?_)
    by_cases hx : x = f
    · subst hx
      refine ⟨.finished, true, endUStatus (s.file x).ustatus, (t.file x).mtime, (s.file x).phony, ?_, rfl, fun a => absurd rfl a, fun _ => by rw [self]⟩
      simp only [UState.setFile, if_true]
      unfold endUStatus
      rw [← ust]
      split
      · rw [self]
      · rw [self]
    · refine ⟨(s.file x).cstate, (s.file x).updated, (s.file x).ustatus, (s.file x).mtime, (s.file x).phony, ?_, rfl, fun _ => rfl, fun a => absurd a hx⟩
      simp only [UState.setFile, hx, if_false]
      exact other x hx

/-- The outcomes without a result. -/
def DueEnd (e : Env) (G : Graph) (t0 : Nat → Nat) (s : UState) : Prop := DueLog e G t0 s.log

theorem finishJob_due (f : Nat) (j : JobEnd) (s : UState) (h : Due e G t0 s)
    (hr : f ∈ s.running → UEvent.start f ∈ s.log ∧ (s.file f).cstate = .running) :
    wp (finishJob e f j) (fun _ s' => Due e G t0 s') (DueEnd e G t0) (fun _ => False) s := by
  unfold finishJob
  simp only [wp_bind, wp_modify, wp_get, wp_ite, wp_pure, wp_die]
  split
  · rename_i hf
    have hr := hr hf
    refine wp_of_T (notice_due hw f _ (Due.running (h.status f _) _) (fun _ => ⟨fun _ => ?_, fun _ => .inl hr.1⟩) (fun _ => .inl hr.1)) (fun _ s2 q => ?_)
    · simp only [UState.setFile, if_true]; exact hr.2
    · split
      · exact q.log
      · exact q
  · exact h

section
variable {S : Shape} {pre0 : Nat → List Nat} {P : Nat → Prop} {b : Nat}

theorem finishJobs_due (hpl : ∀ x, (s : UState) → Fits S s → (s.file x).alsoMake = []) (js : List (Nat × JobEnd)) (s : UState)
    (i0 : Fits S s) (i : Inv1 S pre0 P b s) (h : Due e G t0 s) :
    wp (finishJobs e js) (fun _ s' => Due e G t0 s') (DueEnd e G t0) (fun _ => False) s := by
  induction js generalizing s with
  | nil => exact h
  | cons p js ih =>
    obtain ⟨f, j⟩ := p
    rw [finishJobs, wp_bind]
    exact wp_mono (wp_and (finishJob_plain hpl f j s i0 i) (finishJob_due hw f j s h (fun a => ⟨i.runStart f a, (i.run f).mpr a⟩)))
      (fun _ s1 q1 => ih s1 q1.1.1 q1.1.2.inv q1.2) (fun _ q => q.2) (fun _ q => q.1)

theorem reapSome_due (hpl : ∀ x, (s : UState) → Fits S s → (s.file x).alsoMake = []) (s : UState)
    (i0 : Fits S s) (i : Inv1 S pre0 P b s) (h : Due e G t0 s) :
    wp (reapSome e) (fun _ s' => Due e G t0 s') (DueEnd e G t0) (fun _ => False) s := by
  unfold reapSome
  simp only [wp_bind, wp_modify, wp_get]
  have q := tick_quiet s (s.tick + 1)
  exact finishJobs_due hw hpl _ _ (q.calm.fits i0) (q.inv1 i) (h.tick _)

theorem reapBlock_due (hpl : ∀ x, (s : UState) → Fits S s → (s.file x).alsoMake = []) (s : UState)
    (i0 : Fits S s) (i : Inv1 S pre0 P b s) (h : Due e G t0 s) :
    wp (reapBlock e) (fun _ s' => Due e G t0 s') (DueEnd e G t0) (fun _ => False) s := by
  unfold reapBlock
  simp only [wp_bind, wp_get]
  refine wp_mono (wp_and (reapSome_plain hpl s i0 i) (reapSome_due hw hpl s i0 i h)) (fun _ s1 q1 => ?_) (fun _ q => q.2) (fun _ q => q.1)
  cases hr : s1.running with
  | nil => exact q1.2
  | cons f fs =>
    simp only [wp_ite, wp_pure]
    split
    · exact q1.2
    · exact finishJob_due hw f _ s1 q1.2 (fun a => ⟨q1.1.2.inv.runStart f a, (q1.1.2.inv.run f).mpr a⟩)

theorem noticeRun_due (f : Nat) (s : UState) (h : Due e G t0 s)
    (hs : HasRecipe G f → UEvent.start f ∈ s.log) (hc : UEvent.start f ∈ s.log ∨ (s.file f).cmds = true) :
    wpT (notice e f) (fun _ s' => Due e G t0 s') ((setCState s f .running).setFile f fun x => { x with ustatus := .success }) := by
  have k := (h.setCState f .running).status f .success
  have e1 := setCState_plain s f .running (h.plain f).2.2.1
  refine notice_due hw f _ k (fun _ => ⟨fun _ => ?_, fun a => .inl ?_⟩) (fun _ => ?_)
  · rw [e1]; simp [UState.setFile]
  · rw [e1]; exact hs a
  · rw [e1]
    refine hc.imp id (fun a => ?_)
    simp only [UState.setFile, if_true]; exact a

theorem newJob_due (hpl : ∀ x, (s : UState) → Fits S s → (s.file x).alsoMake = []) (f : Nat) (s : UState)
    (i0 : Fits S s) (i : Inv1 S pre0 P b s) (h : Due e G t0 s) (hu : (s.file f).updated = false) (hr : (s.file f).cstate ≠ .running)
    (ho : Really e → HasRecipe G f ∧ OutOfDate e G t0 (fun _ _ => False) f) :
    wp (newJob e f) (fun _ s' => Due e G t0 s') (DueEnd e G t0) (fun _ => False) s := by
  unfold newJob
  simp only [wp_bind, wp_modify, wp_get]
  refine wp_mono (wp_and (reapSome_plain hpl s i0 i) (reapSome_due hw hpl s i0 i h)) (fun _ s1 q1 => ?_) (fun _ q => q.2) (fun _ q => q.1)
  obtain ⟨⟨i01, q1⟩, d1⟩ := q1
  obtain ⟨o1, o2, o3⟩ := q1.other f (fun a => hr ((i.run f).mpr a))
  have hd : ∀ u, UEvent.done f u ∉ s1.log := fun u a => by
    have := (q1.inv.dn' f u a).1
    rw [o1, hu] at this; cases this
  have q2 : Due e G t0 { s1.note (.start f) with tick := s1.tick + 1 } := (d1.noteStart f hd ho).tick _
  have hst : UEvent.start f ∈ ({ s1.note (.start f) with tick := s1.tick + 1 } : UState).log := List.mem_cons_self ..
  generalize ({ s1.note (.start f) with tick := s1.tick + 1 } : UState) = t at *
  have e1 := setCState_plain t f .running (q2.plain f).2.2.1
  cases e.launch s1.tick f with
  | spawned =>
    simp only [wp_bind, wp_modify, wp_ite, wp_pure]
    have q3 : Due e G t0 { setCState t f .running with running := f :: t.running } := (q2.setCState f .running).running _
    split
    · refine finishJob_due hw f _ _ q3 (fun _ => ⟨?_, ?_⟩)
      · rw [e1]; exact hst
      · rw [e1]; simp [UState.setFile]
    · exact q3
  | nothing =>
    simp only [wp_bind, wp_modify]
    exact wp_of_T (noticeRun_due hw f t q2 (fun _ => hst) (.inl hst)) (fun _ _ q => q)
  | asked =>
    simp only [wp_ite, wp_bind, wp_modify]
    split
    · refine wp_of_T (notice_due hw f _ (q2.status f _) (fun a => ?_) (fun _ => .inl hst)) (fun _ _ q => q)
      simp [UState.setFile, endUStatus] at a
    · exact wp_of_T (noticeRun_due hw f t q2 (fun _ => hst) (.inl hst)) (fun _ _ q => q)

theorem remakeFile_due (hpl : ∀ x, (s : UState) → Fits S s → (s.file x).alsoMake = []) (f : Nat) (s : UState)
    (i0 : Fits S s) (i : Inv1 S pre0 P b s) (h : Due e G t0 s) (hu : (s.file f).updated = false) (hr : (s.file f).cstate ≠ .running)
    (hns : UEvent.start f ∉ s.log) (ho : Really e → OutOfDate e G t0 (fun _ _ => False) f) :
    wp (remakeFile e f) (fun _ s' => Due e G t0 s') (DueEnd e G t0) (fun _ => False) s := by
  unfold remakeFile
  simp only [wp_bind, wp_modify, wp_get, wp_ite, wp_die]
  split
  · rename_i hcm
    unfold executeCommands
    simp only [wp_bind, wp_modify, wp_get, wp_ite]
    split
    · rename_i hem
      refine wp_of_T (noticeRun_due hw f s h (fun a => ?_) (.inr hcm)) (fun _ _ q => q)
      rw [h.emp f, a.2] at hem; cases hem
    · rename_i hem
      exact newJob_due hw hpl f s i0 i h hu hr (fun a => ⟨⟨h.dflt a.2.2 f hcm, by rw [← h.emp f]; simpa using hem⟩, ho a⟩)
  · rename_i hcm
    have no : HasRecipe G f → False := fun a => hcm (h.own f a.1)
    have nr : ∀ st, ((s.setFile f fun x => { x with ustatus := st }).file f).cstate ≠ .running := fun st => by
      simp only [UState.setFile, if_true]; exact hr
    split
    · exact wp_of_T (notice_due hw f _ (h.status f _) (fun _ => ⟨fun a => absurd a hns, fun a => (no a).elim⟩) (fun a => absurd a (nr _))) (fun _ _ q => q)
    · split
      · exact h.log
      · exact wp_of_T (notice_due hw f _ (h.status f _) (fun _ => ⟨fun a => absurd a hns, fun a => (no a).elim⟩) (fun a => absurd a (nr _))) (fun _ _ q => q)

/-- A prerequisite that turns out to be missing or newer is a reason. -/
theorem reason_of {s : UState} (h : Due e G t0 s) {f p m : Nat} (hv : Val e G t0 s.log p m) (hp : (p, false) ∈ (G.rule f).prereqs)
    (hm : m = 1 ∨ seenTime G t0 f < m) (hr : Really e) : OutOfDate e G t0 (fun _ _ => False) f := by
  have started : UEvent.start p ∈ s.log → OutOfDate e G t0 (fun _ _ => False) f := fun a =>
    .after hp id (h.log.reason hr p a).1 (h.log.reason hr p a).2
  rcases hv with a | a | a
  · exact started (a.2.2.resolve_right (fun b => b hr))
  · by_cases hf : IsThere G t0 f
    · by_cases ht : IsThere G t0 p
      · have : m ≠ 1 := by rw [a.2]; exact seenTime_there.mpr ht
        have hm := hm.resolve_left this
        rw [a.2] at hm
        refine .newer hp id ?_
        unfold seenTime at hm
        rw [hf.1, ht.1] at hm
        simp only [Bool.false_eq_true, if_false] at hm
        have := hf.2
        have := ht.2
        omega
      · exact .absent hp id ht
    · exact .missing hf
  · exact started a.1

theorem noReason_of {s : UState} {f p m : Nat} (hv : Val e G t0 s.log p m) (hd : UEvent.done p .success ∈ s.log)
    (h1 : m ≠ 1) (h2 : ¬ seenTime G t0 f < m) : NoReason G t0 s.log f p := by
  rcases hv with a | a | a
  · exact absurd (a.2.1 f) h2
  · refine ⟨hd, a.1, ?_, ?_⟩ <;> rw [← a.2]
    · exact h1
    · omega
  · rcases a.2 with b | b
    · exact absurd hd b
    · exact absurd b h1

variable (goals : List Nat)

theorem recordChanged_due (hG : G.Plain) (noexist : Bool) (thisM n f : Nat) (d : Option Nat) (must changed : Bool) (s : UState)
    (i0 : Fits (G.shape goals) s) (h : Due e G t0 s) (hd : ∀ k, d = some k → k / G.width = f) :
    wp (recordChanged e noexist thisM n d must changed) (fun r s' => Due e G t0 s' ∧ (r.1 = false → must = false) ∧
      (Really e → r.1 = true → must = true ∨ OutOfDate e G t0 (fun _ _ => False) f)) (DueEnd e G t0) (DueEnd e G t0) s := by
  induction n generalizing d must changed s with
  | zero =>
    cases d with
    | none => exact ⟨h, id, fun _ => .inl⟩
    | some d => exact h.log
  | succ n ih =>
    cases d with
    | none => exact ⟨h, id, fun _ => .inl⟩
    | some d =>
      rw [recordChanged]
      simp only [wp_bind, wp_readDep]
      cases hx : s.dep d with
      | none => exact h.log
      | some x =>
        simp only
        refine wp_mono (wp_and (wp_of_T (E := fun _ => False) (F := fun _ => False) (fileMtime_quiet x.file s) (fun _ _ q => q)) (fileMtime_due hw x.file s h))
          (fun m s1 q1 => ?_) (fun _ q => q.1.elim) (fun _ q => q.1.elim)
        obtain ⟨q1, d1, v1⟩ := q1
        rw [wp_get]
        have hl := q1.calm.dep d
        rw [hx] at hl
        cases hy : s1.dep d with
        | none => rw [hy] at hl; simp at hl
        | some y =>
          rw [hy] at hl
          simp only [Option.map_some, Option.some.injEq] at hl
          have nx := h.node d x hx
          have ny := d1.node d y hy
          rw [nx] at ny
          simp only [Option.some.injEq, Prod.mk.injEq] at ny
          have w := writeDep_quiet d { x with changed := x.changed || noexist || decide (thisM < m) } s1 y hy hl.symm
          unfold wpT writeDep at w
          unfold writeDep
          rw [wp_modify] at w ⊢
          have fits := w.calm.fits (q1.calm.fits i0)
          have own : ∀ k, x.next = some k → k / G.width = f := fun k a => by
            have := ((i0.node d x hx).2 k a).1
            simp only [Graph.shape, hG.grp] at this
            rw [this]; exact hd d rfl
          refine wp_mono (ih _ _ _ _ fits (d1.writeDep d y _ hy ny.1 ny.2) own) (fun r s2 q2 => ⟨q2.1, fun a => ?_, fun a c => ?_⟩) (fun _ q => q) (fun _ q => q)
          · have := q2.2.1 a
            rw [Bool.or_eq_false_iff] at this
            exact this.1
          · rcases q2.2.2 a c with b | b
            · rw [Bool.or_eq_true] at b
              rcases b with b | b
              · exact .inl b
              · simp only [Bool.and_eq_true, Bool.not_eq_true', decide_eq_true_eq] at b
                refine .inr (reason_of hw d1 v1 ?_ (.inl b.1.2) a)
                rw [b.1.1, hd d rfl] at nx
                exact List.mem_of_getElem? nx
            · exact .inr b

theorem decideFile_due (hG : G.Plain) (n f : Nat) (sc : Scan) (s : UState)
    (i0 : Inv0 (G.shape goals) s) (i : Inv1 (G.shape goals) pre0 P b s) (h : Due e G t0 s) (hu : (s.file f).updated = false)
    (hr : (s.file f).cstate ≠ .running) (hns : UEvent.start f ∉ s.log) (h1 : seenTime G t0 f = 1 → sc.must = true)
    (hok : sc.status = .success → sc.must = false → NoneIsReason G t0 s.log f)
    (hwhy : Really e → sc.must = true → OutOfDate e G t0 (fun _ _ => False) f) :
    wp (decideFile e n f (seenTime G t0 f) sc) (fun _ s' => Due e G t0 s') (DueEnd e G t0) (DueEnd e G t0) s := by
  have hpl : ∀ x, (s : UState) → Fits (G.shape goals) s → (s.file x).alsoMake = [] := fun x s i => (i.also x).trans (hG.shape goals |>.also x)
  unfold decideFile
  simp only [wp_bind, wp_modify, wp_get, wp_ite, wp_pure]
  split
  · rename_i hne
    refine wp_of_T (notice_due hw f _ (h.status f _) (fun a => ?_) (fun a => ?_)) (fun _ _ q => q)
    · simp only [UState.setFile, if_true] at a
      exfalso
      revert a
      unfold endUStatus
      split
      · simp
      · exact hne
    · simp only [UState.setFile, if_true] at a
      exact absurd a hr
  · rename_i hsucc
    have hsucc : sc.status = .success := by simpa using hsucc
    have tail : ∀ s : UState, Fits (G.shape goals) s → Inv1 (G.shape goals) pre0 (fun x => P x ∨ x = f) b s → Due e G t0 s → (s.file f).updated = false →
        (s.file f).cstate ≠ .running → UEvent.start f ∉ s.log → (sc.must = false → NoneIsReason G t0 s.log f) →
        wp (recordChanged e (decide (seenTime G t0 f = 1)) (seenTime G t0 f) n (s.file f).deps sc.must false)
        (fun r s => if mustRemake e (s.file f) (decide (seenTime G t0 f = 1)) r.1 r.2 = true then
          wp (remakeFile e f) (fun _ s => if (s.file f).cstate = .finished then
            Due e G t0 (s.setFile f fun x => { x with updated := true }) else Due e G t0 s) (DueEnd e G t0) (DueEnd e G t0) s
        else wp (notice e f) (fun _ s => Due e G t0 s) (DueEnd e G t0) (DueEnd e G t0) s) (DueEnd e G t0) (DueEnd e G t0) s := by
      intro s i0 i h hu hr hns hok
      refine wp_mono (wp_and (recordChanged_quiet (e := e) (decide (seenTime G t0 f = 1)) (seenTime G t0 f) n (s.file f).deps sc.must false s)
        (recordChanged_due hw goals hG _ _ _ f _ _ _ s i0 h (fun k a => ?_))) (fun r s1 q1 => ?_) (fun _ q => q.2) (fun _ q => q.2)
      · have := (i0.deps f k a).1
        simp only [Graph.shape, hG.grp] at this
        exact this
      · obtain ⟨q, d1, m1, m2⟩ := q1
        have i01 := q.calm.fits i0
        have i1 := q.inv1 i
        have hu1 : (s1.file f).updated = false := (q.same f).1.trans hu
        have hr1 : (s1.file f).cstate ≠ .running := by rw [(q.same f).2.1]; exact hr
        have hns1 : UEvent.start f ∉ s1.log := by rw [q.log]; exact hns
        split
        · rename_i hm
          refine wp_mono (remakeFile_due hw hpl f s1 i01 i1 d1 hu1 hr1 hns1 (fun a => ?_)) (fun _ s2 q2 => ?_) (fun _ q => q) (fun _ q => q.elim)
          · unfold mustRemake at hm
            rw [(d1.plain f).2.2.2.2] at hm
            simp only [Bool.false_and, Bool.false_eq_true, if_false] at hm
            split at hm
            · cases hm
            · split at hm
              · rename_i hal
                simp only [Bool.and_eq_true] at hal
                exact .always hal.2
              · rcases m2 a hm with c | c
                · exact hwhy a c
                · exact c
          · split
            · exact q2.setFile f _ (fun y => ⟨rfl, id, fun _ => id, rfl, rfl, rfl, rfl, id, rfl⟩) (.inl rfl)
            · exact q2
        · rename_i hm
          refine wp_of_T (notice_due hw f s1 d1 (fun _ => ⟨fun a => absurd a hns1, fun a => .inr ?_⟩) (fun a => absurd a hr1)) (fun _ _ q => q)
          have hcm := d1.own f a.1
          unfold mustRemake at hm
          rw [(d1.plain f).2.2.2.2, hcm] at hm
          simp only [Bool.false_and, Bool.false_eq_true, if_false, Bool.not_true, Bool.and_false, Bool.false_and, Bool.and_true] at hm
          have hr1f : r.1 = false := by
            cases hr1 : r.1 with
            | false => rfl
            | true => rw [hr1] at hm; simp at hm
          rw [hr1f] at hm
          have hal : e.alwaysMake = false := by
            cases hal : e.alwaysMake with
            | false => rfl
            | true => rw [hal] at hm; simp at hm
          have hmf := m1 hr1f
          refine ⟨hal, fun c => ?_, by rw [q.log]; exact hok hmf⟩
          rw [h1 c] at hmf; cases hmf
    have hmem : f ∉ s.running := fun a => hr ((i.run f).mpr a)
    split
    · have w := waiting_inv1 (c := .notStarted) (by simp) (i.mono (P' := fun x => P x ∨ x = f) (fun _ => .inl)) hu hmem
      have d := h.setCState f .notStarted
      have fi := (setCState_inv f (c := .notStarted) (by simp) i0 hns).fits
      have e1 := setCState_plain s f .notStarted (h.plain f).2.2.1
      rw [e1] at d fi ⊢
      exact tail _ fi w.1 d (by simp [UState.setFile, hu]) (by simp [UState.setFile]) hns (hok hsucc)
    · exact tail s i0.fits (i.mono (fun _ => .inl)) h hu hr hns (hok hsucc)

theorem lastResort_due (f : Nat) (s : UState) (h : Due e G t0 s) : wpT (lastResort e f) (fun _ s' => Due e G t0 s') s := by
  unfold lastResort wpT
  rw [wp_modify]
  refine h.setFile f _ (fun y => ?_) ?_
  · simp only
    split <;> split <;> first
      | exact ⟨rfl, id, fun _ => id, rfl, rfl, rfl, rfl, id, rfl⟩
      | (rename_i hh; refine ⟨rfl, fun _ => rfl, fun a => ?_, rfl, rfl, rfl, rfl, id, rfl⟩; rw [a] at hh; exact absurd hh.2.2 (by simp))
  · left
    simp only
    split <;> split <;> rfl

theorem unlink_due (f : Nat) (last next : Option Nat) (s : UState) (h : Due e G t0 s) :
    wp (unlink f last next) (fun _ s' => Due e G t0 s') (DueEnd e G t0) (DueEnd e G t0) s := by
  unfold unlink
  cases last with
  | none =>
    simp only [wp_modify]
    exact h.setFile f _ (fun y => ⟨rfl, id, fun _ => id, rfl, rfl, rfl, rfl, id, rfl⟩) (.inl rfl)
  | some l =>
    simp only [wp_bind, wp_readDep]
    cases hx : s.dep l with
    | none => exact h.log
    | some y =>
      unfold writeDep
      simp only [wp_modify]
      exact h.writeDep l y _ hx rfl rfl

end

end Remake
