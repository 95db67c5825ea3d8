import Verif.Update.Due
import Verif.Update.Goals
/-!
# Updating targets: what is out of date is remade (the induction)
-/
namespace Remake
set_option linter.unusedVariables false
set_option linter.unusedSimpArgs false
set_option linter.unusedSectionVars false
open Spec

variable {e : Env} {G : Graph} {t0 : Nat → Nat} (hw : Renews e t0)
include hw

/-- What the loop over the prerequisites of `f` has found. -/
structure FoundDue (e : Env) (G : Graph) (t0 : Nat → Nat) (f : Nat) (sc sc' : Scan) (s : UState) : Prop where
  due : Due e G t0 s
  none : sc'.status = .success → sc'.running = false → sc'.must = false → NoneIsReason G t0 s.log f
  why : Really e → sc'.must = true → OutOfDate e G t0 (fun _ _ => False) f
  mono : sc.must = true → sc'.must = true

omit hw in
theorem scanEnd_due {goals pre0 P b f sc s l0} (hG : G.Plain) (i : Inv1 (G.shape goals) pre0 P b s) (h : Due e G t0 s)
    (hseg : Stretch s.dep (s.file f).deps l0 none)
    (hok : sc.status = .success → sc.running = false → sc.must = false →
      ∀ q ∈ l0, (G.rule f).prereqs[q.1 % G.width]? = some (q.2, false) → NoReason G t0 s.log f q.2)
    (hwhy : Really e → sc.must = true → OutOfDate e G t0 (fun _ _ => False) f) : FoundDue e G t0 f sc sc s := by
  refine ⟨h, fun h1 h2 h3 p hp => ?_, hwhy, id⟩
  obtain ⟨j, hj, hjp⟩ := List.mem_iff_getElem.mp hp
  have hj' : (G.rule f).prereqs[j]? = some (p, false) := by rw [List.getElem?_eq_getElem hj, hjp]
  obtain ⟨l, hl, _, hq⟩ := i.lists f
  rw [Stretch.unique hl hseg] at hq
  refine (hq (f * G.width + j, p) ⟨j, (p, false), hj', rfl⟩).imp_right (fun a => ?_)
  refine hok h1 h2 h3 _ a ?_
  have hwd := G.width_lt f
  have : (f * G.width + j) % G.width = j := by
    rw [Nat.mul_comm, Nat.mul_add_mod, Nat.mod_eq_of_lt (by omega)]
  simp only [this]
  exact hj'

theorem run_due (hG : G.Plain) (goals : List Nat) (pre0 : Nat → List Nat) (b : Nat) : ∀ n,
    (∀ f (P : Nat → Prop) s, Inv0 (G.shape goals) s → Stk (G.shape goals) s f → Inv1 (G.shape goals) pre0 P b s → f < (G.shape goals).N → (∀ x, P x → (s.file x).updating = true) → ¬ P f →
      Due e G t0 s → wp (updateFile e n f) (fun _ s' => Due e G t0 s') (DueEnd e G t0) (DueEnd e G t0) s) ∧
    (∀ f (P : Nat → Prop) s, Inv0 (G.shape goals) s → Stk (G.shape goals) s f → Inv1 (G.shape goals) pre0 P b s → f < (G.shape goals).N → (∀ x, P x → (s.file x).updating = true) → ¬ P f →
      Due e G t0 s → wp (updateEntries e n [f] .success) (fun _ s' => Due e G t0 s') (DueEnd e G t0) (DueEnd e G t0) s) ∧
    (∀ f (P : Nat → Prop) s, Inv0 (G.shape goals) s → Stk (G.shape goals) s f → Inv1 (G.shape goals) pre0 (fun x => P x ∨ x = f) b s → f < (G.shape goals).N → (∀ x, P x → (s.file x).updating = true) → ¬ P f →
      (s.file f).considered = s.considered →
      Due e G t0 s → wp (updateFile1 e n f) (fun _ s' => Due e G t0 s') (DueEnd e G t0) (DueEnd e G t0) s) ∧
    (∀ f (P : Nat → Prop) sc s, Inv0 (G.shape goals) s → Stk (G.shape goals) s f → (s.file f).updating = true → Inv1 (G.shape goals) pre0 (fun x => P x ∨ x = f) b s → f < (G.shape goals).N →
      (∀ x, P x → (s.file x).updating = true) → (s.file f).updated = false → (s.file f).cstate ≠ .running →
      sc.running = false → Due e G t0 s → (Really e → sc.must = true → OutOfDate e G t0 (fun _ _ => False) f) →
      wp (scanLists e n f (seenTime G t0 f) [f] sc) (fun sc' s' => FoundDue e G t0 f sc sc' s') (DueEnd e G t0) (DueEnd e G t0) s) ∧
    (∀ f (P : Nat → Prop) last d sc s l0, (∀ m, d = some m → (G.shape goals).own m = (G.shape goals).grp f ∧ m < (G.shape goals).D) →
      (∀ l, last = some l → (G.shape goals).own l = (G.shape goals).grp f ∧ ∀ m, d = some m → l < m) →
      Inv0 (G.shape goals) s → Stk (G.shape goals) s f → (s.file f).updating = true → Inv1 (G.shape goals) pre0 (fun x => P x ∨ x = f) b s → f < (G.shape goals).N →
      (∀ x, P x → (s.file x).updating = true) → (s.file f).updated = false → (s.file f).cstate ≠ .running →
      Stretch s.dep (s.file f).deps l0 d → last = (l0.map Prod.fst).getLast? → (sc.running = true → s.count ≠ b) →
      (sc.status = .success → sc.running = false → ∀ y ∈ l0.map Prod.snd, UEvent.done y .success ∈ s.log) →
      Due e G t0 s →
      (sc.status = .success → sc.running = false → sc.must = false →
        ∀ q ∈ l0, (G.rule f).prereqs[q.1 % G.width]? = some (q.2, false) → NoReason G t0 s.log f q.2) →
      (Really e → sc.must = true → OutOfDate e G t0 (fun _ _ => False) f) →
      wp (scanDeps e n f (seenTime G t0 f) last d sc) (fun sc' s' => FoundDue e G t0 f sc sc' s') (DueEnd e G t0) (DueEnd e G t0) s) ∧
    (∀ f (P : Nat → Prop) thisM must s, Inv0 (G.shape goals) s → Stk (G.shape goals) s f → (s.file f).updating = false → Inv1 (G.shape goals) pre0 P b s → f < (G.shape goals).N →
      (∀ x, P x → (s.file x).updating = true) → Due e G t0 s →
      wp (checkDep e n f thisM must) (fun r s' => Due e G t0 s' ∧ ∃ m, Val e G t0 s'.log f m ∧ r.2 = (must || decide (m = 1) || decide (thisM < m)))
      (DueEnd e G t0) (DueEnd e G t0) s) := by
  have ok := G.shape_ok goals
  have pl := Graph.Plain.shape hG goals
  have hpl : ∀ x, (s : UState) → Fits (G.shape goals) s → (s.file x).alsoMake = [] := fun x s i => (i.also x).trans (pl.also x)
  have hown' : ∀ m f, (G.shape goals).own m = (G.shape goals).grp f → m / G.width = f := fun m f a => by
    simp only [Graph.shape, hG.grp] at a
    exact a
  generalize hS : G.shape goals = S at *
  intro n
  induction n with
  | zero =>
    refine ⟨fun f P s i0 k i hN hP hn hdu => ?_, fun f P s i0 k i hN hP hn hdu => ?_, fun f P s i0 k i hN hP hn hc hdu => ?_,
      fun f P sc s i0 k hf i hN hP hu hr hsc hdu hwhy => ?_,
      fun f P last d sc s l0 hd hl i0 k hf i hN hP hu hr hseg hlast hb hset hdu hok hwhy => ?_, fun f P thisM must s i0 k hf i hN hP hdu => ?_⟩
    · rw [updateFile]; exact hdu.log
    · rw [updateEntries]; exact hdu.log
    · rw [updateFile1]; exact hdu.log
    · rw [scanLists]; exact hdu.log
    · cases d with
      | none =>
        rw [scanDeps]
        exact scanEnd_due hG (hS ▸ i) hdu hseg hok hwhy
      | some d => rw [scanDeps]; exact hdu.log
    · rw [checkDep]; exact hdu.log
  | succ n ih =>
    obtain ⟨jF, jE, jF1, jL, jD, jC⟩ := run_inv (e := e) ok n
    obtain ⟨kF, kE, kF1, kL, kD, kC⟩ := run_plain (e := e) ok pl pre0 b n
    obtain ⟨ihF, ihE, ihF1, ihL, ihD, ihC⟩ := ih
    refine ⟨fun f P s i0 k i hN hP hn hdu => ?_, fun f P s i0 k i hN hP hn hdu => ?_, fun f P s i0 k i hN hP hn hc hdu => ?_,
      fun f P sc s i0 k hf i hN hP hu hr hsc hdu hwhy => ?_,
      fun f P last d sc s l0 hd hl i0 k hf i hN hP hu hr hseg hlast hb hset hdu hok hwhy => ?_, fun f P thisM must s i0 k hf i hN hP hdu => ?_⟩
    · -- updateFile
      rw [updateFile]
      simp only [wp_bind, wp_get, wp_ite, wp_pure]
      rw [i0.fits.head, pl.head]
      split
      · exact hdu
      · rw [i0.fits.chain, pl.chain]
        exact ihE f P s i0 k i hN hP hn hdu
    · -- updateEntries
      rw [updateEntries]
      simp only [wp_bind, wp_modify, wp_get, wp_ite, wp_pure]
      obtain ⟨i1, r1, c1⟩ := consider_inv1 f i
      have i01 : Inv0 S (s.setFile f fun y => { y with considered := s.considered }) ∧
          (∀ y, ((s.setFile f fun y => { y with considered := s.considered }).file y).updating = (s.file y).updating) := by
        have key : ∀ y, ∃ c, (s.setFile f fun y => { y with considered := s.considered }).file y = { s.file y with considered := c } := by
          intro y
          by_cases hy : y = f
          · exact ⟨s.considered, by simp [UState.setFile, hy]⟩
          · exact ⟨(s.file y).considered, by simp [UState.setFile, hy]⟩
        constructor
        · refine ⟨⟨fun y => ?_, fun y => ?_, fun y => ?_, fun y => ?_, fun y n a => ?_, i0.fits.node⟩,
            ⟨i0.log.once, i0.log.drops⟩, fun y a => ?_⟩ <;> obtain ⟨c, hc⟩ := key y
          · rw [hc]; exact i0.fits.head y
          · rw [hc]; exact i0.fits.chain y
          · rw [hc]; exact i0.fits.also y
          · rw [hc]; exact i0.fits.inter y
          · rw [hc] at a; exact i0.fits.deps y n a
          · rw [hc]; exact i0.started y a
        · intro y
          obtain ⟨c, hc⟩ := key y
          rw [hc]
      obtain ⟨i01, fl⟩ := i01
      have cc : (s.setFile f fun y => { y with considered := s.considered }).considered = s.considered := rfl
      have d1 : Due e G t0 (s.setFile f fun y => { y with considered := s.considered }) :=
        hdu.setFile f _ (fun y => ⟨rfl, id, fun _ => id, rfl, rfl, rfl, rfl, id, rfl⟩) (.inl rfl)
      generalize (s.setFile f fun y => { y with considered := s.considered }) = s1 at *
      have k1 : Stk S s1 f := fun h hh => k h (by rw [← fl h]; exact hh)
      refine wp_mono (ihF1 f P s1 i01 k1 i1 hN (fun x hx => (fl x).trans (hP x hx)) hn (c1.trans cc.symm) d1)
        (fun new s2 q => ?_) (fun _ q => q) (fun _ q => q)
      split
      · exact q
      · split
        · exact q
        · have : wp (updateEntries e n [] (UStatus.success.max new)) (fun _ s' => Due e G t0 s') (DueEnd e G t0) (DueEnd e G t0) s2 := by
            cases n <;> rw [updateEntries] <;> exact q
          exact this
    · -- updateFile1
      rw [updateFile1]
      simp only [wp_bind, wp_get, wp_ite, wp_pure]
      split
      · exact hdu
      · rename_i hup
        have hup' : (s.file f).updated = false := by simpa using hup
        split
        · exact hdu
        · rename_i hrun
          split
          · exact hdu
          · rw [setUpdating_wp true f _ _ _ s i0.fits, pl.head]
            have i01 := setFlag_inv i0 f true
            obtain ⟨i1, r1⟩ := flag_inv1 f true i
            have k1 := k.flagged true
            rw [pl.head] at k1
            have f1 := flag_self s f true
            have o1 : ∀ y, y ≠ f → ((s.setFile f fun x => { x with updating := true }).file y).updating = (s.file y).updating :=
              fun y hy => flag_other s f true y hy
            have u1 : ((s.setFile f fun x => { x with updating := true }).file f).updated = (s.file f).updated := flag_updated s f true f
            have s1c : ((s.setFile f fun x => { x with updating := true }).file f).cstate = (s.file f).cstate := by simp [UState.setFile]
            have d1 := hdu.flag f true
            generalize (s.setFile f fun x => { x with updating := true }) = s1 at *
            refine wp_mono (wp_and (wp_of_T (E := fun _ => False) (F := fun _ => False) (fileMtime_quiet f s1) (fun _ _ q => q)) (fileMtime_due hw f s1 d1))
              (fun thisM s2 q2 => ?_) (fun _ q => q.1.elim) (fun _ q => q.1.elim)
            obtain ⟨q2, d2, v2⟩ := q2
            refine wp_mono (wp_and (wp_of_T (E := fun _ => False) (F := fun _ => False) (lastResort_quiet f s2) (fun _ _ q => q)) (lastResort_due hw f s2 d2))
              (fun _ s3 q3 => ?_) (fun _ q => q.1.elim) (fun _ q => q.1.elim)
            obtain ⟨q3, d3⟩ := q3
            have q13 := q2.trans q3
            have i03 := q13.calm.inv i01
            have i3 := q13.inv1 i1
            have r13 : Rel S (fun _ => False) s1 s3 := q13.calm.rel
            have f3 : (s3.file f).updating = true := (r13.flag _ (fun h => h)).trans f1
            have k3 : Stk S s3 f := k1.rel (r13.weaken (fun _ h => h.elim))
            have hP1 : ∀ x, P x → (s1.file x).updating = true := fun x hx => by
              rw [o1 x (fun h => hn (by rw [← h]; exact hx))]; exact hP x hx
            rw [i03.fits.also, pl.also]
            have hu3 : (s3.file f).updated = false := (q13.same f).1.trans (u1.trans hup')
            have hr3 : (s3.file f).cstate ≠ .running := by rw [(q13.same f).2.1, s1c]; exact hrun
            have f3' : (s3.file (S.head f)).updating = true := by rw [pl.head]; exact f3
            have nost : ∀ s, Inv0 S s → (s.file f).updated = false → (s.file f).cstate ≠ .running → UEvent.start f ∉ s.log := fun s i a b c => by
              rcases i.started f c with c | c
              · rw [a] at c; cases c
              · exact b c
            have hthis : thisM = seenTime G t0 f := by
              have h1 := nost s3 i03 hu3 hr3
              rw [q3.log] at h1
              rcases v2 with a | a | a
              · obtain ⟨u, hu⟩ := a.1
                rw [← q3.log] at hu
                rw [(i3.dn' f u hu).1] at hu3; cases hu3
              · exact a.2
              · exact absurd a.1 h1
            subst hthis
            have hwhy : Really e → decide (seenTime G t0 f = 1) = true → OutOfDate e G t0 (fun _ _ => False) f := fun _ a =>
              .missing (fun c => seenTime_there.mpr c (of_decide_eq_true a))
            refine wp_mono (wp_and (kL f P (seenTime G t0 f) { must := decide (seenTime G t0 f = 1) } s3 i03 k3 f3 i3 hN (fun x hx => (r13.flag x (fun h => h)).trans (hP1 x hx)) hu3 hr3 rfl)
              (wp_and (jL f (seenTime G t0 f) [f] { must := decide (seenTime G t0 f = 1) } s3 (fun g hg => by simp at hg; rw [hg]) i03 k3 f3')
                (ihL f P { must := decide (seenTime G t0 f = 1) } s3 i03 k3 f3 i3 hN (fun x hx => (r13.flag x (fun h => h)).trans (hP1 x hx)) hu3 hr3 rfl d3 hwhy)))
              (fun sc s4 q4 => ?_) (fun _ q => q.2.2) (fun _ q => q.2.2)
            obtain ⟨⟨fo, r4⟩, ⟨i04, r04⟩, fd⟩ := q4
            have rest : wp (do
                  setUpdating false f
                  if sc.running then do
                    UM.modify fun s => setCState s f .depsRunning
                    pure UStatus.success
                  else decideFile e n f (seenTime G t0 f) sc) (fun st s' => Due e G t0 s') (DueEnd e G t0) (DueEnd e G t0) s4 := by
              rw [wp_bind, setUpdating_wp false f _ _ _ s4 i04.fits, pl.head]
              have i05 := setFlag_inv i04 f false
              obtain ⟨i5, r5⟩ := flag_inv1 f false fo.inv
              have u5 : ((s4.setFile f fun x => { x with updating := false }).file f).updated = (s4.file f).updated := flag_updated s4 f false f
              have c5 : ((s4.setFile f fun x => { x with updating := false }).file f).cstate = (s4.file f).cstate := by simp [UState.setFile]
              have l5 : (s4.setFile f fun x => { x with updating := false }).log = s4.log := rfl
              have d5 := fd.due.flag f false
              generalize (s4.setFile f fun x => { x with updating := false }) = s5 at *
              have hu5 : (s5.file f).updated = false := u5.trans fo.upd
              have hr5 : (s5.file f).cstate ≠ .running := by rw [c5]; exact fo.run
              simp only [wp_bind, wp_modify, wp_ite, wp_pure]
              split
              · exact d5.setCState f _
              · rename_i hb
                have hb : sc.running = false := by simpa using hb
                have n5 := nost s5 i05 hu5 hr5
                subst hS
                exact decideFile_due hw goals hG n f sc s5 i05 i5 d5 hu5 hr5 n5
                  (fun a => fd.mono (by simpa using a)) (fun a c => by rw [l5]; exact fd.none a hb c) fd.why
            simp only [wp_bind, wp_ite, wp_pure] at rest
            split
            · refine wp_mono (updateIntermediates_none n f _ sc s4 i04.fits (fun m hm => (i04.fits.deps f m hm).2))
                (fun sc' s' q => ?_) (fun _ q => by rw [q]; exact fd.due.log) (fun s' q => by rw [q.1]; exact fd.due.log)
              obtain ⟨rfl, rfl⟩ := q
              exact rest
            · exact rest
    · -- scanLists
      rw [scanLists]
      simp only [wp_bind, wp_get]
      refine wp_mono (ihD f P none _ sc s [] (fun m hm => i0.fits.deps f m hm) (fun l h => by cases h) i0 k hf i hN hP hu hr
        (.nil _) rfl (fun h => by rw [hsc] at h; cases h) (fun _ _ y hy => by cases hy) hdu (fun _ _ _ q hq => by cases hq) hwhy)
        (fun sc' s2 q => ?_) (fun _ q => q) (fun _ q => q)
      cases n <;> rw [scanLists] <;> exact q
    · -- scanDeps
      cases d with
      | none =>
        rw [scanDeps]
        exact scanEnd_due hG (hS ▸ i) hdu hseg hok hwhy
      | some d =>
        rw [scanDeps]
        simp only [wp_bind, wp_readDep]
        have hdd := hd d rfl
        cases hx : s.dep d with
        | none => exact hdu.log
        | some x =>
          simp only
          refine wp_mono (wp_and (wp_of_T (E := fun _ => False) (F := fun _ => False) (fileMtime_quiet x.file s) (fun _ _ q => q)) (fileMtime_due hw x.file s hdu))
              (fun mtime s1 q1 => ?_) (fun _ q => q.1.elim) (fun _ q => q.1.elim)
          obtain ⟨q1, du1, _⟩ := q1
          have i01 := q1.calm.inv i0
          have i1 := q1.inv1 i
          have r01 : Rel S (fun _ => False) s s1 := q1.calm.rel
          have k1 := k.rel (r01.weaken (fun _ h => h.elim))
          have hf1 := (r01.flag f (fun h => h)).trans hf
          have nd := i0.fits.node d x hx
          have edge : S.edge (S.grp f) x.file := by rw [← hdd.1]; exact nd.1
          have hnx : ∀ m, x.next = some m → S.own m = S.grp f ∧ m < S.D := fun m hm =>
            ⟨(nd.2 m hm).1.trans hdd.1, (nd.2 m hm).2.2⟩
          have hP1 : ∀ y, P y → (s1.file y).updating = true := fun y hy => (r01.flag y (fun h => h)).trans (hP y hy)
          have hu1 : (s1.file f).updated = false := (q1.same f).1.trans hu
          have hr1 : (s1.file f).cstate ≠ .running := by rw [(q1.same f).2.1]; exact hr
          have hseg1 : Stretch s1.dep (s1.file f).deps l0 (some d) := by
            rw [still_deps (q1.calm.still f)]; exact hseg.congr (fun n _ => q1.calm.dep n)
          have hb1 : sc.running = true → s1.count ≠ b := fun h => by
            have := hb h; unfold UState.count at this ⊢; rw [q1.log]; exact this
          have hset1 : sc.status = .success → sc.running = false → ∀ y ∈ l0.map Prod.snd, UEvent.done y .success ∈ s1.log := by
            rw [q1.log]; exact hset
          have hok1 : sc.status = .success → sc.running = false → sc.must = false →
              ∀ q ∈ l0, (G.rule f).prereqs[q.1 % G.width]? = some (q.2, false) → NoReason G t0 s1.log f q.2 := by
            rw [q1.log]; exact hok
          obtain ⟨y1, hy1, hlk1⟩ : ∃ y1, s1.dep d = some y1 ∧ y1.link = x.link := by
            have := q1.calm.dep d
            rw [hx] at this
            cases hy : s1.dep d with
            | none => rw [hy] at this; simp at this
            | some y => rw [hy] at this; simp at this; exact ⟨y, rfl, this⟩
          simp only [UDep.link, Prod.mk.injEq] at hlk1
          simp only [wp_get, wp_ite, isUpdating, i01.fits.head, pl.head]
          have hlx : ∀ l, last = some l → S.own l = S.grp f ∧ ∀ m, x.next = some m → l < m := by
            intro l hl'
            refine ⟨(hl l hl').1, fun m hm => ?_⟩
            have := (hl l hl').2 d rfl
            have := (nd.2 m hm).2.1
            omega
          split
          · rename_i hup
            have hup' : (s1.file (S.head x.file)).updating = true := by rw [pl.head]; exact hup
            have reach := k1 _ hup'
            have i02 : Inv0 S (s1.note (.dropped f x.file)) := by
              refine ⟨⟨i01.fits.head, i01.fits.chain, i01.fits.also, i01.fits.inter, i01.fits.deps, i01.fits.node⟩,
                ⟨i01.log.once, fun a c h => ?_⟩, fun y h => ?_⟩
              · have : UEvent.dropped a c ∈ UEvent.dropped f x.file :: s1.log := h
                rcases List.mem_cons.mp this with h | h
                · cases h; exact ⟨by rw [pl.grp, ← pl.grp f, ← hdd.1]; exact nd.1, reach⟩
                · exact i01.log.drops a c h
              · have : UEvent.start y ∈ UEvent.dropped f x.file :: s1.log := h
                rcases List.mem_cons.mp this with h | h
                · cases h
                · exact i01.started y h
            have w1 := drop_inv1 (S := S) (pre0 := pre0) (b := b) (Q := fun x => P x ∨ x = f) (last := last) pl i01.fits i1 hf1 hy1 hseg1 hlast
            rw [hlk1.1, hlk1.2, wp_bind, wp_modify] at w1
            simp only [wp_bind, wp_modify]
            refine wp_mono (wp_and w1 (wp_and (unlink_inv f last x.next _ i02 hnx hlx) (unlink_due hw f last x.next _ (du1.noteDropped f x.file))))
              (fun _ s3 q3 => ?_) (fun _ q => q.1.elim) (fun _ q => q.1.elim)
            obtain ⟨⟨i3, r3, hseg3, u3, cs3, lg3⟩, ⟨i03, fl3, _⟩, du3⟩ := q3
            have hf3 : (s3.file f).updating = true := (fl3 f).trans hf1
            have k3 : Stk S s3 f := fun h hh => k1 h (by rw [← show (s3.file h).updating = (s1.file h).updating from fl3 h]; exact hh)
            have hcnt : s3.count = s1.count := by unfold UState.count; rw [lg3]; rfl
            refine ihD f P last x.next sc s3 l0 hnx hlx i03 k3 hf3 i3 hN (fun y hy => (fl3 y).trans (hP1 y hy))
              (u3.trans hu1) (by rw [cs3]; exact hr1) hseg3 hlast (by rw [hcnt]; exact hb1)
              (fun h1 h2 y hy => by rw [lg3]; exact List.mem_cons_of_mem _ (hset1 h1 h2 y hy)) du3 (fun h1 h2 h3 q hq hp => ?_) hwhy
            have := du3.log.first
            rw [lg3] at this ⊢
            exact (hok1 h1 h2 h3 q hq hp).mono [_] this
          · rename_i hup
            have hup' : (s1.file x.file).updating = false := by simpa using hup
            have hup'' : (s1.file (S.head x.file)).updating = false := by rw [pl.head]; exact hup'
            have kx : Stk S s1 x.file := fun h hh => .step (k1 h hh) edge
            have hxN : x.file < S.N := by have := ok.eN _ _ edge; rwa [pl.head] at this
            have hxf : x.file ≠ f := fun h => by rw [h, hf1] at hup'; cases hup'
            have hPx : ¬ P x.file := fun h => by rw [hP1 _ h] at hup'; cases hup'
            simp only [wp_bind]
            have hPf : ∀ y, (P y ∨ y = f) → (s1.file y).updating = true := by
              intro y hy
              rcases hy with hy | hy
              · exact hP1 y hy
              · rw [hy]; exact hf1
            refine wp_mono (wp_and (kC x.file (fun y => P y ∨ y = f) (seenTime G t0 f) sc.must s1 i01 kx hup' i1 hxN hPf)
              (wp_and (jC x.file (seenTime G t0 f) sc.must s1 i01 kx hup'') (ihC x.file (fun y => P y ∨ y = f) (seenTime G t0 f) sc.must s1 i01 kx hup' i1 hxN hPf du1)))
              (fun r s2 q2 => ?_) (fun _ q => q.2.2) (fun _ q => q.2.2)
            obtain ⟨⟨i2, r2, c2, t2⟩, ⟨i02, r12⟩, du2, m, v2, hr2m⟩ := q2
            have hmem1 : f ∉ s1.running := fun h => hr1 ((i1.run f).mpr h)
            obtain ⟨fd, fn, fu, fc, _, fm, ff⟩ := r2.frame f (fun h => h) hf1 hmem1
            have hown : ∀ n ∈ l0.map Prod.fst, S.own n = f :=
              Stretch.own i01.fits hseg1 (fun n hn => by rw [(i01.fits.deps f n hn).1, pl.grp])
            have hseg2 : Stretch s2.dep (s2.file f).deps l0 (some d) := by
              rw [fd]; exact hseg1.congr (fun n hn => fn n (hown n hn))
            have hownd : S.own d = f := by rw [hdd.1, pl.grp]
            obtain ⟨x2, hx2, hlk2⟩ : ∃ x2, s2.dep d = some x2 ∧ x2.link = x.link := by
              have := fn d hownd
              rw [hy1] at this
              cases hy : s2.dep d with
              | none => rw [hy] at this; simp at this
              | some y => rw [hy] at this; simp [UDep.link] at this; exact ⟨y, rfl, by simp [UDep.link, this.1, this.2, hlk1.1, hlk1.2]⟩
            simp only [UDep.link, Prod.mk.injEq] at hlk2
            simp only [wp_readDep, hx2, wp_get, wp_ite, wp_pure]
            have hn2 := du2.node d x2 hx2
            rw [hown' d f hdd.1] at hn2
            rw [hlk2.1] at hn2
            rw [hlk2.1, hlk2.2]
            have hany : anyBusy s2 x.file = (s2.file x.file).cstate.busy := by
              unfold anyBusy
              rw [i02.fits.head, pl.head, i02.fits.chain, pl.chain]
              simp
            have hcx : (s2.file x.file).considered = s2.considered := by rw [c2, r2.cons]
            have hcons := i2.cons x.file hcx
            have hb2 : (sc.running || anyBusy s2 x.file) = true → s2.count ≠ b := by
              intro h
              rw [Bool.or_eq_true] at h
              rcases h with h | h
              · have := hb1 h
                have := r2.count
                have := i1.kb
                omega
              · rw [hany] at h
                rcases hcons with (c | c) | c | c
                · exact absurd c hPx
                · exact absurd c hxf
                · rw [(i2.fin _).mpr c] at h; cases h
                · exact c.2
            have hset2 : sc.status.max r.1 = .success → (sc.running || anyBusy s2 x.file) = false →
                ∀ y ∈ (l0 ++ [(d, x.file)]).map Prod.snd, UEvent.done y .success ∈ s2.log := by
              intro h1 h2 y hy
              obtain ⟨m1, m2⟩ := UStatus.max_success h1
              rw [Bool.or_eq_false_iff] at h2
              rw [List.map_append, List.mem_append] at hy
              rcases hy with hy | hy
              · obtain ⟨lg, hlg⟩ := r2.log
                rw [hlg]
                exact List.mem_append_right _ (hset1 m1 h2.1 y hy)
              · simp only [List.map_cons, List.map_nil, List.mem_singleton] at hy
                rw [hy]
                have hub : (s2.file x.file).updated = true := by
                  rcases hcons with (c | c) | c | c
                  · exact absurd c hPx
                  · exact absurd c hxf
                  · exact c
                  · rw [hany] at h2
                    rw [c.1] at h2
                    exact absurd h2.2 (by simp)
                exact i2.doneOf hub (t2.2 m2 hub)
            have hu2 : (s2.file f).updated = false := fu.trans hu1
            have hr2 : (s2.file f).cstate ≠ .running := by rw [fc]; exact hr1
            -- what is new
            have hmono : sc.must = true → (if x2.ignoreMtime = true then sc.must else r.2) = true := by
              intro a
              split
              · exact a
              · rw [hr2m, a]; rfl
            have hwhy2 : Really e → (if x2.ignoreMtime = true then sc.must else r.2) = true → OutOfDate e G t0 (fun _ _ => False) f := by
              intro a c
              split at c
              · exact hwhy a c
              · rename_i hi
                rw [hr2m, Bool.or_eq_true, Bool.or_eq_true] at c
                rw [Bool.not_eq_true] at hi
                rw [hi] at hn2
                rcases c with (c | c) | c
                · exact hwhy a c
                · exact reason_of hw du2 v2 (List.mem_of_getElem? hn2) (.inl (of_decide_eq_true c)) a
                · exact reason_of hw du2 v2 (List.mem_of_getElem? hn2) (.inr (of_decide_eq_true c)) a
            have hok2 : sc.status.max r.1 = .success → (sc.running || anyBusy s2 x.file) = false →
                (if x2.ignoreMtime = true then sc.must else r.2) = false →
                ∀ q ∈ l0 ++ [(d, x.file)], (G.rule f).prereqs[q.1 % G.width]? = some (q.2, false) → NoReason G t0 s2.log f q.2 := by
              intro h1 h2 h3 q hq hp
              have h3' : sc.must = false := by
                cases hm : sc.must with
                | false => rfl
                | true => rw [hmono hm] at h3; cases h3
              obtain ⟨m1, m2⟩ := UStatus.max_success h1
              have h2' := Bool.or_eq_false_iff.mp h2
              rcases List.mem_append.mp hq with hq | hq
              · have hfst := du2.log.first
                obtain ⟨lg, hlg⟩ := r2.log
                rw [hlg] at hfst ⊢
                exact (hok1 m1 h2'.1 h3' q hq hp).mono lg hfst
              · have hds := hset2 h1 h2 x.file (by simp)
                simp only [List.mem_singleton] at hq
                subst hq
                simp only at hp
                rw [hn2] at hp
                simp only [Option.some.injEq, Prod.mk.injEq] at hp
                rw [hp.2] at h3
                simp only [Bool.false_eq_true, if_false] at h3
                rw [hr2m, Bool.or_eq_false_iff, Bool.or_eq_false_iff] at h3
                exact noReason_of hw v2 hds (of_decide_eq_false h3.1.2) (of_decide_eq_false h3.2)
            split
            · rename_i hstop
              exact ⟨du2, fun h => absurd h hstop.1, hwhy2, hmono⟩
            · have hseg2' : Stretch s2.dep (s2.file f).deps (l0 ++ [(d, x.file)]) x.next := by
                refine hseg2.append ?_
                rw [← hlk2.1, ← hlk2.2]
                exact .cons hx2 (.nil _)
              have go : ∀ (sc' : Scan) (s3 : UState), Quiet s2 s3 → Due e G t0 s3 → sc'.running = (sc.running || anyBusy s2 x.file) → sc'.status = sc.status.max r.1 →
                  sc'.must = (if x2.ignoreMtime = true then sc.must else r.2) →
                  wp (scanDeps e n f (seenTime G t0 f) (some d) x.next sc')
                    (fun sc'' s' => FoundDue e G t0 f sc sc'' s') (DueEnd e G t0) (DueEnd e G t0) s3 := by
                intro sc' s3 q23 du3 e1 e2 e3
                have i03 := q23.calm.inv i02
                have fl3 : ∀ y, (s3.file y).updating = (s2.file y).updating := fun y => still_updating (q23.calm.still y)
                have fl13 : ∀ y, (s3.file y).updating = (s1.file y).updating := fun y => (fl3 y).trans (r12.flag y (fun h => h))
                refine wp_mono (ihD f P (some d) x.next sc' s3 (l0 ++ [(d, x.file)]) hnx (fun l hl' => ?_) i03
                  (fun h hh => k1 h (by rw [← fl13 h]; exact hh)) ((fl13 f).trans hf1) (q23.inv1 i2) hN (fun y hy => (fl13 y).trans (hP1 y hy))
                  ((q23.same f).1.trans hu2) (by rw [(q23.same f).2.1]; exact hr2)
                  (by rw [still_deps (q23.calm.still f)]; exact hseg2'.congr (fun n _ => q23.calm.dep n)) (by simp)
                  (fun h => ?_) (fun h1 h2 y hy => ?_) du3 (fun h1 h2 h3 => ?_) (fun h1 h2 => hwhy2 h1 (e3 ▸ h2)))
                  (fun _ s4 q4 => ⟨q4.due, q4.none, q4.why, fun a => q4.mono (e3 ▸ hmono a)⟩) (fun _ q => q) (fun _ q => q)
                · cases hl'
                  exact ⟨hdd.1, fun m hm => (nd.2 m hm).2.1⟩
                · have := hb2 (e1 ▸ h)
                  unfold UState.count at this ⊢
                  rw [q23.log]; exact this
                · rw [q23.log]
                  exact hset2 (e2 ▸ h1) (e1 ▸ h2) y hy
                · rw [q23.log]
                  exact hok2 (e2 ▸ h1) (e1 ▸ h2) (e3 ▸ h3)
              simp only [wp_bind, wp_ite, wp_pure]
              split
              · exact go _ s2 (Quiet.refl s2) du2 rfl rfl rfl
              · refine wp_mono (wp_and (wp_of_T (E := fun _ => False) (F := fun _ => False) (fileMtime_quiet x.file s2) (fun _ _ q => q)) (fileMtime_due hw x.file s2 du2))
                  (fun m s3 q3 => ?_) (fun _ q => q.1.elim) (fun _ q => q.1.elim)
                obtain ⟨q3, du3, _⟩ := q3
                have hl3 := q3.calm.dep d
                rw [hx2] at hl3
                cases hy : s3.dep d with
                | none => rw [hy] at hl3; simp at hl3
                | some y =>
                  rw [hy] at hl3
                  simp only [Option.map_some, Option.some.injEq] at hl3
                  have w := writeDep_quiet d { x2 with changed := decide (m ≠ mtime) || decide (mtime = 1), file := x.file, next := x.next } s3 y hy (by rw [hl3]; simp [UDep.link, hlk2.1, hlk2.2])
                  have ny := du3.node d y hy
                  rw [hown' d f hdd.1, hn2] at ny
                  simp only [Option.some.injEq, Prod.mk.injEq] at ny
                  have dw := du3.writeDep d y { x2 with changed := decide (m ≠ mtime) || decide (mtime = 1), file := x.file, next := x.next } hy ny.1 ny.2
                  unfold wpT writeDep at w
                  unfold writeDep
                  rw [wp_modify] at w ⊢
                  exact go _ _ (q3.trans w) dw rfl rfl rfl
    · -- checkDep
      rw [checkDep]
      simp only [wp_bind]
      rw [setUpdating_wp true f _ _ _ s i0.fits, pl.head]
      have i01 := setFlag_inv i0 f true
      obtain ⟨i1, r1⟩ := flag_inv1 f true i
      have k1 := k.flagged true
      rw [pl.head] at k1
      have o1 : ∀ y, y ≠ f → ((s.setFile f fun x => { x with updating := true }).file y).updating = (s.file y).updating :=
        fun y hy => flag_other s f true y hy
      have hnP : ¬ P f := fun h => by rw [hP f h] at hf; cases hf
      have hP1 : ∀ x, P x → ((s.setFile f fun x => { x with updating := true }).file x).updating = true := fun x hx => by
        rw [o1 x (fun h => hnP (by rw [← h]; exact hx))]; exact hP x hx
      have d1 := hdu.flag f true
      generalize (s.setFile f fun x => { x with updating := true }) = s1 at *
      simp only [wp_get, wp_ite]
      rw [if_pos (Or.inr (by rw [i01.fits.inter f]; simp))]
      simp only [wp_bind, wp_pure]
      refine wp_mono (wp_and (jF f s1 i01 k1) (ihF f P s1 i01 k1 i1 hN hP1 hnP d1)) (fun st s2 q2 => ?_) (fun _ q => q.2) (fun _ q => q.2)
      obtain ⟨⟨i02, r12⟩, d2⟩ := q2
      refine wp_mono (wp_and (wp_of_T (E := fun _ => False) (F := fun _ => False) (fileMtime_quiet f s2) (fun _ _ q => q)) (fileMtime_due hw f s2 d2))
        (fun m s3 q3 => ?_) (fun _ q => q.1.elim) (fun _ q => q.1.elim)
      obtain ⟨q3, d3, v3⟩ := q3
      have i03 := q3.calm.inv i02
      rw [setUpdating_wp false f _ _ _ s3 i03.fits, pl.head]
      exact ⟨d3.flag f false, m, v3, rfl⟩

/-! ### The goals -/

/-- What holds between two looks at goals. -/
structure TopDue (e : Env) (G : Graph) (t0 : Nat → Nat) (goals : List Nat) (pre0 : Nat → List Nat) (b : Nat) (s : UState) : Prop where
  top : Top (G.shape goals) pre0 b s
  due : Due e G t0 s
  le : ∀ x, (s.file x).considered ≤ s.considered

omit hw in
theorem Rel2.le {S H s s'} (h : Rel2 S H s s') (hle : ∀ x, (s.file x).considered ≤ s.considered) :
    ∀ x, (s'.file x).considered ≤ s'.considered := fun x => by
  rw [h.cons]
  rcases h.consd x with a | a
  · rw [a]; exact hle x
  · rw [a]; exact Nat.le_refl _

theorem goalEntries_due (hG : G.Plain) (goals : List Nat) (pre0 : Nat → List Nat) (b n g : Nat) (st : UStatus) (s : UState)
    (t : TopDue e G t0 goals pre0 b s) (hg : g < (G.shape goals).N) :
    wp (goalEntries e n [g] { status := st }) (fun _ s' => TopDue e G t0 goals pre0 b s') (DueEnd e G t0) (DueEnd e G t0) s := by
  have ok := G.shape_ok goals
  have pl := Graph.Plain.shape hG goals
  rw [goalEntries_cons]
  simp only [wp_bind, wp_get]
  refine wp_mono (wp_and ((run_plain (e := e) ok pl pre0 b n).1 g _ s t.top.inv0 (t.top.flag.stk g) t.top.inv hg (fun _ h => h.elim) (fun h => h))
    (wp_and (updateFile_top ok n g s t.top.inv0 t.top.flag)
      ((run_due hw hG goals pre0 b n).1 g _ s t.top.inv0 (t.top.flag.stk g) t.top.inv hg (fun _ h => h.elim) (fun h => h) t.due)))
    (fun fail s1 q1 => ?_) (fun _ q => q.2.2) (fun _ q => q.2.2)
  obtain ⟨⟨i1, r1, c1, t1⟩, ⟨i01, f1, _⟩, d1⟩ := q1
  have k1 : TopDue e G t0 goals pre0 b s1 := ⟨⟨i01, f1, i1⟩, d1, r1.le t.le⟩
  have same : ∀ (r : GoalRes) (s2 : UState), TopDue e G t0 goals pre0 b s2 → wp (if r.stop = true then pure r else goalEntries e n [] r)
      (fun _ s' => TopDue e G t0 goals pre0 b s') (DueEnd e G t0) (DueEnd e G t0) s2 := by
    intro r s2 h
    rw [goalEntries]
    simp only [wp_ite, wp_pure, ite_self]
    exact h
  rw [wp_ite]
  split
  · rw [wp_bind]
    refine wp_mono (wp_and (wp_of_T (E := fun _ => False) (F := fun _ => False) (fileMtime_quiet g s1) (fun _ _ q => q)) (fileMtime_due hw g s1 d1))
      (fun m s3 q3 => ?_) (fun _ q => q.1.elim) (fun _ q => q.1.elim)
    obtain ⟨q3, d3, _⟩ := q3
    exact same _ s3 ⟨q3.top k1.top, d3, q3.rel2 (S := G.shape goals) (H := fun _ => True) |>.le k1.le⟩
  · exact same _ s1 k1

theorem goalPass_due (hG : G.Plain) (goals : List Nat) (pre0 : Nat → List Nat) (b n : Nat) (gs : List Nat) (st : UStatus) (s : UState)
    (t : TopDue e G t0 goals pre0 b s) (hN : ∀ g ∈ gs, g < (G.shape goals).N) :
    wp (goalPass e n gs st) (fun r s' => TopDue e G t0 goals pre0 b s' ∧ ∀ g ∈ r.2.1, g < (G.shape goals).N) (DueEnd e G t0) (DueEnd e G t0) s := by
  have pl := Graph.Plain.shape hG goals
  induction gs generalizing st s with
  | nil => exact ⟨t, fun g hg => nomatch hg⟩
  | cons g gs ih =>
    rw [goalPass]
    simp only [wp_bind, wp_get, wp_ite, wp_pure]
    rw [t.top.inv0.fits.head, pl.head, t.top.inv0.fits.chain, pl.chain]
    refine wp_mono (goalEntries_due hw hG goals pre0 b n g st s t (hN g (by simp))) (fun r s1 q1 => ?_) (fun _ q => q) (fun _ q => q)
    split
    · exact ⟨q1, fun x hx => hN x (List.mem_cons_of_mem _ hx)⟩
    · refine wp_mono (ih r.status s1 q1 (fun x hx => hN x (List.mem_cons_of_mem _ hx))) (fun _ s2 q2 => ⟨q2.1, fun x hx => ?_⟩) (fun _ q => q) (fun _ q => q)
      split at hx
      · rcases List.mem_cons.mp hx with hx | hx
        · rw [hx]; exact hN g (by simp)
        · exact q2.2 x hx
      · exact q2.2 x hx

theorem goalLoop_due (hG : G.Plain) (goals : List Nat) (pre0 : Nat → List Nat) (b n k : Nat) (gs : List Nat) (st : UStatus) (s : UState)
    (t : TopDue e G t0 goals pre0 b s) (hN : ∀ g ∈ gs, g < (G.shape goals).N) :
    wp (goalLoop e n k gs st) (fun _ s' => Due e G t0 s') (DueEnd e G t0) (DueEnd e G t0) s := by
  have pl := Graph.Plain.shape hG goals
  have hpl : ∀ x, (s : UState) → Fits (G.shape goals) s → (s.file x).alsoMake = [] := fun x s i => (i.also x).trans (pl.also x)
  induction k generalizing gs st s with
  | zero =>
    cases gs with
    | nil => rw [goalLoop]; exact t.due
    | cons => rw [goalLoop]; exact t.due.log
  | succ k ih =>
    cases gs with
    | nil => rw [goalLoop]; exact t.due
    | cons g gs =>
      rw [goalLoop]
      simp only [wp_bind, wp_ite, wp_modify, wp_pure]
      refine wp_mono (wp_and (reapBlock_plain hpl s t.top.inv0.fits t.top.inv) (wp_and (reapBlock_calm s) (reapBlock_due hw hpl s t.top.inv0.fits t.top.inv t.due)))
        (fun _ s1 q1 => ?_) (fun _ q => q.2.2) (fun _ q => q.1.elim)
      obtain ⟨⟨_, st1⟩, ⟨c1, run1⟩, d1⟩ := q1
      have t1 : TopDue e G t0 goals pre0 b s1 := ⟨st1.top c1 t.top, d1, st1.rel.le t.le⟩
      refine wp_mono (goalPass_due hw hG goals pre0 b n (g :: gs) st s1 t1 hN) (fun r s2 q2 => ?_) (fun _ q => q) (fun _ q => q)
      split
      · exact ih _ _ s2 q2.1 q2.2
      · refine ih _ _ _ ⟨nextPass_plain (s2.considered + 1) b q2.1.top (fun x => Nat.lt_succ_of_le (q2.1.le x)) q2.1.top.inv.kb q2.1.top.inv.kr,
          q2.1.due.cons _, fun x => Nat.le_succ_of_le (q2.1.le x)⟩ q2.2

omit hw in
theorem initial_due (hG : G.Plain) : Due e G t0 G.initial := by
  have simple : ∀ x, (G.rule x).colons = none ∧ (G.rule x).group = none ∧ (G.rule x).intermediate = false := by
    intro x
    unfold Graph.rule
    rw [List.getD_eq_getElem?_getD]
    cases hx : G[x]? with
    | none => exact ⟨rfl, rfl, rfl⟩
    | some r => exact hG r (List.mem_of_getElem? hx)
  refine ⟨⟨fun l1 x l2 a => ?_, fun f _ a => (nomatch a), fun _ f a => (nomatch a)⟩, fun x => rfl, fun x => id, fun _ x => id, fun x => rfl, fun n y a => ?_,
    fun x => ?_, fun x => ?_, fun x a => ?_⟩
  · cases l1 <;> cases a
  · simp only [Graph.initial] at a
    cases hx : (G.rule (n / G.width)).prereqs[n % G.width]? with
    | none => rw [hx] at a; cases a
    | some p => rw [hx] at a; cases a; rfl
  · obtain ⟨h1, h2, h3⟩ := simple x
    simp [Graph.initial, Graph.entries, Graph.mates, h1, h2, h3]
  · cases hp : (G.rule x).phony with
    | false => left; simp [Graph.initial, hp]
    | true =>
      right
      refine .inr (.inl ⟨fun a => (nomatch a), ?_⟩)
      simp [Graph.initial, hp, seenTime]
  · simp [Graph.initial, a]

end Remake
