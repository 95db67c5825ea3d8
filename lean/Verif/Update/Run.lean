import Verif.Update.Once
/-!
# Updating targets: the induction
-/
namespace Remake
set_option linter.unusedVariables false
set_option linter.unusedSimpArgs false

variable {e : Env} {S : Shape}

theorem Stk.rel {s s' : UState} {f : Nat} (h : Stk S s f) (r : Rel S (· = S.head f) s s') : Stk S s' f := by
  intro k hk
  by_cases hh : k = S.head f
  · rw [hh]; exact .refl _
  · exact h k (by rw [← r.flag k hh]; exact hk)

theorem Stk.flagged {s : UState} {f : Nat} (h : Stk S s f) (b : Bool) :
    Stk S (s.setFile (S.head f) fun x => { x with updating := b }) f := by
  intro k hk
  by_cases hh : k = S.head f
  · rw [hh]; exact .refl _
  · exact h k (by rw [← flag_other s (S.head f) b k hh]; exact hk)

/-- Without intermediate files the second loop does nothing. -/
theorem updateIntermediates_none (n f : Nat) (d : Option Nat) (sc : Scan) (s : UState) (i : Fits S s)
    (hd : ∀ m, d = some m → m < S.D) :
    wp (updateIntermediates e n f d sc) (fun r s' => r = sc ∧ s' = s) (fun s' => s' = s)
      (fun s' => s' = s ∧ n < S.rem d) s := by
  induction n generalizing d with
  | zero =>
    cases d with
    | none => rw [updateIntermediates]; exact ⟨rfl, rfl⟩
    | some d =>
      rw [updateIntermediates]
      have := hd d rfl
      exact ⟨rfl, by simp only [Shape.rem]; omega⟩
  | succ n ih =>
    cases d with
    | none => rw [updateIntermediates]; exact ⟨rfl, rfl⟩
    | some d =>
      rw [updateIntermediates]
      simp only [wp_bind, wp_readDep]
      cases hx : s.dep d with
      | none => first | rfl | trivial
      | some x =>
        simp only [wp_get, i.inter, Bool.false_eq_true, if_false]
        have nx := (i.node d x hx).2
        have := hd d rfl
        refine wp_mono (ih x.next (fun m hm => (nx m hm).2.2)) (fun _ _ q => q) (fun _ q => q) (fun s' q => ⟨q.1, ?_⟩)
        have q := q.2
        cases hn : x.next with
        | none => rw [hn] at q; simp only [Shape.rem] at q; omega
        | some m =>
          rw [hn] at q
          have := nx m hn
          simp only [Shape.rem] at q ⊢
          omega

/-- One round of the recursion. -/
def Shape.K (S : Shape) : Nat := S.D + S.A + S.C + 10

theorem unlink_inv (f : Nat) (last : Option Nat) (next : Option Nat) (s : UState) (i : Inv0 S s)
    (hn : ∀ m, next = some m → S.own m = S.grp f ∧ m < S.D)
    (hl : ∀ l, last = some l → S.own l = S.grp f ∧ ∀ m, next = some m → l < m) :
    wp (unlink f last next) (fun _ s' => Inv0 S s' ∧ (∀ x, (s'.file x).updating = (s.file x).updating) ∧
      (∀ x, (s'.file x).updated = (s.file x).updated) ∧ s'.log = s.log ∧ s'.considered = s.considered)
      (LogOk S) (fun _ => False) s := by
  cases last with
  | none =>
    simp only [unlink, wp_modify]
    have key : ∀ x, ∃ d', (s.setFile f fun x => { x with deps := next }).file x = { s.file x with deps := d' } ∧
        (x = f → d' = next) ∧ (x ≠ f → d' = (s.file x).deps) := by
      intro x
      by_cases hx : x = f
      · exact ⟨next, by simp [UState.setFile, hx], fun _ => rfl, fun h => absurd hx h⟩
      · exact ⟨(s.file x).deps, by simp [UState.setFile, hx], fun h => absurd h hx, fun _ => rfl⟩
    refine ⟨⟨⟨fun x => ?_, fun x => ?_, fun x => ?_, fun x => ?_, fun x n a => ?_, i.fits.node⟩,
      ⟨i.log.once, i.log.drops⟩, fun x a => ?_⟩, fun x => ?_, fun x => ?_, rfl, rfl⟩ <;>
      obtain ⟨d', hb, h1, h2⟩ := key x
    · rw [hb]; exact i.fits.head x
    · rw [hb]; exact i.fits.chain x
    · rw [hb]; exact i.fits.also x
    · rw [hb]; exact i.fits.inter x
    · rw [hb] at a
      by_cases hx : x = f
      · have := h1 hx
        simp only at a
        rw [hx]
        exact hn n (by rw [← this]; exact a)
      · have := h2 hx
        simp only at a
        exact i.fits.deps x n (by rw [← this]; exact a)
    · rw [hb]; exact i.started x a
    · rw [hb]
    · rw [hb]
  | some l =>
    simp only [unlink, wp_bind, wp_readDep]
    cases hy : s.dep l with
    | none => exact i.log
    | some y =>
      simp only [writeDep, wp_modify]
      refine ⟨⟨⟨i.fits.head, i.fits.chain, i.fits.also, i.fits.inter, i.fits.deps, fun n x a => ?_⟩,
        ⟨i.log.once, i.log.drops⟩, i.started⟩, by simp, by simp, by simp, by simp⟩
      simp only at a
      by_cases hnl : n = l
      · rw [if_pos hnl] at a
        cases a
        subst hnl
        refine ⟨(i.fits.node n y hy).1, fun m hm => ?_⟩
        have h1 := hl n rfl
        have h2 := hn m hm
        exact ⟨h2.1.trans h1.1.symm, h1.2 m hm, h2.2⟩
      · rw [if_neg hnl] at a
        exact i.fits.node n x a

theorem run_inv (ok : S.Ok) : ∀ n,
    (∀ f s, Inv0 S s → Stk S s f → wp (updateFile e n f)
      (fun _ s' => Inv0 S s' ∧ Rel S (· = S.head f) s s') (LogOk S)
      (fun s' => LogOk S s' ∧ n < S.free s (S.head f) * S.K + S.D + S.A + S.C + 6) s) ∧
    (∀ f xs st s, (∀ x ∈ xs, S.head x = S.head f) → Inv0 S s → Stk S s f → wp (updateEntries e n xs st)
      (fun _ s' => Inv0 S s' ∧ Rel S (· = S.head f) s s') (LogOk S)
      (fun s' => LogOk S s' ∧ n < S.free s (S.head f) * S.K + S.D + S.A + xs.length + 5) s) ∧
    (∀ f s, Inv0 S s → Stk S s f → wp (updateFile1 e n f)
      (fun _ s' => Inv0 S s' ∧ Rel S (· = S.head f) s s') (LogOk S)
      (fun s' => LogOk S s' ∧ n < S.free s (S.head f) * S.K + S.D + S.A + 5) s) ∧
    (∀ f thisM gs sc s, (∀ g ∈ gs, S.grp g = S.grp f) → Inv0 S s → Stk S s f → (s.file (S.head f)).updating = true →
      wp (scanLists e n f thisM gs sc)
      (fun _ s' => Inv0 S s' ∧ Rel S (fun _ => False) s s') (LogOk S)
      (fun s' => LogOk S s' ∧ n < S.free s (S.head f) * S.K + S.D + gs.length + 1) s) ∧
    (∀ f thisM last d sc s, (∀ m, d = some m → S.own m = S.grp f ∧ m < S.D) →
      (∀ l, last = some l → S.own l = S.grp f ∧ ∀ m, d = some m → l < m) →
      Inv0 S s → Stk S s f → (s.file (S.head f)).updating = true →
      wp (scanDeps e n f thisM last d sc)
      (fun _ s' => Inv0 S s' ∧ Rel S (fun _ => False) s s') (LogOk S)
      (fun s' => LogOk S s' ∧ n < S.free s (S.head f) * S.K + S.rem d) s) ∧
    (∀ f thisM must s, Inv0 S s → Stk S s f → (s.file (S.head f)).updating = false →
      wp (checkDep e n f thisM must)
      (fun _ s' => Inv0 S s' ∧ Rel S (fun _ => False) s s') (LogOk S)
      (fun s' => LogOk S s' ∧ n < (S.free s (S.head f) + 1) * S.K) s) := by
  intro n
  induction n with
  | zero =>
    have hK : 0 < S.K := by unfold Shape.K; omega
    refine ⟨fun f s i k => ?_, fun f xs st s hx i k => ?_, fun f s i k => ?_, fun f thisM gs sc s hg i k hf => ?_,
      fun f thisM last d sc s hd hl i k hf => ?_, fun f thisM must s i k hf => ?_⟩
    · rw [updateFile]; exact ⟨i.log, by omega⟩
    · cases xs with
      | nil => rw [updateEntries]; exact ⟨i, (Calm.refl s).rel⟩
      | cons x xs => rw [updateEntries]; exact ⟨i.log, by omega⟩
    · rw [updateFile1]; exact ⟨i.log, by omega⟩
    · cases gs with
      | nil => rw [scanLists]; exact ⟨i, (Calm.refl s).rel⟩
      | cons g gs => rw [scanLists]; exact ⟨i.log, by omega⟩
    · cases d with
      | none => rw [scanDeps]; exact ⟨i, (Calm.refl s).rel⟩
      | some d =>
        rw [scanDeps]
        have := (hd d rfl).2
        exact ⟨i.log, by simp only [Shape.rem]; omega⟩
    · rw [checkDep]; exact ⟨i.log, by rw [Nat.add_mul]; omega⟩
  | succ n ih =>
    obtain ⟨ihF, ihE, ihF1, ihL, ihD, ihC⟩ := ih
    refine ⟨fun f s i k => ?_, fun f xs st s hx i k => ?_, fun f s i k => ?_, fun f thisM gs sc s hg i k hf => ?_,
      fun f thisM last d sc s hd hl i k hf => ?_, fun f thisM must s i k hf => ?_⟩
    · -- updateFile
      rw [updateFile]
      simp only [wp_bind, wp_get, wp_ite, wp_pure]
      split
      · exact ⟨i, (Calm.refl s).rel⟩
      · rw [i.fits.head, i.fits.chain]
        refine wp_mono (ihE f _ _ s (fun x hx => ok.ch f x hx) i k) (fun _ _ q => q) (fun _ q => q)
          (fun s' q => ⟨q.1, ?_⟩)
        have := q.2
        have := ok.lenC (S.head f)
        omega
    · -- updateEntries
      cases xs with
      | nil => rw [updateEntries]; exact ⟨i, (Calm.refl s).rel⟩
      | cons x xs =>
        rw [updateEntries]
        simp only [wp_bind, wp_modify, wp_get, wp_ite, wp_pure]
        have hxf := hx x (List.mem_cons_self ..)
        let s1 := s.setFile x fun y => { y with considered := s.considered }
        have key : ∀ y, ∃ c, s1.file y = { s.file y with considered := c } := by
          intro y
          by_cases hy : y = x
          · exact ⟨s.considered, by simp [s1, UState.setFile, hy]⟩
          · exact ⟨(s.file y).considered, by simp [s1, UState.setFile, hy]⟩
        have i1 : Inv0 S s1 := by
          refine ⟨⟨fun y => ?_, fun y => ?_, fun y => ?_, fun y => ?_, fun y n a => ?_, i.fits.node⟩,
            ⟨i.log.once, i.log.drops⟩, fun y a => ?_⟩ <;> obtain ⟨c, hc⟩ := key y
          · rw [hc]; exact i.fits.head y
          · rw [hc]; exact i.fits.chain y
          · rw [hc]; exact i.fits.also y
          · rw [hc]; exact i.fits.inter y
          · rw [hc] at a; exact i.fits.deps y n a
          · rw [hc]; exact i.started y a
        have fl : ∀ y, (s1.file y).updating = (s.file y).updating := by
          intro y; obtain ⟨c, hc⟩ := key y; rw [hc]
        have r1 : Rel S (· = S.head f) s s1 :=
          ⟨fun y _ => fl y, fun y a => (fl y).trans a, fun y a => .inl a,
            fun y a => by obtain ⟨c, hc⟩ := key y; rw [hc]; exact a, rfl⟩
        have k1 : Stk S s1 x := by
          intro h hh
          rw [hxf]
          exact k h (by rw [← fl h]; exact hh)
        refine wp_mono (ihF1 x s1 i1 k1) (fun a s2 q => ?_) (fun _ q => q) (fun s' q => ⟨q.1, ?_⟩)
        · have r2 : Rel S (· = S.head f) s s2 := r1.trans (by rw [hxf] at q; exact q.2)
          split
          · exact ⟨q.1, r2⟩
          · split
            · exact ⟨q.1, r2⟩
            · refine wp_mono (ihE f xs _ s2 (fun y hy => hx y (List.mem_cons_of_mem _ hy)) q.1 (k.rel r2))
                (fun _ s3 q3 => ⟨q3.1, r2.trans q3.2⟩) (fun _ q => q) (fun s' q3 => ⟨q3.1, ?_⟩)
              have e2 : S.free s2 (S.head f) = S.free s (S.head f) := free_congr (fun y hy => r2.flag y hy)
              have := q3.2
              rw [e2] at this
              rw [List.length_cons]
              omega
        · have e2 : S.free s1 (S.head f) = S.free s (S.head f) := free_congr (fun y hy => fl y)
          have := q.2
          rw [hxf, e2] at this
          rw [List.length_cons]
          omega
    · -- updateFile1
      rw [updateFile1]
      simp only [wp_bind, wp_get, wp_ite, wp_pure]
      split
      · exact ⟨i, (Calm.refl s).rel⟩
      · rename_i hu
        split
        · exact ⟨i, (Calm.refl s).rel⟩
        · rename_i hrun
          split
          · exact ⟨i, (Calm.refl s).rel⟩
          · have ns : UEvent.start f ∉ s.log := by
              intro a
              rcases i.started f a with b | b
              · exact hu b
              · exact hrun b
            rw [setUpdating_wp true f _ _ _ s i.fits]
            have i1 := setFlag_inv i (S.head f) true
            have k1 := k.flagged true
            have f1 := flag_self s (S.head f) true
            have e1 : S.free (s.setFile (S.head f) fun x => { x with updating := true }) (S.head f) = S.free s (S.head f) :=
              free_congr (fun y hy => flag_other s (S.head f) true y hy)
            have o1 : ∀ y, y ≠ S.head f → ((s.setFile (S.head f) fun x => { x with updating := true }).file y).updating = (s.file y).updating :=
              fun y hy => flag_other s (S.head f) true y hy
            have u1 : ∀ y, ((s.setFile (S.head f) fun x => { x with updating := true }).file y).updated = (s.file y).updated :=
              fun y => flag_updated s (S.head f) true y
            have l1 : (s.setFile (S.head f) fun x => { x with updating := true }).log = s.log := rfl
            have c1 : (s.setFile (S.head f) fun x => { x with updating := true }).considered = s.considered := rfl
            generalize (s.setFile (S.head f) fun x => { x with updating := true }) = s1 at *
            refine wp_of_T (fileMtime_quiet f s1) (fun thisM s2 q2 => ?_)
            refine wp_of_T (lastResort_quiet f s2) (fun _ s3 q3 => ?_)
            have c3 := q2.calm.trans q3.calm
            have i3 := c3.inv i1
            have r13 : Rel S (fun _ => False) s1 s3 := c3.rel
            have f3 : (s3.file (S.head f)).updating = true := (r13.flag _ (fun h => h)).trans f1
            have k3 : Stk S s3 f := k1.rel (r13.weaken (fun _ h => h.elim))
            rw [i3.fits.also]
            have hg : ∀ g ∈ f :: S.also f, S.grp g = S.grp f := by
              intro g hg
              rcases List.mem_cons.mp hg with h | h
              · rw [h]
              · exact ok.ag f g h
            have e3 : S.free s3 (S.head f) = S.free s (S.head f) :=
              (free_congr (fun y _ => r13.flag y (fun h => h))).trans e1
            refine wp_mono (ihL f thisM (f :: S.also f) _ s3 hg i3 k3 f3) (fun sc s4 q4 => ?_) (fun _ q => q)
              (fun s' q => ⟨q.1, ?_⟩)
            · have r14 := r13.trans q4.2
              have i4 := q4.1
              have e4 : S.free s4 (S.head f) = S.free s (S.head f) :=
                (free_congr (fun y _ => r14.flag y (fun h => h))).trans e1
              have ns4 : UEvent.start f ∉ s4.log := by
                intro a
                rcases r14.starts f a with b | b | b
                · rw [l1] at b; exact ns b
                · rw [f1] at b; cases b
                · exact b
              have rest : ∀ sc' : Scan, wp (do
                  setUpdating false f
                  if sc'.running then do
                    UM.modify fun s => setCState s f .depsRunning
                    pure UStatus.success
                  else decideFile e n f thisM sc') (fun _ s' => Inv0 S s' ∧ Rel S (· = S.head f) s s') (LogOk S)
                  (fun s' => LogOk S s' ∧ n + 1 < S.free s (S.head f) * S.K + S.D + S.A + 5) s4 := by
                intro sc'
                rw [wp_bind, setUpdating_wp false f _ _ _ s4 i4.fits]
                have i5 := setFlag_inv i4 (S.head f) false
                have r5 : Rel S (· = S.head f) s (s4.setFile (S.head f) fun x => { x with updating := false }) := by
                  refine ⟨fun h hh => ?_, fun h a => ?_, fun x a => ?_, fun x a => ?_, ?_⟩
                  · rw [flag_other s4 _ _ h hh, r14.flag h (fun h => h), o1 h hh]
                  · by_cases hh : h = S.head f
                    · rw [hh]; exact flag_self s4 _ _
                    · rw [flag_other s4 _ _ h hh, r14.flag h (fun h => h), o1 h hh]; exact a
                  · have : UEvent.start x ∈ s4.log := a
                    rcases r14.starts x this with b | b | b
                    · rw [l1] at b; exact .inl b
                    · by_cases hh : S.head x = S.head f
                      · exact .inr (.inr hh)
                      · exact .inr (.inl (by rw [← o1 _ hh]; exact b))
                    · exact b.elim
                  · rw [flag_updated]; exact r14.upd x (by rw [u1]; exact a)
                  · exact r14.cons.trans c1
                have ns5 : UEvent.start f ∉ (s4.setFile (S.head f) fun x => { x with updating := false }).log := ns4
                generalize (s4.setFile (S.head f) fun x => { x with updating := false }) = s5 at *
                simp only [wp_bind, wp_modify, wp_ite, wp_pure]
                split
                · exact ⟨setCState_inv f (by simp) i5 ns5, r5.trans (setCState_rel s5 f _)⟩
                · refine wp_mono (decideFile_inv n f thisM sc' s5 i5 ns5) (fun _ s6 q6 => ⟨q6.1, r5.trans q6.2⟩)
                    (fun _ q => q) (fun s' q => ⟨q.1, ?_⟩)
                  have := q.2
                  omega
              simp only [wp_bind, wp_ite, wp_pure] at rest
              split
              · refine wp_mono (updateIntermediates_none n f _ sc s4 i4.fits (fun m hm => (i4.fits.deps f m hm).2))
                  (fun sc' s' q => ?_) (fun _ q => by rw [q]; exact i4.log) (fun s' q => ⟨by rw [q.1]; exact i4.log, ?_⟩)
                · obtain ⟨rfl, rfl⟩ := q
                  exact rest _
                · have h := q.2
                  cases hd : (s4.file f).deps with
                  | none => rw [hd] at h; exact absurd h (Nat.not_lt_zero _)
                  | some d => rw [hd] at h; simp only [Shape.rem] at h; omega
              · exact rest sc
            · have h := q.2
              rw [e3, List.length_cons] at h
              have := ok.lenA f
              omega
    · -- scanLists
      cases gs with
      | nil => rw [scanLists]; exact ⟨i, (Calm.refl s).rel⟩
      | cons g gs =>
        rw [scanLists]
        simp only [wp_bind, wp_get]
        have hgf := hg g (List.mem_cons_self ..)
        refine wp_mono (ihD f thisM none _ sc s (fun m hm => ?_) (fun l h => by cases h) i k hf) (fun sc' s2 q => ?_) (fun _ q => q)
          (fun s' q => ⟨q.1, ?_⟩)
        · have := i.fits.deps g m hm
          rw [hgf] at this
          exact this
        · refine wp_mono (ihL f thisM gs sc' s2 (fun y hy => hg y (List.mem_cons_of_mem _ hy)) q.1
            (k.rel (q.2.weaken (fun _ h => h.elim))) ((q.2.flag _ (fun h => h)).trans hf))
            (fun _ s3 q3 => ⟨q3.1, q.2.trans q3.2⟩) (fun _ q => q) (fun s' q3 => ⟨q3.1, ?_⟩)
          have h := q3.2
          rw [free_congr (fun y _ => q.2.flag y (fun h => h))] at h
          rw [List.length_cons]
          omega
        · have h := q.2
          have : S.rem (s.file g).deps ≤ S.D := by
            cases (s.file g).deps with
            | none => exact Nat.zero_le _
            | some d => exact Nat.sub_le _ _
          rw [List.length_cons]
          omega
    · -- scanDeps
      cases d with
      | none => rw [scanDeps]; exact ⟨i, (Calm.refl s).rel⟩
      | some d =>
        rw [scanDeps]
        simp only [wp_bind, wp_readDep]
        have hdd := hd d rfl
        cases hx : s.dep d with
        | none => exact i.log
        | some x =>
          simp only
          refine wp_of_T (fileMtime_quiet x.file s) (fun mtime s1 q1 => ?_)
          have i1 := q1.calm.inv i
          have r1 : Rel S (fun _ => False) s s1 := q1.calm.rel
          have k1 := k.rel (r1.weaken (fun _ h => h.elim))
          have hf1 := (r1.flag _ (fun h => h)).trans hf
          have nd := i.fits.node d x hx
          have edge : S.edge (S.grp f) x.file := by rw [← hdd.1]; exact nd.1
          have hnx : ∀ m, x.next = some m → S.own m = S.grp f ∧ m < S.D := fun m hm =>
            ⟨(nd.2 m hm).1.trans hdd.1, (nd.2 m hm).2.2⟩
          have e1 : S.free s1 (S.head f) = S.free s (S.head f) := free_congr (fun y _ => r1.flag y (fun h => h))
          simp only [wp_get, wp_ite, isUpdating, i1.fits.head]
          split
          · rename_i hup
            simp only [wp_bind, wp_modify]
            have reach := k1 _ hup
            have i2 : Inv0 S (s1.note (.dropped f x.file)) := by
              refine ⟨⟨i1.fits.head, i1.fits.chain, i1.fits.also, i1.fits.inter, i1.fits.deps, i1.fits.node⟩,
                ⟨i1.log.once, fun a b h => ?_⟩, fun y h => ?_⟩
              · have : UEvent.dropped a b ∈ UEvent.dropped f x.file :: s1.log := h
                rcases List.mem_cons.mp this with h | h
                · cases h; exact ⟨edge, reach⟩
                · exact i1.log.drops a b h
              · have : UEvent.start y ∈ UEvent.dropped f x.file :: s1.log := h
                rcases List.mem_cons.mp this with h | h
                · cases h
                · exact i1.started y h
            have r2 : Rel S (fun _ => False) s (s1.note (.dropped f x.file)) := by
              refine r1.trans ⟨fun _ _ => rfl, fun _ a => a, fun y h => ?_, fun _ a => a, rfl⟩
              have : UEvent.start y ∈ UEvent.dropped f x.file :: s1.log := h
              rcases List.mem_cons.mp this with h | h
              · cases h
              · exact .inl h
            refine wp_mono (unlink_inv f last x.next _ i2 hnx (fun l hl' => ⟨(hl l hl').1, fun m hm => ?_⟩))
              (fun _ s3 q3 => ?_) (fun _ q => q) (fun _ q => q.elim)
            · have := (hl l hl').2 d rfl
              have := (nd.2 m hm).2.1
              omega
            · have r3 : Rel S (fun _ => False) s s3 := r2.trans
                ⟨fun h _ => q3.2.1 h, fun h a => (q3.2.1 h).trans a, fun y a => .inl (by rw [← q3.2.2.2.1]; exact a),
                  fun y a => (q3.2.2.1 y).trans a, q3.2.2.2.2⟩
              refine wp_mono (ihD f thisM last x.next sc s3 hnx (fun l hl' => ⟨(hl l hl').1, fun m hm => ?_⟩) q3.1
                (k.rel (r3.weaken (fun _ h => h.elim))) ((r3.flag _ (fun h => h)).trans hf))
                (fun _ s4 q4 => ⟨q4.1, r3.trans q4.2⟩) (fun _ q => q) (fun s' q => ⟨q.1, ?_⟩)
              · have := (hl l hl').2 d rfl
                have := (nd.2 m hm).2.1
                omega
              · have h := q.2
                rw [free_congr (fun y _ => r3.flag y (fun h => h))] at h
                cases hn : x.next with
                | none => rw [hn] at h; simp only [Shape.rem] at h ⊢; omega
                | some m =>
                  rw [hn] at h
                  have := (nd.2 m hn).2.1
                  simp only [Shape.rem] at h ⊢
                  omega
          · rename_i hup
            have hup' : (s1.file (S.head x.file)).updating = false := by simpa using hup
            have kx : Stk S s1 x.file := fun h hh => .step (k1 h hh) edge
            simp only [wp_bind]
            have lt := free_lt (S := S) (s := s1) (s' := s1) (fun _ _ => rfl) hf1 hup' (ok.eN _ _ edge)
            refine wp_mono (ihC x.file thisM sc.must s1 i1 kx hup') (fun r s2 q2 => ?_) (fun _ q => q)
              (fun s' q => ⟨q.1, ?_⟩)
            · have r2 := r1.trans q2.2
              simp only [wp_readDep]
              cases hx2 : s2.dep d with
              | none => exact q2.1.log
              | some x2 =>
                have nd2 := q2.1.fits.node d x2 hx2
                have hnx2 : ∀ m, x2.next = some m → S.own m = S.grp f ∧ m < S.D := fun m hm =>
                  ⟨(nd2.2 m hm).1.trans hdd.1, (nd2.2 m hm).2.2⟩
                simp only [wp_get, wp_ite, wp_pure]
                split
                · exact ⟨q2.1, r2⟩
                · have go : ∀ (sc' : Scan) (s3 : UState), Inv0 S s3 → Rel S (fun _ => False) s s3 →
                      wp (scanDeps e n f thisM (some d) x2.next sc')
                        (fun _ s' => Inv0 S s' ∧ Rel S (fun _ => False) s s') (LogOk S)
                        (fun s' => LogOk S s' ∧ n + 1 < S.free s (S.head f) * S.K + S.rem (some d)) s3 := by
                    intro sc' s3 i3 r3
                    refine wp_mono (ihD f thisM (some d) x2.next sc' s3 hnx2 (fun l hl' => ?_) i3
                      (k.rel (r3.weaken (fun _ h => h.elim))) ((r3.flag _ (fun h => h)).trans hf))
                      (fun _ s4 q4 => ⟨q4.1, r3.trans q4.2⟩) (fun _ q => q) (fun s' q => ⟨q.1, ?_⟩)
                    · cases hl'
                      exact ⟨hdd.1, fun m hm => (nd2.2 m hm).2.1⟩
                    · have h := q.2
                      rw [free_congr (fun y _ => r3.flag y (fun h => h))] at h
                      cases hn : x2.next with
                      | none => rw [hn] at h; simp only [Shape.rem] at h ⊢; omega
                      | some m =>
                        rw [hn] at h
                        have := (nd2.2 m hn).2.1
                        simp only [Shape.rem] at h ⊢
                        omega
                  simp only [wp_bind, wp_ite, wp_pure]
                  split
                  · exact go _ s2 q2.1 r2
                  · refine wp_of_T (fileMtime_quiet x2.file s2) (fun m s3 q3 => ?_)
                    have hl3 := q3.calm.dep d
                    rw [hx2] at hl3
                    cases hy : s3.dep d with
                    | none => rw [hy] at hl3; simp at hl3
                    | some y =>
                      rw [hy] at hl3
                      simp only [Option.map_some, Option.some.injEq] at hl3
                      refine wp_of_T (writeDep_quiet d _ s3 y hy (by rw [hl3]; rfl)) (fun _ s4 q4 => ?_)
                      have c := q3.calm.trans q4.calm
                      exact go _ s4 (c.inv q2.1) (r2.trans c.rel)
            · have h := q.2
              have : (S.free s1 (S.head x.file) + 1) * S.K ≤ S.free s1 (S.head f) * S.K := Nat.mul_le_mul_right _ lt
              rw [e1] at this
              have := hdd.2
              simp only [Shape.rem]
              omega
    · -- checkDep
      rw [checkDep]
      simp only [wp_bind]
      rw [setUpdating_wp true f _ _ _ s i.fits]
      have i1 := setFlag_inv i (S.head f) true
      have k1 := k.flagged true
      have e1 : S.free (s.setFile (S.head f) fun x => { x with updating := true }) (S.head f) = S.free s (S.head f) :=
        free_congr (fun y hy => flag_other s (S.head f) true y hy)
      have o1 : ∀ y, y ≠ S.head f → ((s.setFile (S.head f) fun x => { x with updating := true }).file y).updating = (s.file y).updating :=
        fun y hy => flag_other s (S.head f) true y hy
      have u1 : ∀ y, ((s.setFile (S.head f) fun x => { x with updating := true }).file y).updated = (s.file y).updated :=
        fun y => flag_updated s (S.head f) true y
      have l1 : (s.setFile (S.head f) fun x => { x with updating := true }).log = s.log := rfl
      have c1 : (s.setFile (S.head f) fun x => { x with updating := true }).considered = s.considered := rfl
      generalize (s.setFile (S.head f) fun x => { x with updating := true }) = s1 at *
      simp only [wp_get, wp_ite]
      rw [if_pos (Or.inr (by rw [i1.fits.inter f]; simp))]
      simp only [wp_bind, wp_pure]
      refine wp_mono (ihF f s1 i1 k1) (fun st s2 q2 => ?_) (fun _ q => q) (fun s' q => ⟨q.1, ?_⟩)
      · refine wp_of_T (fileMtime_quiet f s2) (fun m s3 q3 => ?_)
        have i3 := q3.calm.inv q2.1
        have r3 : Rel S (· = S.head f) s1 s3 := q2.2.trans q3.calm.rel
        rw [setUpdating_wp false f _ _ _ s3 i3.fits]
        refine ⟨setFlag_inv i3 _ _, ⟨fun h _ => ?_, fun h a => ?_, fun x a => ?_, fun x a => ?_, r3.cons.trans c1⟩⟩
        · by_cases hh : h = S.head f
          · rw [hh, flag_self, hf]
          · rw [flag_other s3 _ _ h hh, r3.flag h hh, o1 h hh]
        · by_cases hh : h = S.head f
          · rw [hh]; exact flag_self s3 _ _
          · rw [flag_other s3 _ _ h hh, r3.flag h hh, o1 h hh]; exact a
        · have : UEvent.start x ∈ s3.log := a
          rcases r3.starts x this with b | b | b
          · rw [l1] at b; exact .inl b
          · by_cases hh : S.head x = S.head f
            · exact .inr (.inl (by rw [hh]; exact hf))
            · exact .inr (.inl (by rw [← o1 _ hh]; exact b))
          · exact .inr (.inl (by rw [b]; exact hf))
        · rw [flag_updated]; exact r3.upd x (by rw [u1]; exact a)
      · have h := q.2
        rw [e1] at h
        rw [Nat.add_mul]
        unfold Shape.K at h ⊢
        omega

end Remake
