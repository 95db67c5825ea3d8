import Verif.Update.Plain3
/-!
# Updating targets: the goals
-/
namespace Remake
set_option linter.unusedVariables false
set_option linter.unusedSimpArgs false

variable {e : Env} {S : Shape} {pre0 : Nat → List Nat} {P : Nat → Prop} {b : Nat}

/-- No target is being worked on. -/
def NoFlag (s : UState) : Prop := ∀ h, (s.file h).updating = false

theorem NoFlag.stk {s : UState} (h : NoFlag s) (f : Nat) : Stk S s f := fun k hk => by rw [h k] at hk; cases hk

theorem Calm.noFlag {s s'} (c : Calm s s') (h : NoFlag s) : NoFlag s' := fun x => (still_updating (c.still x)).trans (h x)

/-- How deep the recursion goes. -/
def Shape.depth (S : Shape) : Nat := S.N * S.K + S.D + S.A + S.C + 6

theorem updateFile_top (ok : S.Ok) (n f : Nat) (s : UState) (i : Inv0 S s) (h : NoFlag s) :
    wp (updateFile e n f) (fun _ s' => Inv0 S s' ∧ NoFlag s' ∧ Rel S (· = S.head f) s s') (LogOk S)
      (fun s' => LogOk S s' ∧ n < S.depth) s := by
  refine wp_mono ((run_inv (e := e) ok n).1 f s i (h.stk f)) (fun _ s' q => ⟨q.1, fun x => q.2.off x (h x), q.2⟩) (fun _ q => q)
    (fun s' q => ⟨q.1, ?_⟩)
  have h1 := q.2
  have h2 := Nat.mul_le_mul_right S.K (free_le (S := S) s (S.head f))
  unfold Shape.depth
  omega

theorem goalEntries_inv (ok : S.Ok) (n : Nat) (xs : List Nat) (r : GoalRes) (s : UState) (i : Inv0 S s) (h : NoFlag s) :
    wp (goalEntries e n xs r) (fun _ s' => Inv0 S s' ∧ NoFlag s') (LogOk S)
      (fun s' => LogOk S s' ∧ n < S.depth) s := by
  induction xs generalizing r s with
  | nil => exact ⟨i, h⟩
  | cons x xs ih =>
    rw [goalEntries]
    simp only [wp_bind, wp_get, wp_ite, wp_pure]
    refine wp_mono (updateFile_top ok n x s i h) (fun st s1 q1 => ?_) (fun _ q => q) (fun _ q => q)
    obtain ⟨i1, h1, _⟩ := q1
    split
    · refine wp_of_T (fileMtime_quiet x s1) (fun _ s2 q2 => ?_)
      split
      · exact ⟨q2.calm.inv i1, q2.calm.noFlag h1⟩
      · exact ih _ s2 (q2.calm.inv i1) (q2.calm.noFlag h1)
    · split
      · exact ⟨i1, h1⟩
      · exact ih _ s1 i1 h1

theorem goalPass_inv (ok : S.Ok) (n : Nat) (gs : List Nat) (st : UStatus) (s : UState) (i : Inv0 S s) (h : NoFlag s) :
    wp (goalPass e n gs st) (fun _ s' => Inv0 S s' ∧ NoFlag s') (LogOk S)
      (fun s' => LogOk S s' ∧ n < S.depth) s := by
  induction gs generalizing st s with
  | nil => exact ⟨i, h⟩
  | cons g gs ih =>
    rw [goalPass]
    simp only [wp_bind, wp_get, wp_ite, wp_pure]
    refine wp_mono (goalEntries_inv ok n _ _ s i h) (fun r s1 q1 => ?_) (fun _ q => q) (fun _ q => q)
    split
    · exact q1
    · exact wp_mono (ih r.status s1 q1.1 q1.2) (fun _ s2 q2 => q2) (fun _ q => q) (fun _ q => q)

theorem nextPass_inv {s : UState} (c : Nat) (i : Inv0 S s) : Inv0 S { s with considered := c } :=
  ⟨⟨i.fits.head, i.fits.chain, i.fits.also, i.fits.inter, i.fits.deps, i.fits.node⟩, ⟨i.log.once, i.log.drops⟩, i.started⟩

theorem goalLoop_inv (ok : S.Ok) (n k : Nat) (gs : List Nat) (st : UStatus) (s : UState) (i : Inv0 S s) (h : NoFlag s) :
    wp (goalLoop e n k gs st) (fun _ s' => Inv0 S s' ∧ NoFlag s') (LogOk S) (LogOk S) s := by
  induction k generalizing gs st s with
  | zero =>
    cases gs with
    | nil => rw [goalLoop]; exact ⟨i, h⟩
    | cons g gs => rw [goalLoop]; exact i.log
  | succ k ih =>
    cases gs with
    | nil => rw [goalLoop]; exact ⟨i, h⟩
    | cons g gs =>
      rw [goalLoop]
      simp only [wp_bind, wp_ite, wp_modify, wp_pure]
      refine wp_mono (reapBlock_calm s) (fun _ s1 q1 => ?_) (fun _ q => q.logOk i.log) (fun _ q => q.elim)
      refine wp_mono (goalPass_inv ok n (g :: gs) st s1 (q1.1.inv i) (q1.1.noFlag h)) (fun r s2 q2 => ?_) (fun _ q => q) (fun _ q => q.1)
      split
      · exact ih _ _ s2 q2.1 q2.2
      · exact ih _ _ _ (nextPass_inv _ q2.1) q2.2

theorem updateGoals_inv (ok : S.Ok) (n k : Nat) (gs : List Nat) (s : UState) (i : Inv0 S s) (h : NoFlag s) :
    wp (updateGoals e n k gs) (fun _ s' => Inv0 S s' ∧ NoFlag s') (LogOk S) (LogOk S) s := by
  unfold updateGoals
  rw [wp_bind, wp_modify]
  exact goalLoop_inv ok n k gs .none _ (nextPass_inv _ i) h

/-! ### Plain graphs -/

/-- What is known of the goals: `all` of them and those that are left. -/
structure GoalsOk (all cur : List Nat) (st : UStatus) (log : List UEvent) : Prop where
  status : st = .none ∨ (2 ≤ st.rank ∧ ∃ g ∈ all, ∃ u, u ≠ .success ∧ UEvent.done g u ∈ log)
  goals : ∀ g ∈ all, g ∈ cur ∨ ∃ u, UEvent.done g u ∈ log ∧ (u = .success ∨ 2 ≤ st.rank)

theorem GoalsOk.mono {all cur st log} (h : GoalsOk all cur st log) (l : List UEvent) : GoalsOk all cur st (l ++ log) := by
  refine ⟨h.status.imp_right (fun ⟨a, g, hg, u, hu, hm⟩ => ⟨a, g, hg, u, hu, List.mem_append_right _ hm⟩), fun g hg => ?_⟩
  exact (h.goals g hg).imp_right (fun ⟨u, hm, hu⟩ => ⟨u, List.mem_append_right _ hm, hu⟩)

theorem GoalsOk.of_log {all cur st log log'} (h : GoalsOk all cur st log) (hl : ∃ l, log' = l ++ log) : GoalsOk all cur st log' := by
  obtain ⟨l, rfl⟩ := hl
  exact h.mono l

/-- What holds between two looks at goals. -/
structure Top (S : Shape) (pre0 : Nat → List Nat) (b : Nat) (s : UState) : Prop where
  inv0 : Inv0 S s
  flag : NoFlag s
  inv : Inv1 S pre0 (fun _ => False) b s

theorem Quiet.top {s s'} (q : Quiet s s') (t : Top S pre0 b s) : Top S pre0 b s' :=
  ⟨q.calm.inv t.inv0, q.calm.noFlag t.flag, q.inv1 t.inv⟩

/-- The outcome of an entry. -/
def goalRes (e : Env) (fail : UStatus) (r : GoalRes) (y : UFile) : GoalRes :=
  let hit : Bool := (decide (fail ≠ .success) || y.updated) && decide (r.status.rank < UStatus.question.rank)
  let bad := hit && decide (y.ustatus ≠ .success)
  { status := if bad then y.ustatus else r.status
    stop := bad && e.question && !e.keepGoing
    notUpdated := r.notUpdated || !y.updated }

theorem goalEntries_cons (n x : Nat) (xs : List Nat) (r : GoalRes) : goalEntries e n (x :: xs) r = (do
    let fail ← updateFile e n x
    let s ← UM.get
    let y := s.file x
    let hit : Bool := (decide (fail ≠ .success) || y.updated) && decide (r.status.rank < UStatus.question.rank)
    let bad := hit && decide (y.ustatus ≠ .success)
    if hit && !bad then do
      let _ ← fileMtime e x
      pure ()
    else pure ()
    if (goalRes e fail r y).stop then pure (goalRes e fail r y) else goalEntries e n xs (goalRes e fail r y)) := rfl

theorem goalEntries_plain (ok : S.Ok) (pl : S.Plain) (n g : Nat) (st : UStatus) (s : UState) (t : Top S pre0 b s) (hg : g < S.N)
    (all cur : List Nat) (hall : g ∈ all) (go : GoalsOk all (g :: cur) st s.log) :
    wp (goalEntries e n [g] { status := st }) (fun r s' => Top S pre0 b s' ∧ Rel2 S (· = g) s s' ∧
        GoalsOk all (if r.stop = false ∧ r.notUpdated = true then g :: cur else cur) r.status s'.log ∧
        (r.stop = false → r.notUpdated = true → s'.count ≠ b)) (OrderOk pre0)
      (fun s' => OrderOk pre0 s' ∧ n < S.depth) s := by
  rw [goalEntries_cons]
  simp only [wp_bind, wp_get]
  refine wp_mono (wp_and ((run_plain (e := e) ok pl pre0 b n).1 g _ s t.inv0 (t.flag.stk g) t.inv hg (fun _ h => h.elim) (fun h => h))
    (updateFile_top ok n g s t.inv0 t.flag)) (fun fail s1 q1 => ?_) (fun _ q => q.1) (fun _ q => ⟨q.1, q.2.2⟩)
  obtain ⟨⟨i1, r1, c1, t1⟩, i01, f1, _⟩ := q1
  have go1 : GoalsOk all (g :: cur) st s1.log := go.of_log r1.log
  have hcons := i1.cons g (by rw [c1, r1.cons])
  have tail : ∀ s2, Quiet s1 s2 → wp
      (if (goalRes e fail { status := st } (s1.file g)).stop then pure (goalRes e fail { status := st } (s1.file g))
        else goalEntries e n [] (goalRes e fail { status := st } (s1.file g)))
      (fun r s' => Top S pre0 b s' ∧ Rel2 S (· = g) s s' ∧
        GoalsOk all (if r.stop = false ∧ r.notUpdated = true then g :: cur else cur) r.status s'.log ∧
        (r.stop = false → r.notUpdated = true → s'.count ≠ b)) (OrderOk pre0) (fun s' => OrderOk pre0 s' ∧ n < S.depth) s2 := by
    intro s2 q
    have k1 : Top S pre0 b s2 := q.top ⟨i01, f1, i1⟩
    have k2 : Rel2 S (· = g) s s2 := r1.trans q.rel2
    have k3 := q.log
    have k4 : s2.count = s1.count := by unfold UState.count; rw [q.log]
    have same : ∀ r : GoalRes, wp (if r.stop = true then pure r else goalEntries e n [] r)
        (fun r' s' => r' = r ∧ s' = s2) (fun _ => False) (fun _ => False) s2 := by
      intro r
      rw [goalEntries]
      simp only [wp_ite, wp_pure, ite_self]
      simp
    refine wp_mono (same _) (fun r' s' hq => ?_) (fun _ q => q.elim) (fun _ q => q.elim)
    obtain ⟨hr', rfl⟩ := hq
    have hbad : ((((decide (fail ≠ .success) || (s1.file g).updated) && decide (st.rank < UStatus.question.rank)) &&
            decide ((s1.file g).ustatus ≠ .success)) = true) ↔ ((s1.file g).updated = true ∧ st.rank < 2 ∧ (s1.file g).ustatus ≠ .success) := by
      rw [show UStatus.question.rank = 2 from rfl]
      simp only [Bool.and_eq_true, Bool.or_eq_true, decide_eq_true_eq]
      constructor
      · rintro ⟨⟨a, c⟩, d⟩
        refine ⟨?_, c, d⟩
        rcases a with a | a
        · exact (t1.1 a).1
        · exact a
      · rintro ⟨a, c, d⟩
        exact ⟨⟨.inr a, c⟩, d⟩
    have hstop : r'.stop = true → (s1.file g).updated = true ∧ st.rank < 2 ∧ (s1.file g).ustatus ≠ .success := by
      intro h
      rw [hr'] at h
      simp only [goalRes] at h
      rw [Bool.and_eq_true, Bool.and_eq_true] at h
      exact hbad.mp h.1.1
    have hnot : r'.notUpdated = true ↔ (s1.file g).updated = false := by
      rw [hr']; simp [goalRes]
    have hstat : r'.status = if ((s1.file g).updated = true ∧ st.rank < 2 ∧ (s1.file g).ustatus ≠ .success) then (s1.file g).ustatus else st := by
      rw [hr']
      simp only [goalRes]
      by_cases hb : ((s1.file g).updated = true ∧ st.rank < 2 ∧ (s1.file g).ustatus ≠ .success)
      · rw [if_pos hb, if_pos (hbad.mpr hb)]
      · rw [if_neg hb, if_neg (fun h => hb (hbad.mp h))]
    refine ⟨k1, k2, ?_, fun h1 h2 => ?_⟩
    · rw [k3]
      by_cases hup : (s1.file g).updated = true
      · have hif : ¬ (r'.stop = false ∧ r'.notUpdated = true) := fun h => by
          rw [hnot.mp h.2] at hup; cases hup
        rw [if_neg hif]
        have hd := i1.dn g hup
        have hrank : (s1.file g).ustatus ≠ .success → 2 ≤ (s1.file g).ustatus.rank := by
          intro h
          cases hu : (s1.file g).ustatus <;> rw [hu] at h hd <;> simp_all [UStatus.rank]
        have hmon : 2 ≤ st.rank → 2 ≤ r'.status.rank := by
          intro h
          rw [hstat]
          split
          · omega
          · exact h
        refine ⟨?_, fun x hx => ?_⟩
        · rw [hstat]
          split
          · rename_i hb
            exact .inr ⟨hrank hb.2.2, g, hall, _, hb.2.2, hd.2⟩
          · exact go1.status
        · rcases go1.goals x hx with h | ⟨u, hm, hu⟩
          · rcases List.mem_cons.mp h with h | h
            · refine .inr ⟨_, by rw [h]; exact hd.2, ?_⟩
              by_cases hs : (s1.file g).ustatus = .success
              · exact .inl hs
              · refine .inr ?_
                rw [hstat]
                split
                · exact hrank hs
                · rename_i hb
                  exact Nat.le_of_not_lt (fun h => hb ⟨hup, h, hs⟩)
            · exact .inl h
          · exact .inr ⟨u, hm, hu.imp_right hmon⟩
      · have hup' : (s1.file g).updated = false := by simpa using hup
        have hns : r'.stop = false := by
          cases hst : r'.stop with
          | false => rfl
          | true => exact absurd (hstop hst).1 hup
        rw [if_pos ⟨hns, hnot.mpr hup'⟩, hstat, if_neg (fun h => hup h.1)]
        exact go1
    · rw [k4]
      rcases hcons with h | h | h
      · exact h.elim
      · rw [hnot.mp h2] at h; cases h
      · exact h.2
  rw [wp_ite]
  split
  · rw [wp_bind]
    exact wp_of_T (fileMtime_quiet g s1) (fun _ s2 q2 => tail s2 q2)
  · exact tail s1 (Quiet.refl s1)

/-- One look at each of the goals. -/
theorem goalPass_plain (ok : S.Ok) (pl : S.Plain) (n : Nat) (gs : List Nat) (st : UStatus) (s : UState) (t : Top S pre0 b s)
    (all cur : List Nat) (hall : ∀ g ∈ gs, g ∈ all) (hN : ∀ g ∈ gs, g < S.N) (go : GoalsOk all (gs ++ cur) st s.log) :
    wp (goalPass e n gs st) (fun r s' => Top S pre0 b s' ∧ Rel2 S (fun _ => True) s s' ∧ GoalsOk all (r.2.1 ++ cur) r.1 s'.log ∧
        (∀ g ∈ r.2.1, g ∈ gs) ∧ r.2.1.length ≤ gs.length ∧ (gs ≠ [] → s'.count = b → r.2.1.length < gs.length) ∧
        (r.2.2 = true → r.2.1.length < gs.length)) (OrderOk pre0)
      (fun s' => OrderOk pre0 s' ∧ n < S.depth) s := by
  induction gs generalizing st s cur with
  | nil => exact ⟨t, Rel2.refl s, go, by simp, by simp, by simp, by simp⟩
  | cons g gs ih =>
    rw [goalPass]
    simp only [wp_bind, wp_get, wp_ite, wp_pure]
    rw [t.inv0.fits.head, pl.head, t.inv0.fits.chain, pl.chain]
    refine wp_mono (goalEntries_plain ok pl n g st s t (hN g (by simp)) all (gs ++ cur) (hall g (by simp)) go)
      (fun r s1 q1 => ?_) (fun _ q => q) (fun _ q => q)
    obtain ⟨t1, r1, go1, ne1⟩ := q1
    have r1' : Rel2 S (fun _ => True) s s1 := r1.weaken (fun _ _ => trivial)
    split
    · rename_i hst
      rw [if_neg (fun h => by rw [hst] at h; cases h.1)] at go1
      exact ⟨t1, r1', go1, fun x hx => List.mem_cons_of_mem _ hx, by simp, by simp, by simp⟩
    · rename_i hst
      have hst' : r.stop = false := by simpa using hst
      have hperm : GoalsOk all (gs ++ (if r.notUpdated = true then g :: cur else cur)) r.status s1.log := by
        refine ⟨go1.status, fun x hx => (go1.goals x hx).imp_left (fun h => ?_)⟩
        by_cases hn : r.notUpdated = true
        · rw [if_pos ⟨hst', hn⟩] at h
          rw [if_pos hn]
          simp only [List.mem_cons, List.mem_append] at h ⊢
          rcases h with h | h | h
          · exact .inr (.inl h)
          · exact .inl h
          · exact .inr (.inr h)
        · rw [if_neg (fun h => hn h.2)] at h
          rw [if_neg hn]
          exact h
      refine wp_mono (ih r.status s1 t1 _ (fun x hx => hall x (by simp [hx])) (fun x hx => hN x (by simp [hx])) hperm)
        (fun q s2 q2 => ?_) (fun _ q => q) (fun _ q => q)
      obtain ⟨t2, r2, go2, sub2, len2, prog2, stop2⟩ := q2
      have hcount := r2.count
      have hkb := t1.inv.kb
      refine ⟨t2, r1'.trans r2, ⟨go2.status, fun x hx => (go2.goals x hx).imp_left (fun h => ?_)⟩, fun x hx => ?_, ?_, fun _ hc => ?_, fun h => ?_⟩
      · by_cases hn : r.notUpdated = true
        · rw [if_pos hn] at h ⊢
          simp only [List.mem_cons, List.mem_append] at h ⊢
          rcases h with h | h | h
          · exact .inl (.inr h)
          · exact .inl (.inl h)
          · exact .inr h
        · rw [if_neg hn] at h ⊢
          exact h
      · by_cases hn : r.notUpdated = true
        · rw [if_pos hn] at hx
          rcases List.mem_cons.mp hx with h | h
          · rw [h]; exact List.mem_cons_self ..
          · exact List.mem_cons_of_mem _ (sub2 x h)
        · rw [if_neg hn] at hx
          exact List.mem_cons_of_mem _ (sub2 x hx)
      · split
        · simp only [List.length_cons]; omega
        · simp only [List.length_cons]; omega
      · have hn : ¬ r.notUpdated = true := fun hn => ne1 hst' hn (by omega)
        rw [if_neg hn, List.length_cons]
        omega
      · have := stop2 h
        split
        · simp only [List.length_cons]; omega
        · simp only [List.length_cons]; omega

/-- A new pass. -/
theorem nextPass_plain {s : UState} (c b' : Nat) (t : Top S pre0 b s) (hc : ∀ x, (s.file x).considered < c) (hb : b' ≤ s.count)
    (hr : s.count = b' → s.running = []) : Top S pre0 b' { s with considered := c } := by
  refine ⟨nextPass_inv c t.inv0, t.flag, ⟨t.inv.fin, t.inv.st, t.inv.dn, t.inv.dn', t.inv.run, t.inv.nodup, t.inv.runStart,
    fun x a => ?_, hr, hb, t.inv.lists, t.inv.order, t.inv.startN⟩⟩
  have := hc x
  have a : (s.file x).considered = c := a
  omega

theorem nodup_length_le {l m : List Nat} (h : l.Nodup) (hs : ∀ x ∈ l, x ∈ m) : l.length ≤ m.length := by
  induction l generalizing m with
  | nil => exact Nat.zero_le _
  | cons a l ih =>
    rw [List.nodup_cons] at h
    have ha := hs a (List.mem_cons_self ..)
    have := ih (m := m.erase a) h.2 (fun x hx => by
      have hxa : x ≠ a := fun e => h.1 (by rw [← e]; exact hx)
      exact (List.mem_erase_of_ne hxa).mpr (hs x (List.mem_cons_of_mem _ hx)))
    rw [List.length_erase_of_mem ha] at this
    have := List.length_pos_of_mem ha
    rw [List.length_cons]
    omega

theorem Top.count_le {s} (t : Top S pre0 b s) : s.count ≤ S.N := by
  have h1 := t.inv0.log.once
  have h2 : ∀ x ∈ s.log.filterMap startOf, x ∈ List.range S.N := by
    intro x hx
    rw [List.mem_filterMap] at hx
    obtain ⟨ev, hev, he⟩ := hx
    cases ev with
    | start y =>
      simp only [startOf, Option.some.injEq] at he
      subst he
      exact List.mem_range.mpr (t.inv.startN y hev)
    | done => cases he
    | dropped => cases he
  have := nodup_length_le h1 h2
  rw [List.length_range] at this
  exact this

/-- How many passes are left. -/
def passes (S : Shape) (s : UState) (gs : List Nat) (stale : Bool) : Nat :=
  2 * (S.N - s.count) + s.running.length + 2 * gs.length + (if stale then 1 else 0)

theorem Step.top {s s'} (c : Calm s s') (h : Step S pre0 (fun _ => False) b s s') (t : Top S pre0 b s) : Top S pre0 b s' :=
  ⟨c.inv t.inv0, c.noFlag t.flag, h.inv⟩

theorem Calm.count {s s'} (c : Calm s s') : s'.count = s.count := by
  unfold UState.count; rw [c.startsList]

theorem goalLoop_plain (ok : S.Ok) (pl : S.Plain) (n k : Nat) (all : List Nat) (gs : List Nat) (st : UStatus) (b : Nat) (s : UState) (stale : Bool)
    (t : Top S pre0 b s) (hle : ∀ x, (s.file x).considered ≤ s.considered)
    (hlt : stale = false → ∀ x, (s.file x).considered < s.considered)
    (hall : ∀ g ∈ gs, g ∈ all) (hN : ∀ g ∈ gs, g < S.N) (go : GoalsOk all gs st s.log) :
    wp (goalLoop e n k gs st) (fun st' s' => OrderOk pre0 s' ∧ (∃ b', Top S pre0 b' s') ∧ GoalsOk all [] st' s'.log) (OrderOk pre0)
      (fun s' => OrderOk pre0 s' ∧ (n < S.depth ∨ k < passes S s gs stale)) s := by
  have hpl : ∀ x, (s : UState) → Fits S s → (s.file x).alsoMake = [] := fun x s i => (i.also x).trans (pl.also x)
  induction k generalizing gs st b s stale with
  | zero =>
    cases gs with
    | nil => rw [goalLoop]; exact ⟨t.inv.order, ⟨b, t⟩, go⟩
    | cons g gs =>
      rw [goalLoop]
      refine ⟨t.inv.order, .inr ?_⟩
      unfold passes
      simp only [List.length_cons]
      omega
  | succ k ih =>
    cases gs with
    | nil => rw [goalLoop]; exact ⟨t.inv.order, ⟨b, t⟩, go⟩
    | cons g gs =>
      rw [goalLoop]
      simp only [wp_bind, wp_ite, wp_modify, wp_pure]
      refine wp_mono (wp_and (reapBlock_plain hpl s t.inv0.fits t.inv) (reapBlock_calm s)) (fun _ s1 q1 => ?_) (fun _ q => q.1) (fun _ q => q.1.elim)
      obtain ⟨⟨_, st1⟩, c1, run1⟩ := q1
      have t1 := st1.top c1 t
      have cnt1 : s1.count = s.count := c1.count
      have cd1 : ∀ x, (s1.file x).considered = (s.file x).considered := fun x => still_considered (c1.still x)
      have hle1 : ∀ x, (s1.file x).considered ≤ s1.considered := fun x => by rw [cd1, c1.cons]; exact hle x
      have go1 : GoalsOk all (g :: gs) st s1.log := go.of_log st1.rel.log
      have hNle := t1.count_le
      -- the pass, given the number of recipes to start from
      have pass : ∀ b', Top S pre0 b' s1 → (s1.running.length < s.running.length ∨ stale = true ∨ b' = s1.count) →
          wp (goalPass e n (g :: gs) st) (fun r s2 =>
            wp (if r.2.2 = true then pure () else UM.modify fun s => { s with considered := s.considered + 1 })
              (fun _ s3 => wp (goalLoop e n k r.2.1 r.1) (fun st' s' => OrderOk pre0 s' ∧ (∃ b', Top S pre0 b' s') ∧ GoalsOk all [] st' s'.log) (OrderOk pre0)
                (fun s' => OrderOk pre0 s' ∧ (n < S.depth ∨ k + 1 < passes S s (g :: gs) stale)) s3)
              (OrderOk pre0) (fun s' => OrderOk pre0 s' ∧ (n < S.depth ∨ k + 1 < passes S s (g :: gs) stale)) s2) (OrderOk pre0)
            (fun s' => OrderOk pre0 s' ∧ (n < S.depth ∨ k + 1 < passes S s (g :: gs) stale)) s1 := by
        intro b' tb hprog
        refine wp_mono (goalPass_plain ok pl n (g :: gs) st s1 tb all [] hall hN (by rw [List.append_nil]; exact go1)) (fun r s2 q2 => ?_)
          (fun _ q => q) (fun _ q => ⟨q.1, .inl q.2⟩)
        obtain ⟨t2, r2, go2, sub2, len2, prog2, stop2⟩ := q2
        rw [List.append_nil] at go2
        have hle2 : ∀ x, (s2.file x).considered ≤ s2.considered := by
          intro x
          rw [r2.cons]
          rcases r2.consd x with h | h
          · rw [h]; exact hle1 x
          · rw [h]; exact Nat.le_refl _
        have hN2 := t2.count_le
        have hj := r2.jobs
        have hc := r2.count
        have hrun : s1.running.length ≤ s.running.length := by
          rcases run1 with h | h
          · omega
          · rw [h]; exact Nat.zero_le _
        rw [wp_ite]
        split
        · rename_i hst
          rw [wp_pure]
          have hl := stop2 hst
          refine wp_mono (ih r.2.1 r.1 b' s2 true t2 hle2 (fun h => by cases h) (fun x hx => hall x (sub2 x hx)) (fun x hx => hN x (sub2 x hx)) go2)
            (fun _ _ q => q) (fun _ q => q) (fun s' q => ⟨q.1, q.2.imp_right (fun h => ?_)⟩)
          unfold passes at h ⊢
          simp only [if_true] at h
          omega
        · rename_i hst
          rw [wp_modify]
          have t3 : Top S pre0 0 { s2 with considered := s2.considered + 1 } ∨ Top S pre0 s2.count { s2 with considered := s2.considered + 1 } := by
            by_cases h0 : s2.count = 0
            · by_cases hr : s2.running = []
              · exact .inr (nextPass_plain _ _ t2 (fun x => Nat.lt_succ_of_le (hle2 x)) (Nat.le_refl _) (fun _ => hr))
              · exfalso
                have hb0 : b' = 0 := by have := t2.inv.kb; omega
                exact hr (t2.inv.kr (by omega))
            · exact .inl (nextPass_plain _ _ t2 (fun x => Nat.lt_succ_of_le (hle2 x)) (Nat.zero_le _) (fun h => absurd h h0))
          obtain ⟨b3, t3⟩ : ∃ b3, Top S pre0 b3 { s2 with considered := s2.considered + 1 } := by
            rcases t3 with t3 | t3
            · exact ⟨_, t3⟩
            · exact ⟨_, t3⟩
          refine wp_mono (ih r.2.1 r.1 b3 _ false t3 (fun x => Nat.le_succ_of_le (hle2 x)) (fun _ x => Nat.lt_succ_of_le (hle2 x))
            (fun x hx => hall x (sub2 x hx)) (fun x hx => hN x (sub2 x hx)) go2)
            (fun _ _ q => q) (fun _ q => q) (fun s' q => ⟨q.1, q.2.imp_right (fun h => ?_)⟩)
          have h : k < 2 * (S.N - s2.count) + s2.running.length + 2 * r.2.1.length + 0 := h
          unfold passes
          rcases hprog with hp | hp | hp
          · omega
          · rw [hp]; simp only [if_true]; omega
          · by_cases hcb : s2.count = b'
            · have := prog2 (by simp) hcb
              omega
            · have : s1.count < s2.count := by omega
              omega
      simp only [wp_ite, wp_modify, wp_pure] at pass
      cases hs : stale with
      | true =>
        subst hs
        exact pass b t1 (.inr (.inl rfl))
      | false =>
        subst hs
        by_cases hr : s1.running = []
        · have tb : Top S pre0 s1.count s1 := by
            have := nextPass_plain s1.considered s1.count t1 (fun x => by rw [cd1, c1.cons]; exact hlt rfl x) (Nat.le_refl _) (fun _ => hr)
            exact this
          exact pass s1.count tb (.inr (.inr rfl))
        · rcases run1 with h | h
          · exact pass b t1 (.inl h)
          · exact absurd h hr

end Remake
