import Verif.Output.Lemmas

/-! # Every step keeps the invariant of synchronised output -/
set_option linter.unusedVariables false
set_option linter.unusedSimpArgs false
namespace Remake
open Spec

variable {c : OutConfig} {ls : List OutLabel} {s s' : OutSys} {bs : List Block} {cur : List OutEvent}

theorem append_field (c : OutConfig) (t : TmpFiles) (e err : Bool) (x : Str) :
    (t.append c e x).field err = t.field err ++ (if (e && !c.combined) = err then x else []) := by
  unfold TmpFiles.append TmpFiles.field
  cases h : (e && !c.combined) <;> cases err <;> simp

/-- The dump of one context does not look at the others. -/
theorem curOk_setTmp {t t' : Nat → TmpFiles} {m : Nat} {p : DumpPc} (h : ∀ j, busyWith p j = true → t' j = t j) (hc : curOk t m cur p) : curOk t' m cur p := by
  cases p with
  | out j pos e sem => have := h j (by simp [busyWith]); simpa only [curOk, this] using hc
  | err j pos sem => have := h j (by simp [busyWith]); simpa only [curOk, this] using hc
  | leave j sem => have := h j (by simp [busyWith]); simpa only [curOk, this] using hc
  | unlock j sem => have := h j (by simp [busyWith]); simpa only [curOk, this] using hc
  | _ => exact hc

theorem flagsOk_setTmp {t t' : Nat → TmpFiles} {p : DumpPc} (h : ∀ j, busyWith p j = true → t' j = t j) (hc : flagsOk c t p) : flagsOk c t' p := by
  cases p with
  | wait j o e => have := h j (by simp [busyWith]); simpa only [flagsOk, this] using hc
  | enter j o e sem => have := h j (by simp [busyWith]); simpa only [flagsOk, this] using hc
  | out j pos e sem => have := h j (by simp [busyWith]); simpa only [flagsOk, this] using hc
  | _ => exact hc

theorem inv_write (hi : OutInv c ls s bs cur) (m j : Nat) (e : Bool) (x : Str) (hb : busyWith (s.pc m) j = false) :
    OutInv c (ls ++ [.write m j e x]) (s.setTmp m j ((s.tmp m j).append c e x)) bs cur := by
  have same : ∀ k i, busyWith (s.pc k) i = true → (s.setTmp m j ((s.tmp m j).append c e x)).tmp k i = s.tmp k i := by
    intro k i h
    simp only [OutSys.setTmp]
    rw [if_neg]
    rintro ⟨rfl, rfl⟩
    rw [hb] at h; cases h
  refine ⟨hi.cap, hi.own, hi.lock, hi.safe, hi.free, ?_, ?_, ?_, ?_, ?_, hi.whole_mono _⟩
  · intro k h; exact curOk_setTmp (same k) (hi.cur k h)
  · intro k i err
    rw [writtenTo_append, hi.acct k i err, List.append_assoc]
    congr 1
    simp only [OutSys.setTmp, writtenTo, List.append_nil]
    by_cases hk : k = m ∧ i = j
    · obtain ⟨rfl, rfl⟩ := hk
      rw [restOf_ne_trunc hb, restOf_ne_trunc hb]
      simp only [and_self, if_true, true_and]
      rw [append_field]
    · rw [if_neg hk, if_neg (by rintro ⟨rfl, rfl, _⟩; exact hk ⟨rfl, rfl⟩), List.append_nil]
  · intro k; exact flagsOk_setTmp (same k) (hi.flags k)
  · intro hc k i
    simp only [OutSys.setTmp]
    split
    · simp only [TmpFiles.append, hc, Bool.not_true, Bool.and_false]
      exact hi.comb hc m j
    · exact hi.comb hc k i
  · intro k i
    exact Nat.le_trans (hi.count k i) (dumpCalls_mono k i ls _)

theorem inv_direct (hi : OutInv c ls s bs cur) (m : Nat) (e : Bool) (x : Str) :
    OutInv c (ls ++ [.direct m e x]) (s.emit ⟨m, none, e, false, x⟩) bs cur := by
  refine ⟨?_, hi.own, hi.lock, hi.safe, hi.free, hi.cur, ?_, hi.flags, hi.comb, ?_, hi.whole_mono _⟩
  · simp only [OutSys.emit]
    rw [capturedEvents_append, hi.cap]
    simp [capturedEvents]
  · intro k j err
    rw [writtenTo_other c k j err ls _ (by intros; simp)]
    exact hi.acct k j err
  · intro k j; exact Nat.le_trans (hi.count k j) (dumpCalls_mono k j ls _)

theorem inv_dump (hi : OutInv c ls s bs cur) (m j : Nat) (h : outStep c s (.dump m j) = some s') : OutInv c (ls ++ [.dump m j]) s' bs cur := by
  simp only [outStep, stepDump] at h
  split at h
  · rename_i hp
    simp only [Option.some.injEq] at h
    subst h
    have hcnt : ∀ i, blockCount m i bs + (if j = i then 1 else 0) ≤ dumpCalls m i (ls ++ [.dump m j]) := by
      intro i
      have := hi.count m i
      have : dumpCalls m i (ls ++ [.dump m j]) = dumpCalls m i ls + (if j = i then 1 else 0) := by
        simp [dumpCalls, List.countP_append, List.countP_cons]
      omega
    have hE : (if c.combined = true then decide ((s.tmp m j).out ≠ []) else decide ((s.tmp m j).err ≠ [])) = false → (s.tmp m j).err = [] := by
      intro he
      split at he
      · rename_i hc; exact hi.comb hc m j
      · simpa using he
    generalize (if c.combined = true then decide ((s.tmp m j).out ≠ []) else decide ((s.tmp m j).err ≠ [])) = e at hE ⊢
    by_cases hw : (decide ((s.tmp m j).out ≠ []) || e) = true
    · rw [if_pos hw]
      refine hi.goto m _ _ (by intros; simp) ?_ rfl (fun _ => trivial) ?_ ⟨by simp, hE⟩ hcnt
      · rw [hp]; rfl
      · intro i err; rw [hp]; rfl
    · rw [if_neg hw]
      refine ⟨hi.cap, hi.own, hi.lock, hi.safe, hi.free, hi.cur, ?_, hi.flags, hi.comb, ?_, hi.whole_mono _⟩
      · intro k i err
        rw [writtenTo_other c k i err ls _ (by intros; simp)]
        exact hi.acct k i err
      · intro k i; exact Nat.le_trans (hi.count k i) (dumpCalls_mono k i ls _)
  · cases h

theorem inv_lock (hi : OutInv c ls s bs cur) (m : Nat) (h : outStep c s (.lock m) = some s') : OutInv c (ls ++ [.lock m]) s' bs cur := by
  simp only [outStep, stepLock] at h
  split at h
  · rename_i j o e hp
    split at h
    · rename_i hn
      simp only [Option.some.injEq] at h
      subst h
      refine ⟨hi.cap, hi.own, ?_, ?_, (by intro h; cases h), ?_, ?_, ?_, hi.comb, ?_, hi.whole_mono _⟩
      · intro k
        simp only [OutSys.goto, Option.some.injEq]
        split
        · rename_i e; subst e; simp [holdsLock]
        · rename_i hk
          have := hi.lock k
          rw [hn] at this
          constructor
          · intro h; exact absurd h.symm hk
          · intro h; have := this.2 h; cases this
      · intro k; simp only [OutSys.goto]; split
        · rfl
        · exact hi.safe k
      · intro k hk
        simp only [Option.some.injEq] at hk
        subst hk
        simp only [OutSys.goto, if_true, curOk]
        exact hi.free hn
      · intro k i err
        rw [writtenTo_other c k i err ls _ (by intros; simp), hi.acct k i err]
        simp only [OutSys.goto]
        split
        · rename_i e; subst e; rw [hp]; rfl
        · rfl
      · intro k
        simp only [OutSys.goto]
        split
        · rename_i e; subst e; have := hi.flags k; rw [hp] at this; exact this
        · exact hi.flags k
      · intro k i
        refine Nat.le_trans ?_ (dumpCalls_mono k i ls _)
        have := hi.count k i
        simp only [OutSys.goto]
        split
        · rename_i e; subst e; rw [hp] at this; exact this
        · exact this
    · cases h
  · cases h

theorem holds_of {m : Nat} (hi : OutInv c ls s bs cur) (h : holdsLock (s.pc m) = true) : s.lock = some m ∧ curOk (s.tmp m) m cur (s.pc m) :=
  ⟨(hi.lock m).2 h, hi.cur m ((hi.lock m).2 h)⟩

/-- A step inside of the critical section that may write something. -/
theorem inv_inside (hi : OutInv c ls s bs cur) (m : Nat) (p : DumpPc) (l : OutLabel) (hl : ∀ m j e s, l ≠ .write m j e s) (es : List OutEvent)
    (hh : holdsLock (s.pc m) = true) (hp : holdsLock p = true) (hu : unlocked p = false)
    (hc : curOk (s.tmp m) m cur (s.pc m) → curOk (s.tmp m) m (cur ++ es) p) (hr : ∀ j err, restOf p j err (s.tmp m j) = restOf (s.pc m) j err (s.tmp m j))
    (hf : flagsOk c (s.tmp m) p) (hcnt : ∀ j, pendingOf p j ≤ pendingOf (s.pc m) j) (he : ∀ e ∈ es, e.ctx.isSome) :
    OutInv c (ls ++ [l]) { s.goto m p with term := s.term ++ es } bs (cur ++ es) := by
  obtain ⟨hlk, hcur⟩ := holds_of hi hh
  refine ⟨?_, hi.own, ?_, ?_, ?_, ?_, ?_, ?_, hi.comb, ?_, hi.whole_mono _⟩
  · rw [capturedEvents_append, hi.cap, List.append_assoc]
    congr 2
    exact List.filter_eq_self.2 he
  · intro k
    simp only [OutSys.goto]
    split
    · rename_i e; subst e; simp [hlk, hp]
    · exact hi.lock k
  · intro k; simp only [OutSys.goto]; split
    · exact hu
    · exact hi.safe k
  · intro h; simp only [OutSys.goto] at h; rw [hlk] at h; cases h
  · intro k h
    simp only [OutSys.goto] at h
    rw [hlk] at h
    simp only [Option.some.injEq] at h
    subst h
    simp only [OutSys.goto, if_true]
    exact hc hcur
  · intro k j err
    rw [writtenTo_other c k j err ls l hl, hi.acct k j err]
    simp only [OutSys.goto]
    split
    · rename_i e; subst e; rw [hr]
    · rfl
  · intro k
    simp only [OutSys.goto]
    split
    · rename_i e; subst e; exact hf
    · exact hi.flags k
  · intro k j
    refine Nat.le_trans ?_ (dumpCalls_mono k j ls l)
    have := hi.count k j
    simp only [OutSys.goto]
    split
    · rename_i e; subst e; have := hcnt j; omega
    · exact this

theorem inv_log (hi : OutInv c ls s bs cur) (m : Nat) (h : outStep c s (.log m) = some s') : ∃ cur', OutInv c (ls ++ [.log m]) s' bs cur' := by
  simp only [outStep, stepLog] at h
  have key : ∀ (p : DumpPc) (j : Nat) (t : Str), holdsLock (s.pc m) = true → holdsLock p = true → unlocked p = false →
      (∀ es : List OutEvent, (∀ e ∈ es, e.make = m ∧ e.ctx = some j ∧ e.log = true) → curOk (s.tmp m) m cur (s.pc m) → curOk (s.tmp m) m (cur ++ es) p) →
      (∀ j err, restOf p j err (s.tmp m j) = restOf (s.pc m) j err (s.tmp m j)) → flagsOk c (s.tmp m) p → (∀ j, pendingOf p j ≤ pendingOf (s.pc m) j) →
      ∃ cur', OutInv c (ls ++ [.log m]) (if c.logs then (s.goto m p).emit ⟨m, some j, false, true, t⟩ else s.goto m p) bs cur' := by
    intro p j t hh hp hu hc hr hf hcnt
    split
    · refine ⟨cur ++ [⟨m, some j, false, true, t⟩], ?_⟩
      exact inv_inside hi m p _ (by intros; simp) _ hh hp hu (hc _ (by simp)) hr hf hcnt (by simp)
    · refine ⟨cur ++ [], ?_⟩
      have := inv_inside hi m p (.log m) (by intros; simp) [] hh hp hu (hc _ (by simp)) hr hf hcnt (by simp)
      simpa [OutSys.goto] using this
  have silent : ∀ (es : List OutEvent) (j : Nat) (err : Bool), (∀ e ∈ es, e.make = m ∧ e.ctx = some j ∧ e.log = true) → textOf err es = [] := by
    intro es j err h
    unfold textOf
    rw [List.filter_eq_nil_iff.2 (by intro e he; simp [(h e he).2.2])]
    rfl
  split at h
  · rename_i j o e sem hp
    simp only [Option.some.injEq] at h
    subst h
    have hsem : sem = true := by have := hi.safe m; rw [hp] at this; simpa [unlocked] using this
    subst hsem
    have hfl := hi.flags m
    rw [hp] at hfl
    apply key
    · rw [hp]; rfl
    · unfold afterEnter; split
      · rfl
      · split <;> rfl
    · unfold afterEnter; split
      · rfl
      · split <;> rfl
    · intro es hes hc
      rw [hp] at hc
      simp only [curOk] at hc
      subst hc
      have hown : ∀ e ∈ ([] ++ es : List OutEvent), e.make = m ∧ e.ctx = some j := fun e he => ⟨(hes e (by simpa using he)).1, (hes e (by simpa using he)).2.1⟩
      have ht : ∀ err, textOf err ([] ++ es) = [] := fun err => by simpa using silent es j err hes
      unfold afterEnter
      split
      · exact ⟨hown, by rw [ht]; simp, ht true⟩
      · rename_i ho
        have hout := hfl.1 (by simpa using ho)
        split
        · exact ⟨hown, by rw [ht, hout], by rw [ht]; simp⟩
        · rename_i he
          refine ⟨hown, by rw [ht, hout], ?_⟩
          rw [ht]
          by_cases hc : c.combined = true
          · exact (hi.comb hc m j).symm
          · have : e = false := by cases e <;> simp_all
            exact (hfl.2 this).symm
    · intro i err; rw [hp]; unfold afterEnter; split
      · rfl
      · split <;> rfl
    · unfold afterEnter; split
      · exact hfl.2
      · split <;> trivial
    · intro i; rw [hp]; unfold afterEnter; split
      · exact Nat.le_refl _
      · split <;> exact Nat.le_refl _
  · rename_i j sem hp
    simp only [Option.some.injEq] at h
    subst h
    have hsem : sem = true := by have := hi.safe m; rw [hp] at this; simpa [unlocked] using this
    subst hsem
    apply key
    · rw [hp]; rfl
    · rfl
    · rfl
    · intro es hes hc
      rw [hp] at hc
      obtain ⟨h1, h2, h3⟩ := hc
      refine ⟨?_, ?_, ?_⟩
      · intro e he
        rcases List.mem_append.1 he with he | he
        · exact h1 e he
        · exact ⟨(hes e he).1, (hes e he).2.1⟩
      · rw [textOf_append, silent es j _ hes, List.append_nil, h2]
      · rw [textOf_append, silent es j _ hes, List.append_nil, h3]
    · intro i err; rw [hp]; rfl
    · trivial
    · intro i; rw [hp]; exact Nat.le_refl _
  · cases h

theorem inv_pump (hi : OutInv c ls s bs cur) (m n : Nat) (h : outStep c s (.pump m n) = some s') : ∃ cur', OutInv c (ls ++ [.pump m n]) s' bs cur' := by
  simp only [outStep, stepPump] at h
  split at h
  · rename_i j pos e sem hp
    have hsem : sem = true := by have := hi.safe m; rw [hp] at this; simpa [unlocked] using this
    subst hsem
    have hfl := hi.flags m
    rw [hp] at hfl
    split at h
    · simp only [Option.some.injEq] at h
      subst h
      refine ⟨_, inv_inside hi m _ _ (by intros; simp) [_] (by rw [hp]; rfl) rfl rfl ?_ ?_ ?_ ?_ (by simp)⟩
      · intro hc
        rw [hp] at hc
        obtain ⟨h1, h2, h3⟩ := hc
        refine ⟨?_, ?_, ?_⟩
        · intro e he
          rcases List.mem_append.1 he with he | he
          · exact h1 e he
          · rw [List.mem_singleton.1 he]; exact ⟨rfl, rfl⟩
        · rw [textOf_append, h2, textOf_one]; simp [List.take_add]
        · rw [textOf_append, h3, textOf_one]; simp
      · intro i err; rw [hp]; rfl
      · exact hfl
      · intro i; rw [hp]; exact Nat.le_refl _
    · cases h
  · rename_i j pos sem hp
    have hsem : sem = true := by have := hi.safe m; rw [hp] at this; simpa [unlocked] using this
    subst hsem
    split at h
    · simp only [Option.some.injEq] at h
      subst h
      refine ⟨_, inv_inside hi m _ _ (by intros; simp) [_] (by rw [hp]; rfl) rfl rfl ?_ ?_ ?_ ?_ (by simp)⟩
      · intro hc
        rw [hp] at hc
        obtain ⟨h1, h2, h3⟩ := hc
        refine ⟨?_, ?_, ?_⟩
        · intro e he
          rcases List.mem_append.1 he with he | he
          · exact h1 e he
          · rw [List.mem_singleton.1 he]; exact ⟨rfl, rfl⟩
        · rw [textOf_append, h2, textOf_one]; simp
        · rw [textOf_append, h3, textOf_one]; simp [List.take_add]
      · intro i err; rw [hp]; rfl
      · trivial
      · intro i; rw [hp]; exact Nat.le_refl _
    · cases h
  · cases h

theorem inv_eof (hi : OutInv c ls s bs cur) (m : Nat) (h : outStep c s (.eof m) = some s') : ∃ cur', OutInv c (ls ++ [.eof m]) s' bs cur' := by
  simp only [outStep, stepEof] at h
  split at h
  · rename_i j pos e sem hp
    have hsem : sem = true := by have := hi.safe m; rw [hp] at this; simpa [unlocked] using this
    subst hsem
    have hfl := hi.flags m
    rw [hp] at hfl
    split at h
    · rename_i hlen
      simp only [Option.some.injEq] at h
      subst h
      have := inv_inside hi m (afterOut c j e true) (.eof m) (by intros; simp) [] (by rw [hp]; rfl) (by unfold afterOut; split <;> rfl)
        (by unfold afterOut; split <;> rfl) (by
          intro hc
          rw [hp] at hc
          obtain ⟨h1, h2, h3⟩ := hc
          rw [List.append_nil]
          rw [List.take_of_length_le hlen] at h2
          unfold afterOut
          split
          · exact ⟨h1, h2, by rw [h3]; simp⟩
          · rename_i he
            refine ⟨h1, h2, ?_⟩
            rw [h3]
            by_cases hc : c.combined = true
            · exact (hi.comb hc m j).symm
            · have : e = false := by cases e <;> simp_all
              exact (hfl this).symm)
        (by intro i err; rw [hp]; unfold afterOut; split <;> rfl) (by unfold afterOut; split <;> trivial)
        (by intro i; rw [hp]; unfold afterOut; split <;> exact Nat.le_refl _) (by simp)
      refine ⟨cur, ?_⟩
      simpa [OutSys.goto] using this
    · cases h
  · rename_i j pos sem hp
    have hsem : sem = true := by have := hi.safe m; rw [hp] at this; simpa [unlocked] using this
    subst hsem
    split at h
    · rename_i hlen
      simp only [Option.some.injEq] at h
      subst h
      have := inv_inside hi m (.leave j true) (.eof m) (by intros; simp) [] (by rw [hp]; rfl) rfl rfl (by
          intro hc
          rw [hp] at hc
          obtain ⟨h1, h2, h3⟩ := hc
          rw [List.append_nil]
          rw [List.take_of_length_le hlen] at h3
          exact ⟨h1, h2, h3⟩)
        (by intro i err; rw [hp]; rfl) trivial (by intro i; rw [hp]; exact Nat.le_refl _) (by simp)
      refine ⟨cur, ?_⟩
      simpa [OutSys.goto] using this
    · cases h
  · cases h

/-- The owner gives the lock back: what it has written becomes a block. -/
theorem inv_leave (hi : OutInv c ls s bs cur) (m j : Nat) (p : DumpPc) (l : OutLabel) (w : Bool) (hl : ∀ m j e s, l ≠ .write m j e s) (hw : w = false → l = .kill m)
    (hlk : s.lock = some m) (hown : ∀ e ∈ cur, e.make = m ∧ e.ctx = some j) (hp : holdsLock p = false) (hu : unlocked p = false)
    (hr : ∀ i err, restOf (s.pc m) i err (s.tmp m i) = (if i = j ∧ w = true then textOf err cur else []) ++ restOf p i err (s.tmp m i))
    (hf : flagsOk c (s.tmp m) p) (hcnt : ∀ i, (if j = i then 1 else 0) + pendingOf p i ≤ pendingOf (s.pc m) i) :
    OutInv c (ls ++ [l]) { s.goto m p with lock := none } (bs ++ [⟨m, j, cur, w⟩]) [] := by
  refine ⟨?_, ?_, ?_, ?_, fun _ => rfl, (by intro k h; cases h), ?_, ?_, hi.comb, ?_, ?_⟩
  · simp only [OutSys.goto]
    rw [hi.cap]; simp
  · intro b hb
    rcases List.mem_append.1 hb with hb | hb
    · exact hi.own b hb
    · rw [List.mem_singleton.1 hb]; exact hown
  · intro k
    simp only [OutSys.goto]
    split
    · rename_i e; subst e; simp [hp]
    · rename_i hk
      constructor
      · intro h; cases h
      · intro h; have := (hi.lock k).2 h; rw [hlk] at this; exact absurd (Option.some.inj this).symm hk
  · intro k; simp only [OutSys.goto]; split
    · exact hu
    · exact hi.safe k
  · intro k i err
    rw [writtenTo_other c k i err ls l hl, hi.acct k i err, blocksText_append]
    simp only [OutSys.goto]
    split
    · rename_i e; subst e
      rw [hr i err, List.append_assoc]
      congr 2
      by_cases hij : j = i
      · cases w <;> simp [blocksText, hij]
      · simp [blocksText, hij, Ne.symm hij]
    · rename_i hk
      simp [blocksText, Ne.symm hk]
  · intro k
    simp only [OutSys.goto]
    split
    · rename_i e; subst e; exact hf
    · exact hi.flags k
  · intro k i
    refine Nat.le_trans ?_ (dumpCalls_mono k i ls l)
    have := hi.count k i
    simp only [OutSys.goto]
    split
    · rename_i e; subst e
      have := hcnt i
      have e2 : blockCount k i (bs ++ [⟨k, j, cur, w⟩]) = blockCount k i bs + (if j = i then 1 else 0) := by
        by_cases hij : j = i <;> simp [blockCount, List.countP_append, List.countP_cons, hij]
      omega
    · rename_i hk
      have e2 : blockCount k i (bs ++ [⟨m, j, cur, w⟩]) = blockCount k i bs := by
        simp [blockCount, List.countP_append, List.countP_cons, Ne.symm hk]
      omega
  · intro b hb hwb
    rcases List.mem_append.1 hb with hb | hb
    · exact hi.whole_mono l b hb hwb
    · rw [List.mem_singleton.1 hb] at hwb ⊢
      rw [hw hwb]; simp

theorem inv_unlock (hi : OutInv c ls s bs cur) (m : Nat) (h : outStep c s (.unlock m) = some s') :
    ∃ bs' cur', OutInv c (ls ++ [.unlock m]) s' bs' cur' := by
  simp only [outStep, stepUnlock] at h
  split at h
  · rename_i j sem hp
    have hsem : sem = true := by have := hi.safe m; rw [hp] at this; simpa [unlocked] using this
    subst hsem
    simp only [Option.some.injEq] at h
    subst h
    obtain ⟨hlk, hc⟩ := holds_of hi (m := m) (by rw [hp]; rfl)
    rw [hp] at hc
    obtain ⟨h1, h2, h3⟩ := hc
    refine ⟨_, _, inv_leave hi m j (.trunc j) _ true (by intros; simp) (by intro h; cases h) hlk h1 rfl rfl ?_ trivial ?_⟩
    · intro i err
      rw [hp]
      simp only [restOf, and_true]
      by_cases hij : j = i
      · subst hij
        cases err <;> simp [h2, h3, TmpFiles.field]
      · simp [hij, Ne.symm hij]
    · intro i; rw [hp]; simp [pendingOf]
  · cases h

theorem inv_trunc (hi : OutInv c ls s bs cur) (m : Nat) (h : outStep c s (.trunc m) = some s') : OutInv c (ls ++ [.trunc m]) s' bs cur := by
  simp only [outStep, stepTrunc] at h
  split at h
  · rename_i j hp
    simp only [Option.some.injEq] at h
    subst h
    have hnl : s.lock ≠ some m := by intro h; have := (hi.lock m).1 h; rw [hp] at this; cases this
    refine ⟨hi.cap, hi.own, ?_, ?_, hi.free, ?_, ?_, ?_, ?_, ?_, hi.whole_mono _⟩
    · intro k
      simp only [OutSys.goto, OutSys.setTmp]
      split
      · rename_i e; subst e; simp [holdsLock, hnl]
      · exact hi.lock k
    · intro k; simp only [OutSys.goto, OutSys.setTmp]; split
      · rfl
      · exact hi.safe k
    · intro k hk
      simp only [OutSys.goto, OutSys.setTmp] at hk ⊢
      have hkm : k ≠ m := by rintro rfl; exact hnl hk
      simpa [hkm] using hi.cur k hk
    · intro k i err
      rw [writtenTo_other c k i err ls _ (by intros; simp), hi.acct k i err]
      congr 1
      simp only [OutSys.goto, OutSys.setTmp]
      by_cases hk : k = m
      · subst hk
        rw [hp]
        by_cases hij : j = i
        · subst hij; cases err <;> simp [restOf, TmpFiles.field]
        · simp [restOf, hij, Ne.symm hij]
      · simp [hk]
    · intro k
      simp only [OutSys.goto, OutSys.setTmp]
      by_cases hk : k = m
      · simp [hk, flagsOk]
      · simpa [hk] using hi.flags k
    · intro hc k i
      simp only [OutSys.goto, OutSys.setTmp]
      split
      · rfl
      · exact hi.comb hc k i
    · intro k i
      refine Nat.le_trans ?_ (dumpCalls_mono k i ls _)
      have := hi.count k i
      simp only [OutSys.goto, OutSys.setTmp]
      split
      · rename_i e; subst e; rw [hp] at this; exact this
      · exact this
  · cases h

theorem inv_kill (hi : OutInv c ls s bs cur) (m : Nat) (h : outStep c s (.kill m) = some s') : ∃ bs' cur', OutInv c (ls ++ [.kill m]) s' bs' cur' := by
  have hs : s' = { s.goto m (.dead (s.pc m)) with lock := if s.lock = some m then none else s.lock } := by
    simp only [outStep, stepKill] at h
    split at h
    · cases h
    · exact (Option.some.inj h).symm
  subst hs
  by_cases hlk : s.lock = some m
  · rw [if_pos hlk]
    have hh := (hi.lock m).1 hlk
    have hc := hi.cur m hlk
    have : ∃ j, (∀ e ∈ cur, e.make = m ∧ e.ctx = some j) ∧ ∀ i, pendingOf (s.pc m) i = if j = i then 1 else 0 := by
      cases hp : s.pc m with
      | enter j o e sem => rw [hp] at hc; simp only [curOk] at hc; exact ⟨j, by simp [hc], fun i => rfl⟩
      | out j pos e sem => rw [hp] at hc; exact ⟨j, hc.1, fun i => rfl⟩
      | err j pos sem => rw [hp] at hc; exact ⟨j, hc.1, fun i => rfl⟩
      | leave j sem => rw [hp] at hc; exact ⟨j, hc.1, fun i => rfl⟩
      | unlock j sem => rw [hp] at hc; exact ⟨j, hc.1, fun i => rfl⟩
      | _ => rw [hp] at hh; cases hh
    obtain ⟨j, hown, hpend⟩ := this
    refine ⟨_, _, inv_leave hi m j (.dead (s.pc m)) _ false (by intros; simp) (fun _ => rfl) hlk hown rfl rfl ?_ trivial ?_⟩
    · intro i err; simp [restOf]
    · intro i; rw [hpend]; simp [pendingOf]
  · rw [if_neg hlk]
    refine ⟨_, _, hi.goto m (.dead (s.pc m)) _ (by intros; simp) ?_ rfl (fun h => absurd h hlk) (fun _ _ => rfl) trivial
      (count_le hi m _ _ (fun j => Nat.zero_le _))⟩
    cases hh : holdsLock (s.pc m) with
    | false => rfl
    | true => exact absurd ((hi.lock m).2 hh) hlk

/-- Every step keeps the invariant. -/
theorem inv_step (hi : OutInv c ls s bs cur) (l : OutLabel)
    (hd : match l with | .write m j _ _ => busyWith (s.pc m) j = false | .lockFail _ => False | _ => True)
    (h : outStep c s l = some s') : ∃ bs' cur', OutInv c (ls ++ [l]) s' bs' cur' := by
  cases l with
  | write m j e x => simp only [outStep, Option.some.injEq] at h; subst h; exact ⟨_, _, inv_write hi m j e x hd⟩
  | direct m e x => simp only [outStep, Option.some.injEq] at h; subst h; exact ⟨_, _, inv_direct hi m e x⟩
  | dump m j => exact ⟨_, _, inv_dump hi m j h⟩
  | lock m => exact ⟨_, _, inv_lock hi m h⟩
  | lockFail m => exact hd.elim
  | log m => obtain ⟨_, h⟩ := inv_log hi m h; exact ⟨_, _, h⟩
  | pump m n => obtain ⟨_, h⟩ := inv_pump hi m n h; exact ⟨_, _, h⟩
  | eof m => obtain ⟨_, h⟩ := inv_eof hi m h; exact ⟨_, _, h⟩
  | unlock m => exact inv_unlock hi m h
  | trunc m => exact ⟨_, _, inv_trunc hi m h⟩
  | kill m => exact inv_kill hi m h

/-- Every run keeps the invariant. -/
theorem inv_run {rest : List OutLabel} : ∀ {ls : List OutLabel} {s s' : OutSys} {bs : List Block} {cur : List OutEvent}, OutInv c ls s bs cur →
    Disciplined c rest s → outRun c rest s = some s' → ∃ bs' cur', OutInv c (ls ++ rest) s' bs' cur' := by
  induction rest with
  | nil =>
    intro ls s s' bs cur hi _ h
    simp only [outRun, Option.some.injEq] at h
    subst h
    exact ⟨bs, cur, by simpa using hi⟩
  | cons l rest ih =>
    intro ls s s' bs cur hi hd h
    simp only [outRun] at h
    cases hs : outStep c s l with
    | none => rw [hs] at h; cases h
    | some s1 =>
      rw [hs] at h
      obtain ⟨bs1, cur1, h1⟩ := inv_step hi l hd.1 hs
      obtain ⟨bs2, cur2, h2⟩ := ih h1 (hd.2 s1 hs) h
      exact ⟨bs2, cur2, by simpa using h2⟩

end Remake
