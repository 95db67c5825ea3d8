import Verif.Times.Lookup
/-! Theorems about times in the future (C112) and about intermediate files that exist already (C113). -/
set_option linter.unusedVariables false
set_option linter.unusedSimpArgs false
namespace Remake

/-! ## C112: times in the future -/

/-- The time of the file is one that is looked at. -/
def Spec.Judged (l : SkewLookup) : Prop := l.mtime ≠ nonexistentMtime ∧ l.mtime ≠ newMtime ∧ l.updated = false

/-- The time of the file is later than the clock can be. -/
def Spec.InFuture (l : SkewLookup) : Prop := l.now + (l.resolution - 1) < l.mtime

open Spec

theorem skewRun_detected (s : Skew) (h : s.detected = true) (ls : List SkewLookup) :
    (skewRun s ls).1 = s ∧ ∀ b ∈ (skewRun s ls).2, b = false := by
  induction ls with
  | nil => simp [skewRun]
  | cons l ls ih =>
    have hc : skewCheck s l = (s, false) := by simp [skewCheck, h]
    simp only [skewRun, hc]
    exact ⟨ih.1, fun b hb => by
      rcases List.mem_cons.mp hb with rfl | hb
      · rfl
      · exact ih.2 b hb⟩

theorem count_none (bs : List Bool) (h : ∀ b ∈ bs, b = false) : bs.count true = 0 := by
  rw [List.count_eq_zero]
  intro hm
  exact absurd (h true hm) (by simp)

/-- What one check does: nothing, the clock is read, or the warning. -/
theorem skewCheck_cases (s : Skew) (l : SkewLookup) :
    skewCheck s l = (s, false) ∧ (s.detected = true ∨ ¬ Judged l ∨ l.mtime ≤ s.adjustedNow) ∨
    s.detected = false ∧ Judged l ∧ skewCheck s l = (⟨false, l.now + (l.resolution - 1)⟩, false) ∧ ¬ InFuture l ∨
    s.detected = false ∧ Judged l ∧ skewCheck s l = (⟨true, l.now + (l.resolution - 1)⟩, true) ∧ InFuture l := by
  unfold skewCheck
  split
  · rename_i h
    split
    · split
      · rename_i h1; exact Or.inr (Or.inr ⟨h.1, h.2, rfl, h1⟩)
      · rename_i h1; exact Or.inr (Or.inl ⟨h.1, h.2, rfl, h1⟩)
    · rename_i h1; exact Or.inl ⟨rfl, Or.inr (Or.inr (by omega))⟩
  · rename_i h
    refine Or.inl ⟨rfl, ?_⟩
    cases hd : s.detected with
    | true => exact Or.inl rfl
    | false => exact Or.inr (Or.inl fun hj => h ⟨hd, hj⟩)

/-- **C112** In a run the warning about a time in the future is given at most once, and the warning at the end is given
iff this one was. -/
theorem C112_once (s : Skew) (hs : s.detected = false) (ls : List SkewLookup) :
    (skewRun s ls).2.count true = (skewRun s ls).1.detected.toNat := by
  induction ls generalizing s with
  | nil => simp [skewRun, hs]
  | cons l ls ih =>
    simp only [skewRun]
    rcases skewCheck_cases s l with ⟨h, _⟩ | ⟨_, _, h, _⟩ | ⟨_, _, h, _⟩
    · rw [h]; simpa using ih s hs
    · rw [h]; simpa using ih _ rfl
    · rw [h]
      obtain ⟨h1, h2⟩ := skewRun_detected ⟨true, l.now + (l.resolution - 1)⟩ rfl ls
      rw [h1]
      simp [count_none _ h2]

/-- **C112** The warning is given only for a file that exists, was not made in this run and has a time later than the clock. -/
theorem C112_only (s : Skew) (ls : List SkewLookup) (i : Nat) (h : (skewRun s ls).2[i]? = some true) :
    ∃ l, ls[i]? = some l ∧ Judged l ∧ InFuture l := by
  induction ls generalizing s i with
  | nil => simp [skewRun] at h
  | cons l ls ih =>
    simp only [skewRun] at h
    cases i with
    | zero =>
      simp only [List.getElem?_cons_zero, Option.some.injEq] at h
      rcases skewCheck_cases s l with ⟨h1, _⟩ | ⟨_, _, h1, _⟩ | ⟨_, h2, h1, h3⟩
      · rw [h1] at h; simp at h
      · rw [h1] at h; simp at h
      · exact ⟨l, rfl, h2, h3⟩
    | succ i =>
      simp only [List.getElem?_cons_succ] at h ⊢
      exact ih _ i h

/-- The clock does not go back: it is never before what it was when read before. -/
def Spec.Forward : Nat → List SkewLookup → Prop
  | _, [] => True
  | a, l :: ls => a ≤ l.now + (l.resolution - 1) ∧ Forward (l.now + (l.resolution - 1)) ls

theorem forward_weaken {a b : Nat} {ls : List SkewLookup} (h : Forward a ls) (hab : b ≤ a) : Forward b ls := by
  cases ls with
  | nil => trivial
  | cons l ls => exact ⟨Nat.le_trans hab h.1, h.2⟩

/-- **C112** If a file with a time in the future is looked at, there is a warning, unless the clock is set back in the run. -/
theorem C112_warned (s : Skew) (hs : s.detected = false) (ls : List SkewLookup) (hf : Forward s.adjustedNow ls)
    (h : ∃ l ∈ ls, Judged l ∧ InFuture l) : true ∈ (skewRun s ls).2 := by
  induction ls generalizing s with
  | nil => obtain ⟨l, hl, _⟩ := h; simp at hl
  | cons l ls ih =>
    simp only [skewRun]
    obtain ⟨x, hx, hj, hi⟩ := h
    obtain ⟨f1, f2⟩ := hf
    rcases skewCheck_cases s l with ⟨h1, h2⟩ | ⟨_, _, h1, h3⟩ | ⟨_, h2, h1, h3⟩
    · rw [h1]
      rcases List.mem_cons.mp hx with rfl | hx
      · rcases h2 with h2 | h2 | h2
        · rw [hs] at h2; cases h2
        · exact absurd hj h2
        · unfold InFuture at hi; omega
      · exact List.mem_cons_of_mem _ (ih s hs (forward_weaken f2 f1) ⟨x, hx, hj, hi⟩)
    · rw [h1]
      rcases List.mem_cons.mp hx with rfl | hx
      · exact absurd hi h3
      · exact List.mem_cons_of_mem _ (ih _ rfl f2 ⟨x, hx, hj, hi⟩)
    · rw [h1]; exact List.mem_cons_self

/-- C112 fails if the clock is set back: a file whose time is later than the clock, but not later than what the clock said
before, gets no warning. -/
theorem C112_set_back : ∃ ls : List SkewLookup, (∃ l ∈ ls, Judged l ∧ InFuture l) ∧ true ∉ (skewRun {} ls).2 :=
  ⟨[⟨50, false, 100, 1⟩, ⟨90, false, 60, 1⟩], ⟨⟨90, false, 60, 1⟩, by simp, ⟨by decide, by decide, rfl⟩, by unfold InFuture; decide⟩, by decide⟩

/-- A file in the future after two others. -/
example : Forward 0 [⟨50, false, 100, 1⟩, ⟨120, false, 110, 1⟩, ⟨130, false, 115, 1⟩] ∧
    (skewRun {} [⟨50, false, 100, 1⟩, ⟨120, false, 110, 1⟩, ⟨130, false, 115, 1⟩]).2 = [false, true, false] := by
  refine ⟨⟨by decide, by decide, by decide, trivial⟩, by decide⟩

/-! ## C113: intermediate files that exist already -/

/-- **C113** (partial: no implicit rule was searched for the file, see `C113_terminal`) A file that is found before anything was done
to make it is not intermediate any more, in none of its records. -/
theorem C113_found_partial {mtime : Nat} (hm : mtime ≠ nonexistentMtime) {rs : List TimeRec} {r : TimeRec} (hr : r ∈ storeTimes mtime rs)
    (h1 : r.notStarted = true) (h2 : r.triedImplicit = false) : r.intermediate = false := by
  cases rs with
  | nil => simp [storeTimes] at hr
  | cons a rs =>
    simp only [storeTimes] at hr
    obtain ⟨x, _, rfl⟩ := List.mem_map.mp hr
    simp only [TimeRec.store] at h1 h2 ⊢
    rw [if_pos ⟨hm, h1, h2⟩]

/-- So it is not among the files that are removed at the end (C52). -/
theorem C113_not_removed_partial {mtime : Nat} (hm : mtime ≠ nonexistentMtime) {rs : List TimeRec} {r : TimeRec} (hr : r ∈ storeTimes mtime rs)
    (h1 : r.notStarted = true) (h2 : r.triedImplicit = false) (f : DFile) (hf : f.intermediate = r.intermediate) : removable f = false := by
  rw [C113_found_partial hm hr h1 h2] at hf
  simp [removable, hf]

/-- **C113** Nothing else about the records changes, except times; a missing file stays intermediate; a record is never made
intermediate. -/
theorem C113_else {mtime : Nat} (rs : List TimeRec) (i : Nat) (r : TimeRec) (h : rs[i]? = some r) :
    ∃ r', (storeTimes mtime rs)[i]? = some r' ∧ r'.updated = r.updated ∧ r'.notStarted = r.notStarted ∧
      r'.triedImplicit = r.triedImplicit ∧ (r'.intermediate = true → r.intermediate = true) ∧
      (mtime = nonexistentMtime ∨ r.notStarted = false ∨ r.triedImplicit = true → r'.intermediate = r.intermediate) := by
  cases rs with
  | nil => simp at h
  | cons a rs =>
    refine ⟨r.store a.updated mtime, ?_, rfl, rfl, rfl, ?_, ?_⟩
    · simp only [storeTimes, List.getElem?_map, h, Option.map_some]
    · simp only [TimeRec.store]
      split
      · intro h; cases h
      · exact id
    · intro hx
      simp only [TimeRec.store]
      rw [if_neg]
      rintro ⟨x1, x2, x3⟩
      rcases hx with hx | hx | hx
      · exact x1 hx
      · rw [x2] at hx; cases hx
      · rw [x3] at hx; cases hx

/-- **C113** The time is stored in the first record and in all that are in the same state; double-colon rules that are
still to be looked at, when the first was done, keep the time from before. -/
theorem C113_times {mtime : Nat} (a : TimeRec) (rs : List TimeRec) (i : Nat) (r : TimeRec) (h : (a :: rs)[i]? = some r) :
    ∃ r', (storeTimes mtime (a :: rs))[i]? = some r' ∧
      (r.updated = a.updated → r'.lastMtime = mtime) ∧ (r.updated ≠ a.updated → r'.lastMtime = r.lastMtime) := by
  refine ⟨r.store a.updated mtime, by simp only [storeTimes, List.getElem?_map, h, Option.map_some], ?_, ?_⟩
  · intro h; simp [TimeRec.store, h]
  · intro h; simp [TimeRec.store, h]

/-- What can happen to the records of a file after the makefiles were read: its time is looked up, or the other members of a
record change. -/
inductive TimeAct where
  | lookup (mtime : Nat)
  | set (i : Nat) (updated notStarted triedImplicit : Bool) (lastMtime : Nat)

/-- One such step.  The mark itself is set nowhere else for a file that exists (file.c 509-626 are before, implicit.c 883 is for files
that do not exist). -/
def TimeAct.run (rs : List TimeRec) : TimeAct → List TimeRec
  | .lookup m => storeTimes m rs
  | .set i u s t l => rs.modify i fun r => { r with updated := u, notStarted := s, triedImplicit := t, lastMtime := l }

/-- **C113** Once a record is not intermediate it stays so, whatever happens. -/
theorem C113_stays (acts : List TimeAct) (rs : List TimeRec) (i : Nat) (r : TimeRec) (h : rs[i]? = some r)
    (hi : r.intermediate = false) : ∃ r', (acts.foldl TimeAct.run rs)[i]? = some r' ∧ r'.intermediate = false := by
  induction acts generalizing rs r with
  | nil => exact ⟨r, h, hi⟩
  | cons a acts ih =>
    rw [List.foldl_cons]
    cases a with
    | lookup m =>
      obtain ⟨r', h1, _, _, _, h2, _⟩ := C113_else (mtime := m) rs i r h
      refine ih _ r' h1 ?_
      cases hx : r'.intermediate with
      | false => rfl
      | true => rw [h2 hx] at hi; cases hi
    | set j u s t l =>
      by_cases hj : j = i
      · subst hj
        exact ih _ { r with updated := u, notStarted := s, triedImplicit := t, lastMtime := l }
          (by simp only [TimeAct.run, List.getElem?_modify_eq, h, Option.map_some]; rfl) hi
      · refine ih _ r ?_ hi
        simp only [TimeAct.run, List.getElem?_modify_ne _ _ hj, h]

/-- C113 fails for a file for which no implicit rule is to be searched any more when its time is looked up first: then it stays
intermediate, and is removed at the end although it existed.  This is so for a file that was found as a prerequisite in a terminal rule
(implicit.c 910-922), and for a file without recipe on which an intermediate file depends (remake.c 1077-1102). -/
theorem C113_terminal (mtime : Nat) (r : TimeRec) (hi : r.intermediate = true) (ht : r.triedImplicit = true) :
    ∃ r', storeTimes mtime [r] = [r'] ∧ r'.intermediate = true ∧
      removable { name := ['a'], intermediate := r'.intermediate, touched := true } = true :=
  ⟨r.store r.updated mtime, rfl, by simp [TimeRec.store, hi, ht], by simp [removable, TimeRec.store, hi, ht]⟩

example : storeTimes 40 [{ updated := true, notStarted := false, intermediate := true }, { intermediate := true, lastMtime := 7 }] =
    [{ updated := true, notStarted := false, intermediate := true, lastMtime := 40 }, { intermediate := false, lastMtime := 7 }] := by decide

end Remake
