import Verif.Output.Lemmas2

/-! # Properties of synchronised output -/
set_option linter.unusedVariables false
set_option linter.unusedSimpArgs false
namespace Remake
open Spec

/-- Without uncaptured output everything on the terminal was captured. -/
theorem term_captured {c : OutConfig} : ∀ {ls : List OutLabel} {s s' : OutSys}, (∀ m e t, OutLabel.direct m e t ∉ ls) →
    (∀ e ∈ s.term, e.ctx.isSome) → outRun c ls s = some s' → ∀ e ∈ s'.term, e.ctx.isSome := by
  intro ls
  induction ls with
  | nil => intro s s' _ h hr; simp only [outRun, Option.some.injEq] at hr; subst hr; exact h
  | cons l ls ih =>
    intro s s' hd h hr
    simp only [outRun] at hr
    cases hs : outStep c s l with
    | none => rw [hs] at hr; cases hr
    | some s1 =>
      rw [hs] at hr
      refine ih (fun m e t hm => hd m e t (List.mem_cons_of_mem _ hm)) ?_ hr
      have one : ∀ e0 : OutEvent, e0.ctx.isSome → ∀ e ∈ s.term ++ [e0], e.ctx.isSome := by
        intro e0 h0 e he
        rcases List.mem_append.1 he with he | he
        · exact h e he
        · rw [List.mem_singleton.1 he]; exact h0
      cases l with
      | direct m e t => exact absurd (List.mem_cons_self) (hd m e t)
      | write m j e t => simp only [outStep, Option.some.injEq] at hs; subst hs; exact h
      | dump m j =>
        simp only [outStep, stepDump] at hs
        split at hs
        · simp only [Option.some.injEq] at hs; subst hs
          generalize (if c.combined = true then decide ((s.tmp m j).out ≠ []) else decide ((s.tmp m j).err ≠ [])) = e
          by_cases hw : (decide ((s.tmp m j).out ≠ []) || e) = true
          · rw [if_pos hw]; exact h
          · rw [if_neg hw]; exact h
        · cases hs
      | lock m => simp only [outStep, stepLock] at hs; split at hs
                  · split at hs
                    · simp only [Option.some.injEq] at hs; subst hs; exact h
                    · cases hs
                  · cases hs
      | lockFail m => simp only [outStep, stepLockFail] at hs; split at hs
                      · simp only [Option.some.injEq] at hs; subst hs; exact h
                      · cases hs
      | log m =>
        simp only [outStep, stepLog] at hs
        split at hs
        · simp only [Option.some.injEq] at hs; subst hs
          split
          · exact one _ rfl
          · exact h
        · simp only [Option.some.injEq] at hs; subst hs
          split
          · exact one _ rfl
          · exact h
        · cases hs
      | pump m n =>
        simp only [outStep, stepPump] at hs
        split at hs
        · split at hs
          · simp only [Option.some.injEq] at hs; subst hs; exact one _ rfl
          · cases hs
        · split at hs
          · simp only [Option.some.injEq] at hs; subst hs; exact one _ rfl
          · cases hs
        · cases hs
      | eof m =>
        simp only [outStep, stepEof] at hs
        split at hs
        · split at hs
          · simp only [Option.some.injEq] at hs; subst hs; exact h
          · cases hs
        · split at hs
          · simp only [Option.some.injEq] at hs; subst hs; exact h
          · cases hs
        · cases hs
      | unlock m =>
        simp only [outStep, stepUnlock] at hs
        split at hs
        · simp only [Option.some.injEq] at hs; subst hs; exact h
        · cases hs
      | trunc m =>
        simp only [outStep, stepTrunc] at hs
        split at hs
        · simp only [Option.some.injEq] at hs; subst hs; exact h
        · cases hs
      | kill m =>
        simp only [outStep, stepKill] at hs
        split at hs
        · cases hs
        · simp only [Option.some.injEq] at hs; subst hs; exact h

/-- C62.  However the writes of the jobs of any number of makes, their dumps and the deaths of makes are mixed, as long as the lock works
and a job no longer writes once its output is being written out: what has been captured and is on the terminal is a sequence of blocks,
each of one context, followed by what the owner of the lock has written so far; the whole blocks of a context are, in this order, what its
job has written, up to what is still in its files; there are no more blocks of a context than dumps of it; and only makes that have been
killed leave a block that is not whole.

`_partial`: what is not captured (the output of makes themselves, of jobs on the terminal) can fall in the middle of a block
(`C62_direct`), a process that goes on after its job can lose output (`C62_background`), and if the lock fails blocks are mixed
(`C62_no_lock`). -/
theorem C62_blocks_partial (c : OutConfig) (ls : List OutLabel) (s : OutSys) (hd : Disciplined c ls .init) (hr : outRun c ls .init = some s) :
    ∃ bs cur, capturedEvents s.term = bs.flatMap (·.events) ++ cur ∧
      (∀ b ∈ bs, b.Own) ∧
      (cur = [] ∨ ∃ m j, s.lock = some m ∧ busyWith (s.pc m) j = true ∧ ∀ e ∈ cur, e.make = m ∧ e.ctx = some j) ∧
      (∀ m j err, ∃ rest, writtenTo c m j err ls = blocksText m j err bs ++ rest ∧
        (busyWith (s.pc m) j = false → rest = if err then (s.tmp m j).err else (s.tmp m j).out)) ∧
      (∀ m j, bs.countP (fun b => b.make == m && b.ctx == j) ≤ ls.countP (fun l => l = .dump m j)) ∧
      (∀ b ∈ bs, b.whole = false → OutLabel.kill b.make ∈ ls) := by
  obtain ⟨bs, cur, hi⟩ := inv_run (ls := []) (outInv_init c) hd hr
  rw [List.nil_append] at hi
  refine ⟨bs, cur, hi.cap, hi.own, ?_, ?_, ?_, hi.whole⟩
  · cases hl : s.lock with
    | none => exact Or.inl (hi.free hl)
    | some m =>
      have hc := hi.cur m hl
      have hh := (hi.lock m).1 hl
      cases hp : s.pc m with
      | enter j o e sem => rw [hp] at hc; exact Or.inl hc
      | out j pos e sem => rw [hp] at hc; exact Or.inr ⟨m, j, rfl, by rw [hp]; simp [busyWith], hc.1⟩
      | err j pos sem => rw [hp] at hc; exact Or.inr ⟨m, j, rfl, by rw [hp]; simp [busyWith], hc.1⟩
      | leave j sem => rw [hp] at hc; exact Or.inr ⟨m, j, rfl, by rw [hp]; simp [busyWith], hc.1⟩
      | unlock j sem => rw [hp] at hc; exact Or.inr ⟨m, j, rfl, by rw [hp]; simp [busyWith], hc.1⟩
      | _ => rw [hp] at hh; cases hh
  · intro m j err
    refine ⟨_, hi.acct m j err, fun hb => ?_⟩
    rw [restOf_ne_trunc hb]; rfl
  · intro m j
    have := hi.count m j
    unfold blockCount dumpCalls at this
    omega

/-- C62.  At the end, when all makes have written out what they had, and none was killed, and nothing was written past the capture:
the terminal is a sequence of blocks, each of one context, and for every context standard output and error are exactly what its job has
written there. -/
theorem C62_complete_partial (c : OutConfig) (ls : List OutLabel) (s : OutSys) (hd : Disciplined c ls .init) (hr : outRun c ls .init = some s)
    (hdir : ∀ m e t, OutLabel.direct m e t ∉ ls) (hkill : ∀ m, OutLabel.kill m ∉ ls) (hidle : ∀ m, s.pc m = .idle) (hemp : ∀ m j, s.tmp m j = ⟨[], []⟩) :
    ∃ bs : List Block, s.term = bs.flatMap (·.events) ∧ (∀ b ∈ bs, b.Own) ∧
      (∀ m j err, textOf err (s.term.filter (fun e => e.make == m && e.ctx == some j)) = writtenTo c m j err ls) ∧
      (∀ m j, bs.countP (fun b => b.make == m && b.ctx == j) ≤ ls.countP (fun l => l = .dump m j)) := by
  obtain ⟨bs, cur, hi⟩ := inv_run (ls := []) (outInv_init c) hd hr
  rw [List.nil_append] at hi
  have hl : s.lock = none := by
    cases hl : s.lock with
    | none => rfl
    | some m => have := (hi.lock m).1 hl; rw [hidle m] at this; cases this
  have hcur := hi.free hl
  subst hcur
  have hcap : capturedEvents s.term = s.term := List.filter_eq_self.2 (term_captured hdir (by simp [OutSys.init]) hr)
  have hterm : s.term = bs.flatMap (·.events) := by rw [← hcap, hi.cap, List.append_nil]
  refine ⟨bs, hterm, hi.own, ?_, ?_⟩
  · intro m j err
    rw [hi.acct m j err, hidle m, hemp m j, hterm]
    have : restOf .idle j err ⟨[], []⟩ = [] := by cases err <;> rfl
    rw [this, List.append_nil]
    have hw : ∀ b ∈ bs, b.whole = true := by
      intro b hb
      cases h : b.whole with
      | true => rfl
      | false => exact absurd (hi.whole b hb h) (hkill _)
    have hown := hi.own
    clear hi hterm
    induction bs with
    | nil => rfl
    | cons b bs ih =>
      have ihh := ih (fun b' hb' => hw b' (List.mem_cons_of_mem _ hb')) (fun b' hb' => hown b' (List.mem_cons_of_mem _ hb'))
      rw [List.flatMap_cons, List.filter_append, textOf_append, ihh]
      have hb := hown b List.mem_cons_self
      have hwb := hw b List.mem_cons_self
      by_cases hk : b.make = m ∧ b.ctx = j
      · obtain ⟨rfl, rfl⟩ := hk
        rw [List.filter_eq_self.2 (by intro e he; simp [hb e he])]
        simp [blocksText, hwb]
      · rw [List.filter_eq_nil_iff.2 (by
          intro e he h
          simp only [Bool.and_eq_true, beq_iff_eq, (hb e he).1, (hb e he).2, Option.some.injEq] at h
          exact hk h)]
        have : (b.make == m && b.ctx == j && b.whole) = false := by
          cases h : (b.make == m && b.ctx == j) with
          | false => rfl
          | true => exact absurd (by simpa using h) hk
        simp [blocksText, this, textOf]
  · intro m j
    have := hi.count m j
    unfold blockCount dumpCalls at this
    omega

/-- C62.  A dump that has begun can always go on, unless all that is in the way is a make that holds the lock, which can go on itself. -/
theorem C62_progress (c : OutConfig) (ls : List OutLabel) (s : OutSys) (hd : Disciplined c ls .init) (hr : outRun c ls .init = some s)
    (m : Nat) (hm : s.pc m ≠ .idle) (hdead : ∀ p, s.pc m ≠ .dead p) :
    ∃ l s', (∃ k, l = .lock k ∨ l = .log k ∨ (∃ n, l = .pump k n) ∨ l = .eof k ∨ l = .unlock k ∨ l = .trunc k) ∧ outStep c s l = some s' := by
  obtain ⟨bs, cur, hi⟩ := inv_run (ls := []) (outInv_init c) hd hr
  have inside : ∀ k, holdsLock (s.pc k) = true →
      ∃ l s', (∃ k, l = .lock k ∨ l = .log k ∨ (∃ n, l = .pump k n) ∨ l = .eof k ∨ l = .unlock k ∨ l = .trunc k) ∧ outStep c s l = some s' := by
    intro k hk
    cases hp : s.pc k with
    | enter j o e sem => exact ⟨.log k, _, ⟨k, by simp⟩, by simp only [outStep, stepLog, hp]; rfl⟩
    | leave j sem => exact ⟨.log k, _, ⟨k, by simp⟩, by simp only [outStep, stepLog, hp]; rfl⟩
    | unlock j sem => exact ⟨.unlock k, _, ⟨k, by simp⟩, by simp only [outStep, stepUnlock, hp]; rfl⟩
    | out j pos e sem =>
      by_cases h : (s.tmp k j).out.length ≤ pos
      · exact ⟨.eof k, _, ⟨k, by simp⟩, by simp only [outStep, stepEof, hp, if_pos h]; rfl⟩
      · exact ⟨.pump k 1, _, ⟨k, by simp⟩, by
          simp only [outStep, stepPump, hp]; rw [if_pos ⟨by omega, by omega, by omega⟩]⟩
    | err j pos sem =>
      by_cases h : (s.tmp k j).err.length ≤ pos
      · exact ⟨.eof k, _, ⟨k, by simp⟩, by simp only [outStep, stepEof, hp, if_pos h]; rfl⟩
      · exact ⟨.pump k 1, _, ⟨k, by simp⟩, by
          simp only [outStep, stepPump, hp]; rw [if_pos ⟨by omega, by omega, by omega⟩]⟩
    | _ => rw [hp] at hk; cases hk
  cases hl : s.lock with
  | some k => exact inside k ((hi.lock k).1 hl)
  | none =>
    cases hp : s.pc m with
    | idle => exact absurd hp hm
    | dead p => exact absurd hp (hdead p)
    | wait j o e => exact ⟨.lock m, _, ⟨m, by simp⟩, by simp only [outStep, stepLock, hp, if_pos hl]; rfl⟩
    | trunc j => exact ⟨.trunc m, _, ⟨m, by simp⟩, by simp only [outStep, stepTrunc, hp]; rfl⟩
    | enter j o e sem => have := hi.safe m; rw [hp] at this; exact inside m (by rw [hp]; simpa [unlocked, holdsLock] using this)
    | out j pos e sem => have := hi.safe m; rw [hp] at this; exact inside m (by rw [hp]; simpa [unlocked, holdsLock] using this)
    | err j pos sem => have := hi.safe m; rw [hp] at this; exact inside m (by rw [hp]; simpa [unlocked, holdsLock] using this)
    | leave j sem => have := hi.safe m; rw [hp] at this; exact inside m (by rw [hp]; simpa [unlocked, holdsLock] using this)
    | unlock j sem => have := hi.safe m; rw [hp] at this; exact inside m (by rw [hp]; simpa [unlocked, holdsLock] using this)

/-! ## The hypotheses hold for a run of two makes whose writes and dumps overlap -/

/-- Two makes; the messages are those of `-w`. -/
def twoMakes : OutConfig := ⟨false, true, fun _ => "Entering".toList, fun _ => "Leaving".toList⟩

/-- The job of make 0 writes in two pieces, the one of make 1 on standard error; make 1 waits for the lock. -/
def twoMakesRun : List OutLabel :=
  [.write 0 0 false "ab".toList, .write 1 3 true "x".toList, .write 0 0 false "c".toList, .dump 0 0, .dump 1 3, .lock 0, .log 0, .pump 0 2,
   .pump 0 1, .eof 0, .log 0, .unlock 0, .lock 1, .trunc 0, .log 1, .pump 1 1, .eof 1, .log 1, .unlock 1, .trunc 1]

/-- A check of `Disciplined` that can be computed. -/
def disciplinedB (c : OutConfig) : List OutLabel → OutSys → Bool
  | [], _ => true
  | l :: ls, s =>
    (match l with
      | .write m j _ _ => !busyWith (s.pc m) j
      | .lockFail _ => false
      | _ => true) && match outStep c s l with
        | some s' => disciplinedB c ls s'
        | none => true

theorem disciplinedB_sound {c : OutConfig} : ∀ {ls : List OutLabel} {s : OutSys}, disciplinedB c ls s = true → Disciplined c ls s := by
  intro ls
  induction ls with
  | nil => intros; trivial
  | cons l ls ih =>
    intro s h
    simp only [disciplinedB, Bool.and_eq_true] at h
    refine ⟨?_, ?_⟩
    · have h1 := h.1
      cases l <;> simp_all
    · intro s' hs
      have h2 := h.2
      rw [hs] at h2
      exact ih h2

example : Disciplined twoMakes twoMakesRun .init := disciplinedB_sound (by decide +kernel)

example : (outRun twoMakes twoMakesRun .init).map (fun s => s.term.map (fun e => (e.make, e.err, e.log, e.text))) =
    some [(0, false, true, "Entering".toList), (0, false, false, "ab".toList), (0, false, false, "c".toList), (0, false, true, "Leaving".toList),
      (1, false, true, "Entering".toList), (1, true, false, "x".toList), (1, false, true, "Leaving".toList)] := by decide +kernel

example : writtenTo twoMakes 0 0 false twoMakesRun = "abc".toList := by decide +kernel

/-! ## What is not kept together -/

/-- C62, not kept: what is not captured can fall in the middle of a block. -/
theorem C62_direct : ∃ (c : OutConfig) (ls : List OutLabel) (s : OutSys), Disciplined c ls .init ∧ outRun c ls .init = some s ∧
    s.term = [⟨0, some 0, false, false, "a".toList⟩, ⟨1, none, false, false, "make: hello".toList⟩, ⟨0, some 0, false, false, "b".toList⟩] :=
  ⟨⟨false, false, fun _ => [], fun _ => []⟩,
    [.write 0 0 false "ab".toList, .dump 0 0, .lock 0, .log 0, .pump 0 1, .direct 1 false "make: hello".toList, .pump 0 1], _,
    disciplinedB_sound (by decide +kernel), rfl, by decide +kernel⟩

/-- C62, not kept: a process that goes on writing after its job has ended, just before the file is emptied, loses what it writes: it is
neither on the terminal nor in the file. -/
theorem C62_background : ∃ (c : OutConfig) (ls : List OutLabel) (s : OutSys), outRun c ls .init = some s ∧ (∀ m, OutLabel.lockFail m ∉ ls) ∧
    writtenTo c 0 0 false ls = "ab".toList ∧ s.term.map (·.text) = ["a".toList] ∧ (s.tmp 0 0).out = [] :=
  ⟨⟨false, false, fun _ => [], fun _ => []⟩,
    [.write 0 0 false "a".toList, .dump 0 0, .lock 0, .log 0, .pump 0 1, .eof 0, .log 0, .unlock 0, .write 0 0 false "b".toList, .trunc 0], _,
    rfl, by intro m; simp, by decide +kernel, by decide +kernel, by decide +kernel⟩

/-- C62, not kept: if the lock cannot be had, output is written out nevertheless, and blocks are mixed. -/
theorem C62_no_lock : ∃ (c : OutConfig) (ls : List OutLabel) (s : OutSys), outRun c ls .init = some s ∧
    s.term = [⟨0, some 0, false, false, "a".toList⟩, ⟨1, some 0, false, false, "x".toList⟩, ⟨0, some 0, false, false, "b".toList⟩] :=
  ⟨⟨false, false, fun _ => [], fun _ => []⟩,
    [.write 0 0 false "ab".toList, .write 1 0 false "x".toList, .dump 0 0, .lock 0, .log 0, .pump 0 1, .dump 1 0, .lockFail 1, .log 1, .pump 1 1,
      .pump 0 1], _, rfl, by decide +kernel⟩

end Remake
