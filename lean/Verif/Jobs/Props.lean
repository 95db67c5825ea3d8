import Verif.Jobs.Lemmas2
/-! Theorems about job slots and the job server (C49, C50). -/
set_option linter.unusedSimpArgs false
namespace Remake
open Spec

/-! ## C49: tokens -/

/-- At any moment, whatever the makes have done before, the tokens in the pipe and those that
stand for the jobs of the makes beyond each make's first are as many as there were in the
beginning.  Missing: makes that are killed by a signal, and makes that end with a status other than 2
while they have jobs (`C49_lost`). -/
theorem C49_conserved_partial {slots : Nat} {serial : Bool} {w : World}
    (h : Reach Orderly slots serial w) : w.pipe + total beyondFirst w = slots - 1 := by
  have hi := reach_inv h
  have : total beyondFirst w = heldBy w.procs := by
    unfold total heldBy
    congr 1
    exact List.map_congr_left fun p hp => by
      rw [beyondFirst, outstanding, Proc.held, (hi.each p hp).inv.tokens]
  rw [this, hi.tokens]

/-- Whatever a make does next, it writes back at most the tokens it holds, and what it holds
afterwards is what it held and took, less what it wrote. -/
theorem C49_release {slots : Nat} {serial : Bool} {w : World} (h : Reach Orderly slots serial w)
    {p p' : Proc} (hp : p ∈ w.procs) {t r : Nat} (hs : PStep false p t r p') :
    r ≤ beyondFirst p + t ∧ beyondFirst p' = beyondFirst p + t - r := by
  have hc := (reach_inv h).each p hp
  obtain ⟨h1, -, -, -, -, h6⟩ := pstep_inv hc.inv hs
  have h7 := h6 hc.slots hc.server
  have e1 : beyondFirst p = p.held := by rw [beyondFirst, outstanding, Proc.held, hc.inv.tokens]
  have e2 : beyondFirst p' = p'.held := by rw [beyondFirst, outstanding, Proc.held, h1.tokens]
  omega

/-- No make comes to the internal error "no tokens left". -/
theorem C49_never_short {slots : Nat} {serial : Bool} {w : World} (h : Reach Orderly slots serial w)
    {p : Proc} (hp : p ∈ w.procs) :
    (∀ c high s, (startNew p c high s).isSome) ∧ (∀ high s, (startWaiting p high s).isSome) ∧
      (∀ i again, (reapKid p i again).isSome) := by
  have hc := (reach_inv h).each p hp
  refine ⟨?_, ?_, fun i again => reapKid_some hc.inv i again⟩
  · intro c high s
    unfold startNew
    rw [Option.isSome_map]
    exact startWaitingJob_some _ _ _ _ (by simp)
  · intro high s
    unfold startWaiting
    split
    · rfl
    · rename_i c cs hw
      exact startWaitingJob_some _ _ _ _ (by simp only; rw [hc.inv.tokens, hw]; simp; omega)

/-- When no make has a job left, all tokens are back and the master does not complain. -/
theorem C49_done_partial {slots : Nat} {serial : Bool} {w : World} (h : Reach Orderly slots serial w)
    (h0 : 0 < slots) (hd : allDone w) : w.pipe = slots - 1 ∧ masterComplains slots w.pipe = false := by
  have h1 := C49_conserved_partial h
  have h2 : total beyondFirst w = 0 := by
    unfold total
    have : w.procs.map beyondFirst = w.procs.map fun _ => 0 := List.map_congr_left fun p hp => by
      obtain ⟨e1, e2⟩ := hd p hp
      simp [beyondFirst, outstanding, e1, e2]
    rw [this]
    generalize w.procs = l
    induction l with
    | nil => rfl
    | cons x l ih => simpa using ih
  rw [h2] at h1
  refine ⟨by omega, ?_⟩
  unfold masterComplains
  simp
  omega

/-- A make that ends with status 2, or with no job left, returns exactly the tokens it holds, and no
internal error is reported. -/
theorem C49_exit {slots : Nat} {serial : Bool} {w : World} (h : Reach Orderly slots serial w)
    {q : Proc} (hq : q ∈ w.procs) {status : Nat}
    (hs : status = 2 ∨ q.children = [] ∧ q.waiting = []) :
    cleanTokens q status = (beyondFirst q, false) := by
  have hc := (reach_inv h).each q hq
  have e1 : beyondFirst q = q.tokens - 1 := by rw [beyondFirst, outstanding, hc.inv.tokens]
  rw [e1]
  unfold cleanTokens
  rcases hs with rfl | ⟨h1, h2⟩
  · by_cases h0 : q.tokens = 0 <;> simp [hc.server, h0]
  · have : q.tokens = 0 := by rw [hc.inv.tokens, h1, h2]; rfl
    simp [this]

section Steps

/-- A job, for the examples. -/
abbrev kid (f : Nat) : Kid := { file := f }

/-- A world with the master make and a running job. -/
theorem reach_one (ok : Proc → Nat → Prop) (n : Nat) :
    Reach ok n false ⟨[{ slots := 0, server := true, children := [{ file := 1, pid := 10, jobslot := true }], used := 1, tokens := 1 }], n - 1⟩ :=
  .step .start (.one (a := []) (b := []) (t := 0) (r := 0) (pipe := n - 1)
    (.newFree (c := kid 1) (high := false) (s := .running 10) rfl rfl rfl rfl
      (by simp [Steady]) rfl))

/-- … whose command runs a make. -/
theorem reach_two (ok : Proc → Nat → Prop) (n : Nat) :
    Reach ok n false ⟨[{ slots := 0, server := true, children := [{ file := 1, pid := 10, jobslot := true, makes := 1 }], used := 1, tokens := 1 }, { slots := 0, server := true }], n - 1⟩ :=
  .step (reach_one ok n) (.enter (a := []) (b := []) (i := 0) (serial := false)
    (c := { file := 1, pid := 10, jobslot := true }) rfl (by decide))

/-- … which has a running job. -/
theorem reach_three (ok : Proc → Nat → Prop) (n : Nat) :
    Reach ok n false ⟨[{ slots := 0, server := true, children := [{ file := 1, pid := 10, jobslot := true, makes := 1 }], used := 1, tokens := 1 },
      { slots := 0, server := true, children := [{ file := 2, pid := 11, jobslot := true }], used := 1, tokens := 1 }], n - 1⟩ :=
  .step (reach_two ok n) (.one (a := [_]) (b := []) (t := 0) (r := 0) (pipe := n - 1)
    (.newFree (c := kid 2) (high := false) (s := .running 11) rfl rfl rfl rfl
      (by simp [Steady]) rfl))

/-- … and a second one that waits for the load. -/
theorem reach_four (ok : Proc → Nat → Prop) (n : Nat) :
    Reach ok (n + 2) false ⟨[{ slots := 0, server := true, children := [{ file := 1, pid := 10, jobslot := true, makes := 1 }], used := 1, tokens := 1 },
      { slots := 0, server := true, children := [{ file := 2, pid := 11, jobslot := true }], waiting := [kid 3], used := 1, tokens := 2 }], n⟩ :=
  .step (reach_three ok (n + 2)) (.one (a := [_]) (b := []) (t := 1) (r := 0) (pipe := n)
    (.newToken (c := kid 3) (high := true) (s := .finished) rfl rfl rfl rfl
      (by simp [Steady]) rfl))

/-- … and a third one. -/
theorem reach_five (ok : Proc → Nat → Prop) (n : Nat) :
    Reach ok (n + 3) false ⟨[{ slots := 0, server := true, children := [{ file := 1, pid := 10, jobslot := true, makes := 1 }], used := 1, tokens := 1 },
      { slots := 0, server := true, children := [{ file := 2, pid := 11, jobslot := true }], waiting := [kid 4, kid 3], used := 1, tokens := 3 }], n⟩ :=
  .step (reach_four ok (n + 1)) (.one (a := [_]) (b := []) (t := 1) (r := 0) (pipe := n)
    (.newToken (c := kid 4) (high := true) (s := .finished) rfl rfl rfl rfl
      (by simp [Steady]) rfl))

/-- … the first job has ended. -/
theorem reach_six (ok : Proc → Nat → Prop) (n : Nat) :
    Reach ok (n + 3) false ⟨[{ slots := 0, server := true, children := [{ file := 1, pid := 10, jobslot := true, makes := 1 }], used := 1, tokens := 1 },
      { slots := 0, server := true, waiting := [kid 4, kid 3], used := 0, tokens := 2 }], n + 1⟩ :=
  .step (reach_five ok n) (.one (a := [_]) (b := []) (t := 0) (r := 1) (pipe := n)
    (.reap (i := 0) (again := none) rfl rfl rfl))

/-- … the make has ended with a status that is allowed, and the first job too. -/
theorem reach_seven (ok : Proc → Nat → Prop) (n status : Nat)
    (h : ok { slots := 0, server := true, waiting := [kid 4, kid 3], used := 0, tokens := 2 } status) :
    Reach ok (n + 3) false ⟨[{ slots := 0, server := true }],
      n + 1 + if status = 2 then 1 else 0⟩ := by
  have h1 := Reach.step (reach_six ok n) (.leave (k := 1) (i := 0) (status := status)
    (c := { file := 1, pid := 10, jobslot := true, makes := 1 }) rfl (by decide) rfl (by simp) h
    (a := []) (b := []) rfl rfl (by decide))
  have h2 := Reach.step h1 (.one (a := []) (b := []) (t := 0) (r := 0)
    (.reap (i := 0) (c := { file := 1, pid := 10, jobslot := true }) (again := none) rfl rfl rfl))
  have e : (cleanTokens { slots := 0, server := true, waiting := [kid 4, kid 3], used := 0, tokens := 2 }
      status).1 = if status = 2 then 1 else 0 := by
    by_cases hs : status = 2 <;> simp [cleanTokens, hs]
  rw [e] at h2
  exact h2

end Steps

/-- The claim is false for makes that end with another status while jobs wait for the load to
go down (as with `-q`, where the status is 1, or when the debugger's `quit` is used): their tokens
are lost, and so the master, which has nothing left to do, complains. -/
theorem C49_lost : ∃ w, Reach (fun _ _ => True) 3 false w ∧ allDone w ∧ w.pipe = 1 ∧
    masterComplains 3 w.pipe = true :=
  ⟨_, reach_seven (fun _ _ => True) 0 1 trivial, by simp [allDone], rfl, rfl⟩

/-- With status 2 the tokens are returned in the same situation. -/
example : ∃ w, Reach Orderly 3 false w ∧ allDone w ∧ w.pipe = 2 :=
  ⟨_, reach_seven Orderly 0 2 (.inl rfl), by simp [allDone], rfl⟩

/-- Two makes, one of them with a token. -/
example : ∃ w, Reach Orderly 3 false w ∧ w.pipe = 1 ∧ total beyondFirst w = 1 :=
  ⟨_, reach_four Orderly 1, rfl, rfl⟩

/-! ## C50: the number of jobs -/

/-- As long as no command runs two makes at the same time, the running jobs of all makes together are at
most as many as the slots.  Missing: commands that run several makes at once (`C50_two_makes`). -/
theorem C50_tree_partial {slots : Nat} {serial : Bool} {w : World} (h : Reach Orderly slots serial w)
    (h0 : 0 < slots) (h1 : oneMakeEach w) : total jobs w ≤ slots := by
  have hi := reach_inv h
  have key : ∀ l : List Proc, (∀ p ∈ l, CInv p) → (∀ p ∈ l, ∀ c ∈ p.children, c.makes ≤ 1) →
      (l.map jobs).sum + makesBy l ≤ heldBy l + l.length := by
    intro l
    induction l with
    | nil => intro _ _; simp [makesBy]
    | cons p l ih =>
      intro a b
      have h2 := ih (fun q hq => a q (by simp [hq])) (fun q hq => b q (by simp [hq]))
      have h3 := jobs_le p (b p (by simp))
      have h4 := (a p (by simp)).inv.tokens
      have h5 : p.children.length ≤ p.held + 1 := by unfold Proc.held; omega
      simp only [makesBy, heldBy, List.map_cons, List.sum_cons, List.length_cons] at h2 ⊢
      omega
  have h2 := key w.procs hi.each h1
  have h3 := hi.tokens
  have h4 := hi.makes
  unfold total
  omega

example : ∃ w, Reach Orderly 3 false w ∧ oneMakeEach w ∧ total jobs w = 1 ∧ w.procs.length = 2 :=
  ⟨_, reach_five Orderly 0, by simp [oneMakeEach], by decide, rfl⟩

/-- Each make has a free token of its own, so a command that runs two makes at the same time
makes more jobs possible: three with `-j2`. -/
theorem C50_two_makes : ∃ w, Reach Orderly 2 false w ∧ total jobs w = 3 := by
  have h1 := Reach.step (reach_three Orderly 2) (.enter (a := []) (i := 0) (serial := false)
    (c := { file := 1, pid := 10, jobslot := true, makes := 1 }) rfl (by decide))
  have h2 := Reach.step h1 (.one (a := [_, _]) (b := []) (t := 0) (r := 0) (pipe := 1)
    (.newFree (c := kid 3) (high := false) (s := .running 12) rfl rfl rfl rfl (by simp [Steady]) rfl))
  have h3 := Reach.step h2 (.one (a := [_, _]) (b := []) (t := 1) (r := 0) (pipe := 0)
    (.newToken (c := kid 4) (high := false) (s := .running 13) rfl rfl rfl rfl (by simp [Steady]) rfl))
  exact ⟨_, h3, by decide⟩

/-- A make under `.NOTPARALLEL` runs at most one job at a time, with the job server too. -/
theorem C50_notparallel {slots : Nat} {serial : Bool} {w : World} (h : Reach Orderly slots serial w)
    {p : Proc} (hp : p ∈ w.procs) (hs : p.serial = true) : outstanding p ≤ 1 :=
  (reach_sinv h p hp hs).few

example : ∃ w, ∃ p ∈ w.procs, Reach Orderly 3 true w ∧ p.serial = true ∧ outstanding p = 1 :=
  ⟨_, { slots := 0, server := true, serial := true, used := 1, tokens := 1, waitFor := some 1
        children := [{ file := 1, pid := 10, jobslot := true }] }, by simp,
    .step .start (.one (a := []) (b := []) (t := 0) (r := 0) (pipe := 2)
      (.newFree (c := kid 1) (high := false) (s := .running 10) rfl rfl rfl rfl (by simp [Steady]) rfl)),
    rfl, rfl⟩

/-- Without the job server: a make with one slot or `.NOTPARALLEL` has at most one job begun and not
finished, whatever the load and even if processes cannot be started. -/
theorem C50_single {slots : Nat} {serial calm : Bool} {p : Proc} (h : PReach calm slots serial p)
    (h1 : slots = 1 ∨ serial = true) : outstanding p ≤ 1 ∧ jobs p ≤ 1 := by
  have := (preach_sinv h h1).few
  have := jobs_le' p
  exact ⟨by unfold outstanding; omega, by omega⟩

/-- Without the job server, with any number of slots: if the load is never too high and processes can
always be started, no more jobs run than there are slots.  Missing: `C50_load`, `C50_uncounted`. -/
theorem C50_slots_partial {slots : Nat} {serial : Bool} {p : Proc} (h0 : 0 < slots)
    (h : PReach true slots serial p) : jobs p ≤ slots := by
  have hi := preach_linv (by omega) h
  have := jobs_le' p
  have := hi.used
  have := hi.le
  omega

/-- Two running jobs in a make with two slots. -/
example : ∃ p, PReach true 2 false p ∧ jobs p = 2 := by
  have h1 : PReach true 2 false _ := .step .start (.newFree (c := kid 1) (high := false)
    (s := .running 10) rfl rfl rfl rfl (by simp [Steady]) rfl)
  have h2 := PReach.step h1 (.newFree (c := kid 2) (high := false)
    (s := .running 11) rfl rfl rfl rfl (by simp [Steady]) rfl)
  exact ⟨_, h2, by decide⟩

/-- With a load limit (and no job server) the jobs that wait for the load to go down are
started without regard to the slots: three jobs run with two slots. -/
theorem C50_load : ∃ p, PReach false 2 false p ∧ jobs p = 3 := by
  have h1 : PReach false 2 false _ := .step .start (.newFree (c := kid 1) (high := false)
    (s := .running 10) rfl rfl rfl rfl (by simp [Steady]) rfl)
  have h2 := PReach.step h1 (.newFree (c := kid 2) (high := true)
    (s := .finished) rfl rfl rfl rfl (by simp [Steady]) rfl)
  have h3 := PReach.step h2 (.newFree (c := kid 3) (high := true)
    (s := .finished) rfl rfl rfl rfl (by simp [Steady]) rfl)
  have h4 := PReach.step h3 (.wait (high := false) (s := .running 11) (by simp [Steady]) rfl)
  have h5 := PReach.step h4 (.wait (high := false) (s := .running 12) (by simp [Steady]) rfl)
  exact ⟨_, h5, by decide⟩

/-- A job whose first command could not be started does not count as using a slot, even if
a later command of it (after an ignored error) runs: again three jobs with two slots. -/
theorem C50_uncounted : ∃ p, PReach false 2 false p ∧ jobs p = 3 := by
  have h1 : PReach false 2 false _ := .step .start (.newFree (c := kid 1) (high := false)
    (s := .running (-1)) rfl rfl rfl rfl (by simp [Steady]) rfl)
  have h2 := PReach.step h1 (.reap (i := 0) (again := some 10) rfl rfl rfl)
  have h3 := PReach.step h2 (.newFree (c := kid 2) (high := false)
    (s := .running 11) rfl rfl rfl rfl (by simp [Steady]) rfl)
  have h4 := PReach.step h3 (.newFree (c := kid 3) (high := false)
    (s := .running 12) rfl rfl rfl rfl (by simp [Steady]) rfl)
  exact ⟨_, h4, by decide⟩

end Remake
