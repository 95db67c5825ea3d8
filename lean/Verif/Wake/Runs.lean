import Verif.Wake.Tree
/-! # Sleeping and waking up: two runs (C125)

In the first two a make starts another make, which starts two jobs; the second has to wait for the load.  The first job ends,
and the process of the second cannot be started; the first make takes the token for a job that has to wait for the load.
In the third a make has a running job and one that waits for the load, and the alarm goes off. -/
namespace Remake
open Spec

/-- (with `pselect`) -/
theorem deadlock_false : WTree false 1 ⟨[{ trad := false, pc := .wait, kids := [⟨.runs [1], 0, true⟩], waiting := [0], tokens := 2, used := 1 }, { trad := false, pc := .sel, kids := [⟨.unstarted, 0, false⟩], tokens := 1 }], 0⟩ := by
  have s1 : WTree false 1 ⟨[{ trad := false }], 1⟩ := .init
  have s2 : WTree false 1 ⟨[{ trad := false, pc := .top }], 1⟩ := .own (i := 0) s1 rfl (.newJob rfl)
  have s3 : WTree false 1 ⟨[{ trad := false, pc := .start }], 1⟩ := .own (i := 0) s2 rfl (.topFree rfl rfl)
  have s4 : WTree false 1 ⟨[{ trad := false, kids := [⟨.runs [], 0, true⟩], tokens := 1, used := 1 }], 1⟩ := .own (i := 0) s3 rfl (.start (more := 0) (high := false) (s := .runs) rfl (by simp))
  have s5 : WTree false 1 ⟨[{ trad := false, kids := [⟨.runs [1], 0, true⟩], tokens := 1, used := 1 }, { trad := false }], 1⟩ := .enters (i := 0) (n := 0) (k := ⟨.runs [], 0, true⟩) (subs := []) s4 rfl rfl rfl
  have s6 : WTree false 1 ⟨[{ trad := false, kids := [⟨.runs [1], 0, true⟩], tokens := 1, used := 1 }, { trad := false, pc := .top }], 1⟩ := .own (i := 1) s5 rfl (.newJob rfl)
  have s7 : WTree false 1 ⟨[{ trad := false, kids := [⟨.runs [1], 0, true⟩], tokens := 1, used := 1 }, { trad := false, pc := .start }], 1⟩ := .own (i := 1) s6 rfl (.topFree rfl rfl)
  have s8 : WTree false 1 ⟨[{ trad := false, kids := [⟨.runs [1], 0, true⟩], tokens := 1, used := 1 }, { trad := false, kids := [⟨.runs [], 0, true⟩], tokens := 1, used := 1 }], 1⟩ := .own (i := 1) s7 rfl (.start (more := 0) (high := false) (s := .runs) rfl (by simp))
  have s9 : WTree false 1 ⟨[{ trad := false, kids := [⟨.runs [1], 0, true⟩], tokens := 1, used := 1 }, { trad := false, pc := .top, kids := [⟨.runs [], 0, true⟩], tokens := 1, used := 1 }], 1⟩ := .own (i := 1) s8 rfl (.newJob rfl)
  have s10 : WTree false 1 ⟨[{ trad := false, kids := [⟨.runs [1], 0, true⟩], tokens := 1, used := 1 }, { trad := false, pc := .dup, kids := [⟨.runs [], 0, true⟩], tokens := 1, used := 1 }], 1⟩ := .own (i := 1) s9 rfl (.topMore rfl (by decide))
  have s11 : WTree false 1 ⟨[{ trad := false, kids := [⟨.runs [1], 0, true⟩], tokens := 1, used := 1 }, { trad := false, pc := .reap, kids := [⟨.runs [], 0, true⟩], tokens := 1, used := 1 }], 1⟩ := .own (i := 1) s10 rfl (.dup rfl)
  have s12 : WTree false 1 ⟨[{ trad := false, kids := [⟨.runs [1], 0, true⟩], tokens := 1, used := 1 }, { trad := false, pc := .queue, kids := [⟨.runs [], 0, true⟩], tokens := 1, used := 1 }], 1⟩ := .own (i := 1) s11 rfl (.reaped rfl (by simp [WJob.over]))
  have s13 : WTree false 1 ⟨[{ trad := false, kids := [⟨.runs [1], 0, true⟩], tokens := 1, used := 1 }, { trad := false, pc := .check, kids := [⟨.runs [], 0, true⟩], tokens := 1, used := 1 }], 1⟩ := .own (i := 1) s12 rfl (.queue rfl)
  have s14 : WTree false 1 ⟨[{ trad := false, kids := [⟨.runs [1], 0, true⟩], tokens := 1, used := 1 }, { trad := false, pc := .sel, kids := [⟨.runs [], 0, true⟩], tokens := 1, used := 1 }], 1⟩ := .own (i := 1) s13 rfl (.checkMore rfl (by decide) (by decide))
  have s15 : WTree false 1 ⟨[{ trad := false, kids := [⟨.runs [1], 0, true⟩], tokens := 1, used := 1 }, { trad := false, pc := .selRead, kids := [⟨.runs [], 0, true⟩], tokens := 1, used := 1 }], 1⟩ := .own (i := 1) s14 rfl (.selReady rfl (by decide))
  have s16 : WTree false 1 ⟨[{ trad := false, kids := [⟨.runs [1], 0, true⟩], tokens := 1, used := 1 }, { trad := false, pc := .start, kids := [⟨.runs [], 0, true⟩], tokens := 1, used := 1 }], 0⟩ := .own (i := 1) s15 rfl (.selToken rfl)
  have s17 : WTree false 1 ⟨[{ trad := false, kids := [⟨.runs [1], 0, true⟩], tokens := 1, used := 1 }, { trad := false, kids := [⟨.runs [], 0, true⟩], waiting := [0], tokens := 2, used := 1 }], 0⟩ := .own (i := 1) s16 rfl (.start (more := 0) (high := true) (s := .runs) rfl (by simp))
  have s18 : WTree false 1 ⟨[{ trad := false, kids := [⟨.runs [1], 0, true⟩], tokens := 1, used := 1 }, { trad := false, pc := .top, kids := [⟨.runs [], 0, true⟩], waiting := [0], tokens := 2, used := 1 }], 0⟩ := .own (i := 1) s17 rfl (.newJob rfl)
  have s19 : WTree false 1 ⟨[{ trad := false, kids := [⟨.runs [1], 0, true⟩], tokens := 1, used := 1 }, { trad := false, pc := .dup, kids := [⟨.runs [], 0, true⟩], waiting := [0], tokens := 2, used := 1 }], 0⟩ := .own (i := 1) s18 rfl (.topMore rfl (by decide))
  have s20 : WTree false 1 ⟨[{ trad := false, kids := [⟨.runs [1], 0, true⟩], tokens := 1, used := 1 }, { trad := false, pc := .reap, kids := [⟨.runs [], 0, true⟩], waiting := [0], tokens := 2, used := 1 }], 0⟩ := .own (i := 1) s19 rfl (.dup rfl)
  have s21 : WTree false 1 ⟨[{ trad := false, kids := [⟨.runs [1], 0, true⟩], tokens := 1, used := 1 }, { trad := false, pc := .queue, kids := [⟨.runs [], 0, true⟩], waiting := [0], tokens := 2, used := 1 }], 0⟩ := .own (i := 1) s20 rfl (.reaped rfl (by simp [WJob.over]))
  have s22 : WTree false 1 ⟨[{ trad := false, kids := [⟨.runs [1], 0, true⟩], tokens := 1, used := 1 }, { trad := false, pc := .queueReap, kids := [⟨.runs [], 0, true⟩], waiting := [0], tokens := 2, used := 1 }], 0⟩ := .own (i := 1) s21 rfl (.queue rfl)
  have s23 : WTree false 1 ⟨[{ trad := false, kids := [⟨.runs [1], 0, true⟩], tokens := 1, used := 1 }, { trad := false, pc := .queueStart, kids := [⟨.runs [], 0, true⟩], waiting := [0], tokens := 2, used := 1 }], 0⟩ := .own (i := 1) s22 rfl (.queueReaped rfl (by simp [WJob.over]))
  have s24 : WTree false 1 ⟨[{ trad := false, kids := [⟨.runs [1], 0, true⟩], tokens := 1, used := 1 }, { trad := false, pc := .check, kids := [⟨.runs [], 0, true⟩], waiting := [0], tokens := 2, used := 1 }], 0⟩ := .own (i := 1) s23 rfl (.queueStart (more := 0) (r := []) (high := true) (s := .runs) (.inl rfl) rfl (by simp))
  have s25 : WTree false 1 ⟨[{ trad := false, kids := [⟨.runs [1], 0, true⟩], tokens := 1, used := 1 }, { trad := false, pc := .sel, kids := [⟨.runs [], 0, true⟩], waiting := [0], tokens := 2, used := 1 }], 0⟩ := .own (i := 1) s24 rfl (.checkMore rfl (by decide) (by decide))
  have s26 : WTree false 1 ⟨[{ trad := false, kids := [⟨.runs [1], 0, true⟩], tokens := 1, used := 1 }, { trad := false, pc := .sel, kids := [⟨.ended, 0, true⟩], waiting := [0], tokens := 2, used := 1, pend := true }], 0⟩ := .env (i := 1) s25 rfl (.ends (i := 0) (subs := []) (more := 0) (slot := true) rfl)
  have s27 : WTree false 1 ⟨[{ trad := false, kids := [⟨.runs [1], 0, true⟩], tokens := 1, used := 1 }, { trad := false, pc := .top, kids := [⟨.ended, 0, true⟩], waiting := [0], tokens := 2, used := 1 }], 0⟩ := .own (i := 1) s26 rfl (.selSignal rfl rfl)
  have s28 : WTree false 1 ⟨[{ trad := false, kids := [⟨.runs [1], 0, true⟩], tokens := 1, used := 1 }, { trad := false, pc := .dup, kids := [⟨.ended, 0, true⟩], waiting := [0], tokens := 2, used := 1 }], 0⟩ := .own (i := 1) s27 rfl (.topMore rfl (by decide))
  have s29 : WTree false 1 ⟨[{ trad := false, kids := [⟨.runs [1], 0, true⟩], tokens := 1, used := 1 }, { trad := false, pc := .reap, kids := [⟨.ended, 0, true⟩], waiting := [0], tokens := 2, used := 1 }], 0⟩ := .own (i := 1) s28 rfl (.dup rfl)
  have s30 : WTree false 1 ⟨[{ trad := false, kids := [⟨.runs [1], 0, true⟩], tokens := 1, used := 1 }, { trad := false, pc := .reap, waiting := [0], tokens := 1 }], 1⟩ := .own (i := 1) s29 rfl (.remove (i := 0) (k := ⟨.ended, 0, true⟩) (fails := false) (by simp [WPc.reaps]) rfl (.inl rfl))
  have s31 : WTree false 1 ⟨[{ trad := false, kids := [⟨.runs [1], 0, true⟩], tokens := 1, used := 1 }, { trad := false, pc := .queue, waiting := [0], tokens := 1 }], 1⟩ := .own (i := 1) s30 rfl (.reaped rfl (by simp [WJob.over]))
  have s32 : WTree false 1 ⟨[{ trad := false, kids := [⟨.runs [1], 0, true⟩], tokens := 1, used := 1 }, { trad := false, pc := .queueReap, waiting := [0], tokens := 1 }], 1⟩ := .own (i := 1) s31 rfl (.queue rfl)
  have s33 : WTree false 1 ⟨[{ trad := false, kids := [⟨.runs [1], 0, true⟩], tokens := 1, used := 1 }, { trad := false, pc := .queueStart, waiting := [0], tokens := 1 }], 1⟩ := .own (i := 1) s32 rfl (.queueReaped rfl (by simp [WJob.over]))
  have s34 : WTree false 1 ⟨[{ trad := false, kids := [⟨.runs [1], 0, true⟩], tokens := 1, used := 1 }, { trad := false, pc := .queue, kids := [⟨.unstarted, 0, false⟩], tokens := 1 }], 1⟩ := .own (i := 1) s33 rfl (.queueStart (more := 0) (r := []) (high := false) (s := .unstarted) (.inl rfl) rfl (by simp))
  have s35 : WTree false 1 ⟨[{ trad := false, kids := [⟨.runs [1], 0, true⟩], tokens := 1, used := 1 }, { trad := false, pc := .check, kids := [⟨.unstarted, 0, false⟩], tokens := 1 }], 1⟩ := .own (i := 1) s34 rfl (.queue rfl)
  have s36 : WTree false 1 ⟨[{ trad := false, kids := [⟨.runs [1], 0, true⟩], tokens := 1, used := 1 }, { trad := false, pc := .sel, kids := [⟨.unstarted, 0, false⟩], tokens := 1 }], 1⟩ := .own (i := 1) s35 rfl (.checkMore rfl (by decide) (by decide))
  have s37 : WTree false 1 ⟨[{ trad := false, pc := .top, kids := [⟨.runs [1], 0, true⟩], tokens := 1, used := 1 }, { trad := false, pc := .sel, kids := [⟨.unstarted, 0, false⟩], tokens := 1 }], 1⟩ := .own (i := 0) s36 rfl (.newJob rfl)
  have s38 : WTree false 1 ⟨[{ trad := false, pc := .dup, kids := [⟨.runs [1], 0, true⟩], tokens := 1, used := 1 }, { trad := false, pc := .sel, kids := [⟨.unstarted, 0, false⟩], tokens := 1 }], 1⟩ := .own (i := 0) s37 rfl (.topMore rfl (by decide))
  have s39 : WTree false 1 ⟨[{ trad := false, pc := .reap, kids := [⟨.runs [1], 0, true⟩], tokens := 1, used := 1 }, { trad := false, pc := .sel, kids := [⟨.unstarted, 0, false⟩], tokens := 1 }], 1⟩ := .own (i := 0) s38 rfl (.dup rfl)
  have s40 : WTree false 1 ⟨[{ trad := false, pc := .queue, kids := [⟨.runs [1], 0, true⟩], tokens := 1, used := 1 }, { trad := false, pc := .sel, kids := [⟨.unstarted, 0, false⟩], tokens := 1 }], 1⟩ := .own (i := 0) s39 rfl (.reaped rfl (by simp [WJob.over]))
  have s41 : WTree false 1 ⟨[{ trad := false, pc := .check, kids := [⟨.runs [1], 0, true⟩], tokens := 1, used := 1 }, { trad := false, pc := .sel, kids := [⟨.unstarted, 0, false⟩], tokens := 1 }], 1⟩ := .own (i := 0) s40 rfl (.queue rfl)
  have s42 : WTree false 1 ⟨[{ trad := false, pc := .sel, kids := [⟨.runs [1], 0, true⟩], tokens := 1, used := 1 }, { trad := false, pc := .sel, kids := [⟨.unstarted, 0, false⟩], tokens := 1 }], 1⟩ := .own (i := 0) s41 rfl (.checkMore rfl (by decide) (by decide))
  have s43 : WTree false 1 ⟨[{ trad := false, pc := .selRead, kids := [⟨.runs [1], 0, true⟩], tokens := 1, used := 1 }, { trad := false, pc := .sel, kids := [⟨.unstarted, 0, false⟩], tokens := 1 }], 1⟩ := .own (i := 0) s42 rfl (.selReady rfl (by decide))
  have s44 : WTree false 1 ⟨[{ trad := false, pc := .start, kids := [⟨.runs [1], 0, true⟩], tokens := 1, used := 1 }, { trad := false, pc := .sel, kids := [⟨.unstarted, 0, false⟩], tokens := 1 }], 0⟩ := .own (i := 0) s43 rfl (.selToken rfl)
  have s45 : WTree false 1 ⟨[{ trad := false, kids := [⟨.runs [1], 0, true⟩], waiting := [0], tokens := 2, used := 1 }, { trad := false, pc := .sel, kids := [⟨.unstarted, 0, false⟩], tokens := 1 }], 0⟩ := .own (i := 0) s44 rfl (.start (more := 0) (high := true) (s := .runs) rfl (by simp))
  have s46 : WTree false 1 ⟨[{ trad := false, pc := .wait, kids := [⟨.runs [1], 0, true⟩], waiting := [0], tokens := 2, used := 1 }, { trad := false, pc := .sel, kids := [⟨.unstarted, 0, false⟩], tokens := 1 }], 0⟩ := .own (i := 0) s45 rfl (.waits rfl)
  exact s46

/-- (without) -/
theorem deadlock_true : WTree false 1 ⟨[{ trad := true, pc := .wait, kids := [⟨.runs [1], 0, true⟩], waiting := [0], tokens := 2, used := 1, reg := true }, { trad := true, pc := .read, kids := [⟨.unstarted, 0, false⟩], tokens := 1, reg := true }], 0⟩ := by
  have s1 : WTree false 1 ⟨[{ trad := true }], 1⟩ := .init
  have s2 : WTree false 1 ⟨[{ trad := true, pc := .top }], 1⟩ := .own (i := 0) s1 rfl (.newJob rfl)
  have s3 : WTree false 1 ⟨[{ trad := true, pc := .start }], 1⟩ := .own (i := 0) s2 rfl (.topFree rfl rfl)
  have s4 : WTree false 1 ⟨[{ trad := true, kids := [⟨.runs [], 0, true⟩], tokens := 1, used := 1 }], 1⟩ := .own (i := 0) s3 rfl (.start (more := 0) (high := false) (s := .runs) rfl (by simp))
  have s5 : WTree false 1 ⟨[{ trad := true, kids := [⟨.runs [1], 0, true⟩], tokens := 1, used := 1 }, { trad := true }], 1⟩ := .enters (i := 0) (n := 0) (k := ⟨.runs [], 0, true⟩) (subs := []) s4 rfl rfl rfl
  have s6 : WTree false 1 ⟨[{ trad := true, kids := [⟨.runs [1], 0, true⟩], tokens := 1, used := 1 }, { trad := true, pc := .top }], 1⟩ := .own (i := 1) s5 rfl (.newJob rfl)
  have s7 : WTree false 1 ⟨[{ trad := true, kids := [⟨.runs [1], 0, true⟩], tokens := 1, used := 1 }, { trad := true, pc := .start }], 1⟩ := .own (i := 1) s6 rfl (.topFree rfl rfl)
  have s8 : WTree false 1 ⟨[{ trad := true, kids := [⟨.runs [1], 0, true⟩], tokens := 1, used := 1 }, { trad := true, kids := [⟨.runs [], 0, true⟩], tokens := 1, used := 1 }], 1⟩ := .own (i := 1) s7 rfl (.start (more := 0) (high := false) (s := .runs) rfl (by simp))
  have s9 : WTree false 1 ⟨[{ trad := true, kids := [⟨.runs [1], 0, true⟩], tokens := 1, used := 1 }, { trad := true, pc := .top, kids := [⟨.runs [], 0, true⟩], tokens := 1, used := 1 }], 1⟩ := .own (i := 1) s8 rfl (.newJob rfl)
  have s10 : WTree false 1 ⟨[{ trad := true, kids := [⟨.runs [1], 0, true⟩], tokens := 1, used := 1 }, { trad := true, pc := .dup, kids := [⟨.runs [], 0, true⟩], tokens := 1, used := 1 }], 1⟩ := .own (i := 1) s9 rfl (.topMore rfl (by decide))
  have s11 : WTree false 1 ⟨[{ trad := true, kids := [⟨.runs [1], 0, true⟩], tokens := 1, used := 1 }, { trad := true, pc := .reap, kids := [⟨.runs [], 0, true⟩], tokens := 1, used := 1 }], 1⟩ := .own (i := 1) s10 rfl (.dup rfl)
  have s12 : WTree false 1 ⟨[{ trad := true, kids := [⟨.runs [1], 0, true⟩], tokens := 1, used := 1 }, { trad := true, pc := .queue, kids := [⟨.runs [], 0, true⟩], tokens := 1, used := 1 }], 1⟩ := .own (i := 1) s11 rfl (.reaped rfl (by simp [WJob.over]))
  have s13 : WTree false 1 ⟨[{ trad := true, kids := [⟨.runs [1], 0, true⟩], tokens := 1, used := 1 }, { trad := true, pc := .check, kids := [⟨.runs [], 0, true⟩], tokens := 1, used := 1 }], 1⟩ := .own (i := 1) s12 rfl (.queue rfl)
  have s14 : WTree false 1 ⟨[{ trad := true, kids := [⟨.runs [1], 0, true⟩], tokens := 1, used := 1 }, { trad := true, pc := .flags, kids := [⟨.runs [], 0, true⟩], tokens := 1, used := 1 }], 1⟩ := .own (i := 1) s13 rfl (.checkMore rfl (by decide) (by decide))
  have s15 : WTree false 1 ⟨[{ trad := true, kids := [⟨.runs [1], 0, true⟩], tokens := 1, used := 1 }, { trad := true, pc := .load, kids := [⟨.runs [], 0, true⟩], tokens := 1, used := 1 }], 1⟩ := .own (i := 1) s14 rfl (.flags rfl)
  have s16 : WTree false 1 ⟨[{ trad := true, kids := [⟨.runs [1], 0, true⟩], tokens := 1, used := 1 }, { trad := true, pc := .read, kids := [⟨.runs [], 0, true⟩], tokens := 1, used := 1, reg := true }], 1⟩ := .own (i := 1) s15 rfl (.load rfl)
  have s17 : WTree false 1 ⟨[{ trad := true, kids := [⟨.runs [1], 0, true⟩], tokens := 1, used := 1 }, { trad := true, pc := .start, kids := [⟨.runs [], 0, true⟩], tokens := 1, used := 1, reg := true }], 0⟩ := .own (i := 1) s16 rfl (.readToken rfl rfl rfl)
  have s18 : WTree false 1 ⟨[{ trad := true, kids := [⟨.runs [1], 0, true⟩], tokens := 1, used := 1 }, { trad := true, kids := [⟨.runs [], 0, true⟩], waiting := [0], tokens := 2, used := 1, reg := true }], 0⟩ := .own (i := 1) s17 rfl (.start (more := 0) (high := true) (s := .runs) rfl (by simp))
  have s19 : WTree false 1 ⟨[{ trad := true, kids := [⟨.runs [1], 0, true⟩], tokens := 1, used := 1 }, { trad := true, pc := .top, kids := [⟨.runs [], 0, true⟩], waiting := [0], tokens := 2, used := 1, reg := true }], 0⟩ := .own (i := 1) s18 rfl (.newJob rfl)
  have s20 : WTree false 1 ⟨[{ trad := true, kids := [⟨.runs [1], 0, true⟩], tokens := 1, used := 1 }, { trad := true, pc := .dup, kids := [⟨.runs [], 0, true⟩], waiting := [0], tokens := 2, used := 1, reg := true }], 0⟩ := .own (i := 1) s19 rfl (.topMore rfl (by decide))
  have s21 : WTree false 1 ⟨[{ trad := true, kids := [⟨.runs [1], 0, true⟩], tokens := 1, used := 1 }, { trad := true, pc := .reap, kids := [⟨.runs [], 0, true⟩], waiting := [0], tokens := 2, used := 1, reg := true }], 0⟩ := .own (i := 1) s20 rfl (.dup rfl)
  have s22 : WTree false 1 ⟨[{ trad := true, kids := [⟨.runs [1], 0, true⟩], tokens := 1, used := 1 }, { trad := true, pc := .queue, kids := [⟨.runs [], 0, true⟩], waiting := [0], tokens := 2, used := 1, reg := true }], 0⟩ := .own (i := 1) s21 rfl (.reaped rfl (by simp [WJob.over]))
  have s23 : WTree false 1 ⟨[{ trad := true, kids := [⟨.runs [1], 0, true⟩], tokens := 1, used := 1 }, { trad := true, pc := .queueReap, kids := [⟨.runs [], 0, true⟩], waiting := [0], tokens := 2, used := 1, reg := true }], 0⟩ := .own (i := 1) s22 rfl (.queue rfl)
  have s24 : WTree false 1 ⟨[{ trad := true, kids := [⟨.runs [1], 0, true⟩], tokens := 1, used := 1 }, { trad := true, pc := .queueStart, kids := [⟨.runs [], 0, true⟩], waiting := [0], tokens := 2, used := 1, reg := true }], 0⟩ := .own (i := 1) s23 rfl (.queueReaped rfl (by simp [WJob.over]))
  have s25 : WTree false 1 ⟨[{ trad := true, kids := [⟨.runs [1], 0, true⟩], tokens := 1, used := 1 }, { trad := true, pc := .check, kids := [⟨.runs [], 0, true⟩], waiting := [0], tokens := 2, used := 1, reg := true }], 0⟩ := .own (i := 1) s24 rfl (.queueStart (more := 0) (r := []) (high := true) (s := .runs) (.inl rfl) rfl (by simp))
  have s26 : WTree false 1 ⟨[{ trad := true, kids := [⟨.runs [1], 0, true⟩], tokens := 1, used := 1 }, { trad := true, pc := .flags, kids := [⟨.runs [], 0, true⟩], waiting := [0], tokens := 2, used := 1, reg := true }], 0⟩ := .own (i := 1) s25 rfl (.checkMore rfl (by decide) (by decide))
  have s27 : WTree false 1 ⟨[{ trad := true, kids := [⟨.runs [1], 0, true⟩], tokens := 1, used := 1 }, { trad := true, pc := .load, kids := [⟨.runs [], 0, true⟩], waiting := [0], tokens := 2, used := 1, reg := true, timer := true }], 0⟩ := .own (i := 1) s26 rfl (.flags rfl)
  have s28 : WTree false 1 ⟨[{ trad := true, kids := [⟨.runs [1], 0, true⟩], tokens := 1, used := 1 }, { trad := true, pc := .read, kids := [⟨.runs [], 0, true⟩], waiting := [0], tokens := 2, used := 1, reg := true, timer := true }], 0⟩ := .own (i := 1) s27 rfl (.load rfl)
  have s29 : WTree false 1 ⟨[{ trad := true, kids := [⟨.runs [1], 0, true⟩], tokens := 1, used := 1 }, { trad := true, pc := .read, kids := [⟨.ended, 0, true⟩], waiting := [0], tokens := 2, used := 1, pend := true, reg := true, timer := true }], 0⟩ := .env (i := 1) s28 rfl (.ends (i := 0) (subs := []) (more := 0) (slot := true) rfl)
  have s30 : WTree false 1 ⟨[{ trad := true, kids := [⟨.runs [1], 0, true⟩], tokens := 1, used := 1 }, { trad := true, pc := .load, kids := [⟨.ended, 0, true⟩], waiting := [0], tokens := 2, used := 1, rfd := false, reg := true, timer := true }], 0⟩ := .own (i := 1) s29 rfl (.signal (interrupt := true) rfl (by decide) (by decide) rfl)
  have s31 : WTree false 1 ⟨[{ trad := true, kids := [⟨.runs [1], 0, true⟩], tokens := 1, used := 1 }, { trad := true, pc := .read, kids := [⟨.ended, 0, true⟩], waiting := [0], tokens := 2, used := 1, rfd := false, timer := true }], 0⟩ := .own (i := 1) s30 rfl (.load rfl)
  have s32 : WTree false 1 ⟨[{ trad := true, kids := [⟨.runs [1], 0, true⟩], tokens := 1, used := 1 }, { trad := true, pc := .top, kids := [⟨.ended, 0, true⟩], waiting := [0], tokens := 2, used := 1, rfd := false }], 0⟩ := .own (i := 1) s31 rfl (.readBad rfl (.inl rfl))
  have s33 : WTree false 1 ⟨[{ trad := true, kids := [⟨.runs [1], 0, true⟩], tokens := 1, used := 1 }, { trad := true, pc := .dup, kids := [⟨.ended, 0, true⟩], waiting := [0], tokens := 2, used := 1, rfd := false }], 0⟩ := .own (i := 1) s32 rfl (.topMore rfl (by decide))
  have s34 : WTree false 1 ⟨[{ trad := true, kids := [⟨.runs [1], 0, true⟩], tokens := 1, used := 1 }, { trad := true, pc := .store, kids := [⟨.ended, 0, true⟩], waiting := [0], tokens := 2, used := 1, rfd := false }], 0⟩ := .own (i := 1) s33 rfl (.dup rfl)
  have s35 : WTree false 1 ⟨[{ trad := true, kids := [⟨.runs [1], 0, true⟩], tokens := 1, used := 1 }, { trad := true, pc := .reap, kids := [⟨.ended, 0, true⟩], waiting := [0], tokens := 2, used := 1 }], 0⟩ := .own (i := 1) s34 rfl (.store rfl)
  have s36 : WTree false 1 ⟨[{ trad := true, kids := [⟨.runs [1], 0, true⟩], tokens := 1, used := 1 }, { trad := true, pc := .reap, waiting := [0], tokens := 1 }], 1⟩ := .own (i := 1) s35 rfl (.remove (i := 0) (k := ⟨.ended, 0, true⟩) (fails := false) (by simp [WPc.reaps]) rfl (.inl rfl))
  have s37 : WTree false 1 ⟨[{ trad := true, kids := [⟨.runs [1], 0, true⟩], tokens := 1, used := 1 }, { trad := true, pc := .queue, waiting := [0], tokens := 1 }], 1⟩ := .own (i := 1) s36 rfl (.reaped rfl (by simp [WJob.over]))
  have s38 : WTree false 1 ⟨[{ trad := true, kids := [⟨.runs [1], 0, true⟩], tokens := 1, used := 1 }, { trad := true, pc := .queueReap, waiting := [0], tokens := 1 }], 1⟩ := .own (i := 1) s37 rfl (.queue rfl)
  have s39 : WTree false 1 ⟨[{ trad := true, kids := [⟨.runs [1], 0, true⟩], tokens := 1, used := 1 }, { trad := true, pc := .queueStart, waiting := [0], tokens := 1 }], 1⟩ := .own (i := 1) s38 rfl (.queueReaped rfl (by simp [WJob.over]))
  have s40 : WTree false 1 ⟨[{ trad := true, kids := [⟨.runs [1], 0, true⟩], tokens := 1, used := 1 }, { trad := true, pc := .queue, kids := [⟨.unstarted, 0, false⟩], tokens := 1 }], 1⟩ := .own (i := 1) s39 rfl (.queueStart (more := 0) (r := []) (high := false) (s := .unstarted) (.inl rfl) rfl (by simp))
  have s41 : WTree false 1 ⟨[{ trad := true, kids := [⟨.runs [1], 0, true⟩], tokens := 1, used := 1 }, { trad := true, pc := .check, kids := [⟨.unstarted, 0, false⟩], tokens := 1 }], 1⟩ := .own (i := 1) s40 rfl (.queue rfl)
  have s42 : WTree false 1 ⟨[{ trad := true, kids := [⟨.runs [1], 0, true⟩], tokens := 1, used := 1 }, { trad := true, pc := .flags, kids := [⟨.unstarted, 0, false⟩], tokens := 1 }], 1⟩ := .own (i := 1) s41 rfl (.checkMore rfl (by decide) (by decide))
  have s43 : WTree false 1 ⟨[{ trad := true, kids := [⟨.runs [1], 0, true⟩], tokens := 1, used := 1 }, { trad := true, pc := .load, kids := [⟨.unstarted, 0, false⟩], tokens := 1 }], 1⟩ := .own (i := 1) s42 rfl (.flags rfl)
  have s44 : WTree false 1 ⟨[{ trad := true, kids := [⟨.runs [1], 0, true⟩], tokens := 1, used := 1 }, { trad := true, pc := .read, kids := [⟨.unstarted, 0, false⟩], tokens := 1, reg := true }], 1⟩ := .own (i := 1) s43 rfl (.load rfl)
  have s45 : WTree false 1 ⟨[{ trad := true, pc := .top, kids := [⟨.runs [1], 0, true⟩], tokens := 1, used := 1 }, { trad := true, pc := .read, kids := [⟨.unstarted, 0, false⟩], tokens := 1, reg := true }], 1⟩ := .own (i := 0) s44 rfl (.newJob rfl)
  have s46 : WTree false 1 ⟨[{ trad := true, pc := .dup, kids := [⟨.runs [1], 0, true⟩], tokens := 1, used := 1 }, { trad := true, pc := .read, kids := [⟨.unstarted, 0, false⟩], tokens := 1, reg := true }], 1⟩ := .own (i := 0) s45 rfl (.topMore rfl (by decide))
  have s47 : WTree false 1 ⟨[{ trad := true, pc := .reap, kids := [⟨.runs [1], 0, true⟩], tokens := 1, used := 1 }, { trad := true, pc := .read, kids := [⟨.unstarted, 0, false⟩], tokens := 1, reg := true }], 1⟩ := .own (i := 0) s46 rfl (.dup rfl)
  have s48 : WTree false 1 ⟨[{ trad := true, pc := .queue, kids := [⟨.runs [1], 0, true⟩], tokens := 1, used := 1 }, { trad := true, pc := .read, kids := [⟨.unstarted, 0, false⟩], tokens := 1, reg := true }], 1⟩ := .own (i := 0) s47 rfl (.reaped rfl (by simp [WJob.over]))
  have s49 : WTree false 1 ⟨[{ trad := true, pc := .check, kids := [⟨.runs [1], 0, true⟩], tokens := 1, used := 1 }, { trad := true, pc := .read, kids := [⟨.unstarted, 0, false⟩], tokens := 1, reg := true }], 1⟩ := .own (i := 0) s48 rfl (.queue rfl)
  have s50 : WTree false 1 ⟨[{ trad := true, pc := .flags, kids := [⟨.runs [1], 0, true⟩], tokens := 1, used := 1 }, { trad := true, pc := .read, kids := [⟨.unstarted, 0, false⟩], tokens := 1, reg := true }], 1⟩ := .own (i := 0) s49 rfl (.checkMore rfl (by decide) (by decide))
  have s51 : WTree false 1 ⟨[{ trad := true, pc := .load, kids := [⟨.runs [1], 0, true⟩], tokens := 1, used := 1 }, { trad := true, pc := .read, kids := [⟨.unstarted, 0, false⟩], tokens := 1, reg := true }], 1⟩ := .own (i := 0) s50 rfl (.flags rfl)
  have s52 : WTree false 1 ⟨[{ trad := true, pc := .read, kids := [⟨.runs [1], 0, true⟩], tokens := 1, used := 1, reg := true }, { trad := true, pc := .read, kids := [⟨.unstarted, 0, false⟩], tokens := 1, reg := true }], 1⟩ := .own (i := 0) s51 rfl (.load rfl)
  have s53 : WTree false 1 ⟨[{ trad := true, pc := .start, kids := [⟨.runs [1], 0, true⟩], tokens := 1, used := 1, reg := true }, { trad := true, pc := .read, kids := [⟨.unstarted, 0, false⟩], tokens := 1, reg := true }], 0⟩ := .own (i := 0) s52 rfl (.readToken rfl rfl rfl)
  have s54 : WTree false 1 ⟨[{ trad := true, kids := [⟨.runs [1], 0, true⟩], waiting := [0], tokens := 2, used := 1, reg := true }, { trad := true, pc := .read, kids := [⟨.unstarted, 0, false⟩], tokens := 1, reg := true }], 0⟩ := .own (i := 0) s53 rfl (.start (more := 0) (high := true) (s := .runs) rfl (by simp))
  have s55 : WTree false 1 ⟨[{ trad := true, pc := .wait, kids := [⟨.runs [1], 0, true⟩], waiting := [0], tokens := 2, used := 1, reg := true }, { trad := true, pc := .read, kids := [⟨.unstarted, 0, false⟩], tokens := 1, reg := true }], 0⟩ := .own (i := 0) s54 rfl (.waits rfl)
  exact s55

theorem lost_alarm : WTree true 1 ⟨[{ trad := true, pc := .read, kids := [⟨.runs [], 0, true⟩], waiting := [0], tokens := 2, used := 1, reg := true }], 0⟩ := by
  have s1 : WTree true 1 ⟨[{ trad := true }], 1⟩ := .init
  have s2 : WTree true 1 ⟨[{ trad := true, pc := .top }], 1⟩ := .own (i := 0) s1 rfl (.newJob rfl)
  have s3 : WTree true 1 ⟨[{ trad := true, pc := .start }], 1⟩ := .own (i := 0) s2 rfl (.topFree rfl rfl)
  have s4 : WTree true 1 ⟨[{ trad := true, kids := [⟨.runs [], 0, true⟩], tokens := 1, used := 1 }], 1⟩ := .own (i := 0) s3 rfl (.start (more := 0) (high := false) (s := .runs) rfl (by simp))
  have s5 : WTree true 1 ⟨[{ trad := true, pc := .top, kids := [⟨.runs [], 0, true⟩], tokens := 1, used := 1 }], 1⟩ := .own (i := 0) s4 rfl (.newJob rfl)
  have s6 : WTree true 1 ⟨[{ trad := true, pc := .dup, kids := [⟨.runs [], 0, true⟩], tokens := 1, used := 1 }], 1⟩ := .own (i := 0) s5 rfl (.topMore rfl (by decide))
  have s7 : WTree true 1 ⟨[{ trad := true, pc := .reap, kids := [⟨.runs [], 0, true⟩], tokens := 1, used := 1 }], 1⟩ := .own (i := 0) s6 rfl (.dup rfl)
  have s8 : WTree true 1 ⟨[{ trad := true, pc := .queue, kids := [⟨.runs [], 0, true⟩], tokens := 1, used := 1 }], 1⟩ := .own (i := 0) s7 rfl (.reaped rfl (by simp [WJob.over]))
  have s9 : WTree true 1 ⟨[{ trad := true, pc := .check, kids := [⟨.runs [], 0, true⟩], tokens := 1, used := 1 }], 1⟩ := .own (i := 0) s8 rfl (.queue rfl)
  have s10 : WTree true 1 ⟨[{ trad := true, pc := .flags, kids := [⟨.runs [], 0, true⟩], tokens := 1, used := 1 }], 1⟩ := .own (i := 0) s9 rfl (.checkMore rfl (by decide) (by decide))
  have s11 : WTree true 1 ⟨[{ trad := true, pc := .load, kids := [⟨.runs [], 0, true⟩], tokens := 1, used := 1 }], 1⟩ := .own (i := 0) s10 rfl (.flags rfl)
  have s12 : WTree true 1 ⟨[{ trad := true, pc := .read, kids := [⟨.runs [], 0, true⟩], tokens := 1, used := 1, reg := true }], 1⟩ := .own (i := 0) s11 rfl (.load rfl)
  have s13 : WTree true 1 ⟨[{ trad := true, pc := .start, kids := [⟨.runs [], 0, true⟩], tokens := 1, used := 1, reg := true }], 0⟩ := .own (i := 0) s12 rfl (.readToken rfl rfl rfl)
  have s14 : WTree true 1 ⟨[{ trad := true, kids := [⟨.runs [], 0, true⟩], waiting := [0], tokens := 2, used := 1, reg := true }], 0⟩ := .own (i := 0) s13 rfl (.start (more := 0) (high := true) (s := .runs) rfl (by simp))
  have s15 : WTree true 1 ⟨[{ trad := true, pc := .top, kids := [⟨.runs [], 0, true⟩], waiting := [0], tokens := 2, used := 1, reg := true }], 0⟩ := .own (i := 0) s14 rfl (.newJob rfl)
  have s16 : WTree true 1 ⟨[{ trad := true, pc := .dup, kids := [⟨.runs [], 0, true⟩], waiting := [0], tokens := 2, used := 1, reg := true }], 0⟩ := .own (i := 0) s15 rfl (.topMore rfl (by decide))
  have s17 : WTree true 1 ⟨[{ trad := true, pc := .reap, kids := [⟨.runs [], 0, true⟩], waiting := [0], tokens := 2, used := 1, reg := true }], 0⟩ := .own (i := 0) s16 rfl (.dup rfl)
  have s18 : WTree true 1 ⟨[{ trad := true, pc := .queue, kids := [⟨.runs [], 0, true⟩], waiting := [0], tokens := 2, used := 1, reg := true }], 0⟩ := .own (i := 0) s17 rfl (.reaped rfl (by simp [WJob.over]))
  have s19 : WTree true 1 ⟨[{ trad := true, pc := .queueReap, kids := [⟨.runs [], 0, true⟩], waiting := [0], tokens := 2, used := 1, reg := true }], 0⟩ := .own (i := 0) s18 rfl (.queue rfl)
  have s20 : WTree true 1 ⟨[{ trad := true, pc := .queueStart, kids := [⟨.runs [], 0, true⟩], waiting := [0], tokens := 2, used := 1, reg := true }], 0⟩ := .own (i := 0) s19 rfl (.queueReaped rfl (by simp [WJob.over]))
  have s21 : WTree true 1 ⟨[{ trad := true, pc := .check, kids := [⟨.runs [], 0, true⟩], waiting := [0], tokens := 2, used := 1, reg := true }], 0⟩ := .own (i := 0) s20 rfl (.queueStart (more := 0) (r := []) (high := true) (s := .runs) (.inl rfl) rfl (by simp))
  have s22 : WTree true 1 ⟨[{ trad := true, pc := .flags, kids := [⟨.runs [], 0, true⟩], waiting := [0], tokens := 2, used := 1, reg := true }], 0⟩ := .own (i := 0) s21 rfl (.checkMore rfl (by decide) (by decide))
  have s23 : WTree true 1 ⟨[{ trad := true, pc := .load, kids := [⟨.runs [], 0, true⟩], waiting := [0], tokens := 2, used := 1, reg := true, timer := true }], 0⟩ := .own (i := 0) s22 rfl (.flags rfl)
  have s24 : WTree true 1 ⟨[{ trad := true, pc := .read, kids := [⟨.runs [], 0, true⟩], waiting := [0], tokens := 2, used := 1, reg := true, timer := true }], 0⟩ := .own (i := 0) s23 rfl (.load rfl)
  have s25 : WTree true 1 ⟨[{ trad := true, pc := .load, kids := [⟨.runs [], 0, true⟩], waiting := [0], tokens := 2, used := 1, reg := true }], 0⟩ := .env (i := 0) s24 rfl (.alarm rfl)
  have s26 : WTree true 1 ⟨[{ trad := true, pc := .read, kids := [⟨.runs [], 0, true⟩], waiting := [0], tokens := 2, used := 1, reg := true }], 0⟩ := .own (i := 0) s25 rfl (.load rfl)
  exact s26

end Remake
