import Verif.Quit.Model
set_option linter.unusedVariables false
set_option linter.unusedSimpArgs false
/-!
# C153: the debugger does not change the build
-/
namespace Remake

/-- A command ends with the status by which a make tells that its debugger was left. -/
def Spec.isQuit : QtOp → Prop
  | .ends _ code killed => code = 77 ∧ killed = false
  | .starts _ => False

/-- The records of the jobs that are started. -/
def Spec.startedIds : List QtOp → List Nat
  | [] => []
  | .starts j :: ops => j.id :: startedIds ops
  | .ends _ _ _ :: ops => startedIds ops

open Spec

/-- **C153** If no command ends with status 77, the debugger changes nothing: the same jobs fail and are made, the same targets are deleted, and make ends in the same way, for every history. -/
theorem C153_same_partial (env : QtEnv) (ops : List QtOp) (h : ∀ op ∈ ops, ¬ isQuit op) :
    ∀ st, qtRun { env with dbg := true } st ops = qtRun { env with dbg := false } st ops := by
  induction ops with
  | nil => intro st; rfl
  | cons op ops ih =>
    intro st
    have e : qtStep { env with dbg := true } st op = qtStep { env with dbg := false } st op := by
      cases op with
      | starts j => rfl
      | ends id code killed =>
        have hq := h _ (List.mem_cons_self ..)
        simp only [isQuit] at hq
        have hr : qtReap { env with dbg := true } st id code killed = qtReap { env with dbg := false } st id code killed := by
          unfold qtReap
          split
          · rfl
          · split
            · rfl
            · have n1 : ¬ (code = 77 ∧ killed = false ∧ ({ env with dbg := true } : QtEnv).dbg = true) := fun h => hq ⟨h.1, h.2.1⟩
              have n2 : ¬ (code = 77 ∧ killed = false ∧ ({ env with dbg := false } : QtEnv).dbg = true) := fun h => hq ⟨h.1, h.2.1⟩
              rw [if_neg n1, if_neg n2]
              rfl
        simp only [qtStep, hr]
    simp only [qtRun, List.foldl_cons, e]
    exact ih (fun o ho => h o (List.mem_cons_of_mem _ ho)) _

/-- No job in the list has been freed, and what was freed had been started. -/
def QtGood (st : QtSt) (used : List Nat) : Prop :=
  (∀ c ∈ st.children, c.id ∉ st.freed) ∧ (∀ c ∈ st.children, c.id ∈ used) ∧ (∀ i ∈ st.freed, i ∈ used) ∧ st.phase ≠ .ub

theorem QtGood.finish {env : QtEnv} {st used} (h : QtGood st used) {j : QtJob} (hj : j ∈ st.children) (failed : Bool) (notes : List QtNote) :
    QtGood (qtFinish env st j failed notes) used := by
  obtain ⟨h1, h2, h3, h4⟩ := h
  refine ⟨?_, ?_, ?_, ?_⟩
  · intro c hc
    simp only [qtFinish, List.mem_filter, decide_eq_true_eq] at hc
    simp only [qtFinish, List.mem_cons, not_or]
    exact ⟨hc.2, h1 c hc.1⟩
  · intro c hc
    simp only [qtFinish, List.mem_filter] at hc
    exact h2 c hc.1
  · intro i hi
    simp only [qtFinish, List.mem_cons] at hi
    rcases hi with rfl | hi
    · exact h2 j hj
    · exact h3 i hi
  · simp only [qtFinish, qtDie]
    cases hp : st.phase with
    | working => simp only []; split <;> (try split) <;> simp
    | dying s => simp only []; split <;> simp
    | exited s => simp
    | ub => exact (h4 hp).elim

theorem QtGood.step {env : QtEnv} {st used} (h : QtGood st used) (op : QtOp) (hq : env.dbg = false ∨ ¬ isQuit op)
    (hf : ∀ j, op = .starts j → j.id ∉ used) : QtGood (qtStep env st op) (startedIds [op] ++ used) := by
  cases op with
  | starts j =>
    obtain ⟨h1, h2, h3, h4⟩ := h
    have hj := hf j rfl
    have keep : QtGood st (startedIds [.starts j] ++ used) :=
      ⟨h1, fun c hc => List.mem_append_right _ (h2 c hc), fun i hi => List.mem_append_right _ (h3 i hi), h4⟩
    simp only [qtStep]
    split
    · refine ⟨?_, ?_, keep.2.2.1, by simpa using h4⟩
      · intro c hc
        rcases List.mem_cons.1 hc with rfl | hc
        · exact fun hm => hj (h3 _ hm)
        · exact h1 c hc
      · intro c hc
        rcases List.mem_cons.1 hc with rfl | hc
        · simp [startedIds]
        · exact keep.2.1 c hc
    · exact keep
  | ends id code killed =>
    simp only [startedIds, List.nil_append]
    have hr : QtGood (qtReap env st id code killed) used := by
      unfold qtReap
      split
      · rename_i ha
        obtain ⟨c, hc, hm⟩ := List.any_eq_true.1 ha
        exact (h.1 c hc (by simpa using hm)).elim
      · split
        · exact h
        · rename_i j hj
          have hjm := List.mem_of_find?_eq_some hj
          split
          · rename_i hc
            rcases hq with hq | hq
            · rw [hq] at hc; exact absurd hc.2.2 (by simp)
            · exact (hq ⟨hc.1, hc.2.1⟩).elim
          · split
            · exact h.finish hjm _ _
            · simp only []
              split
              · obtain ⟨h1, h2, h3, h4⟩ := h
                refine ⟨?_, ?_, h3, h4⟩
                · intro c hc
                  obtain ⟨d, hd, rfl⟩ := List.mem_map.1 hc
                  have e : (if d.id = j.id then { d with more := d.more - 1 } else d).id = d.id := by split <;> rfl
                  rw [e]
                  exact h1 d hd
                · intro c hc
                  obtain ⟨d, hd, rfl⟩ := List.mem_map.1 hc
                  have e : (if d.id = j.id then { d with more := d.more - 1 } else d).id = d.id := by split <;> rfl
                  rw [e]
                  exact h2 d hd
              · exact h.finish hjm _ _
    simp only [qtStep]
    split
    · exact hr
    · exact hr
    · exact h

/-- **C153** Without the debugger, or if no command ends with status 77, no record of a job is used after it was freed, for every history in which each job has its own record. -/
theorem C153_memory_partial (env : QtEnv) (ops : List QtOp) (hq : env.dbg = false ∨ ∀ op ∈ ops, ¬ isQuit op) (hn : (startedIds ops).Nodup) :
    (qtRun env qtInit ops).phase ≠ .ub := by
  have key : ∀ (ops : List QtOp) (st : QtSt) (used : List Nat), (env.dbg = false ∨ ∀ op ∈ ops, ¬ isQuit op) → (startedIds ops).Nodup →
      (∀ i ∈ startedIds ops, i ∉ used) → QtGood st used → (qtRun env st ops).phase ≠ .ub := by
    intro ops
    induction ops with
    | nil => intro st used _ _ _ h; exact h.2.2.2
    | cons op ops ih =>
      intro st used hq hn hu h
      have hs := h.step (env := env) op (hq.imp_right fun h => h op (List.mem_cons_self ..)) (by
        rintro j rfl
        exact hu j.id (by simp [startedIds]))
      rw [show qtRun env st (op :: ops) = qtRun env (qtStep env st op) ops from rfl]
      refine ih _ _ (hq.imp_right fun h o ho => h o (List.mem_cons_of_mem _ ho)) ?_ ?_ hs
      · cases op with
        | starts j => exact (List.nodup_cons.1 hn).2
        | ends => exact hn
      · cases op with
        | starts j =>
          intro i hi hm
          simp only [startedIds, List.cons_append, List.nil_append, List.mem_cons] at hm
          rcases hm with rfl | hm
          · exact (List.nodup_cons.1 hn).1 hi
          · exact hu i (by simp [startedIds, hi]) hm
        | ends => exact hu
  exact key ops qtInit [] hq hn (by simp) ⟨by simp [qtInit], by simp [qtInit], by simp [qtInit], by simp [qtInit]⟩

/-- **C153** (negative) With the debugger, a command that ends with status 77 ends make: whatever `-k`, `-i`, `.DELETE_ON_ERROR` and the `-` before the command say, nothing is said about the job,
its target is not deleted, no further command of it runs, and the exit status is 77 if no other job runs. -/
theorem C153_quits (env : QtEnv) (hd : env.dbg = true) (st : QtSt) (hw : st.phase = .working) (hc : ∀ c ∈ st.children, c.id ∉ st.freed)
    (j : QtJob) (hj : st.children.find? (fun c => c.id = j.id) = some j) :
    (qtStep env st (.ends j.id 77 false)).notes = st.notes ∧
    (qtStep env st (.ends j.id 77 false)).phase = (if st.slots - 1 = 0 then .exited 77 else .dying 77) := by
  have ha : st.children.any (fun c => st.freed.contains c.id) = false := by
    rw [List.any_eq_false]
    intro c hcm
    simpa using hc c hcm
  simp only [qtStep, hw, qtReap, ha, hj, hd]
  simp [qtDie]

/-- **C153** (negative) If another job runs then, make uses the freed record as soon as it waits for it. -/
theorem C153_use_after_free (env : QtEnv) (hd : env.dbg = true) (st : QtSt) (hw : st.phase = .working) (hc : ∀ c ∈ st.children, c.id ∉ st.freed)
    (j : QtJob) (hj : st.children.find? (fun c => c.id = j.id) = some j) (hs : 2 ≤ st.slots) (id code : Nat) (killed : Bool) :
    (qtStep env (qtStep env st (.ends j.id 77 false)) (.ends id code killed)).phase = .ub := by
  have ha : st.children.any (fun c => st.freed.contains c.id) = false := by
    rw [List.any_eq_false]
    intro c hcm
    simpa using hc c hcm
  have hs' : st.slots - 1 ≠ 0 := by omega
  have e : qtStep env st (.ends j.id 77 false) = { st with slots := st.slots - 1, freed := j.id :: st.freed, phase := .dying 77 } := by
    simp only [qtStep, hw, qtReap, ha, hj, hd]
    simp [qtDie, hs']
  rw [e]
  have hb : st.children.any (fun c => (j.id :: st.freed).contains c.id) = true := by
    rw [List.any_eq_true]
    exact ⟨j, List.mem_of_find?_eq_some hj, by simp⟩
  simp only [qtStep, qtReap]
  rw [if_pos hb]

/-- **C153** With `-k`, and without the debugger or if no command ends with status 77, make goes on whatever the commands end with; the jobs that fail do not end it. -/
theorem C153_keep_partial (env : QtEnv) (ops : List QtOp) (hk : env.keep = true) (hq : env.dbg = false ∨ ∀ op ∈ ops, ¬ isQuit op)
    (hn : (startedIds ops).Nodup) : (qtRun env qtInit ops).phase = .working := by
  have key : ∀ (ops : List QtOp) (st : QtSt), (env.dbg = false ∨ ∀ op ∈ ops, ¬ isQuit op) → st.phase = .working ∨ st.phase = .ub →
      (qtRun env st ops).phase = .working ∨ (qtRun env st ops).phase = .ub := by
    intro ops
    induction ops with
    | nil => intro st _ h; exact h
    | cons op ops ih =>
      intro st hq h
      refine ih (qtStep env st op) (hq.imp_right fun h o ho => h o (List.mem_cons_of_mem _ ho)) ?_
      rcases h with h | h
      · cases op with
        | starts j => simp [qtStep, h]
        | ends id code killed =>
          have hn : ¬ (code = 77 ∧ killed = false ∧ env.dbg = true) := by
            rintro ⟨rfl, rfl, hd⟩
            rcases hq with hq | hq
            · rw [hd] at hq; cases hq
            · exact hq _ (List.mem_cons_self ..) (by simp [isQuit])
          simp only [qtStep, h]
          unfold qtReap
          split
          · exact Or.inr rfl
          · split
            · exact Or.inl h
            · split
              · left; simp [qtFinish, h, hk]
              · dsimp only
                split
                · exact Or.inl h
                · left; simp [qtFinish, h]
      · right
        cases op <;> simp [qtStep, h]
  rcases key ops qtInit hq (Or.inl rfl) with h | h
  · exact h
  · exact absurd h (C153_memory_partial env ops hq hn)

/-- **C153** Without `-k`, a job that fails while make works ends it: with status 2 at once if no other job runs, and else when the others have ended. -/
theorem C153_stop (env : QtEnv) (st : QtSt) (id code : Nat) (killed : Bool) (j : QtJob) (hk : env.keep = false) (hw : st.phase = .working)
    (hg : st.children.any (fun c => st.freed.contains c.id) = false) (hj : st.children.find? (fun c => c.id = id) = some j)
    (hf : (code ≠ 0 ∨ killed = true) ∧ j.noerror = false ∧ env.ignore = false) (hq : env.dbg = false ∨ ¬ isQuit (.ends id code killed)) :
    (qtStep env st (.ends id code killed)).phase = if st.slots ≤ 1 then .exited 2 else .dying 2 := by
  have hn : ¬ (code = 77 ∧ killed = false ∧ env.dbg = true) := by
    rintro ⟨rfl, rfl, hd⟩
    rcases hq with hq | hq
    · rw [hd] at hq; cases hq
    · exact hq (by simp [isQuit])
  simp only [qtStep, hw]
  unfold qtReap
  rw [hg, hj]
  simp only [Bool.false_eq_true, if_false]
  rw [if_neg hn, if_pos ⟨hf.1, by simp [hf.2.1], by simp [hf.2.2]⟩]
  simp only [qtFinish, hw, hk, qtDie]
  have : st.slots - 1 = 0 ↔ st.slots ≤ 1 := by omega
  simp [this]

/-! ## Examples -/

/-- Two jobs; the first has another command, and its errors are ignored. -/
def qtOps (code : Nat) : List QtOp := [.starts ⟨1, true, 1⟩, .starts ⟨2, false, 0⟩, .ends 1 code false, .ends 2 0 false, .ends 1 0 false]

example : qtRun ⟨true, false, false, false⟩ qtInit (qtOps 76) = ⟨[], [1, 2], 0, .working, [.ignored 1, .next 1, .made 2, .made 1]⟩ := by decide +kernel
example : (∀ op ∈ qtOps 76, ¬ isQuit op) ∧ (startedIds (qtOps 76)).Nodup := by simp [qtOps, isQuit, startedIds]
example : (qtRun ⟨true, false, false, true⟩ qtInit [.starts ⟨1, false, 0⟩, .starts ⟨2, false, 0⟩, .ends 1 1 false, .ends 2 0 false]) =
    ⟨[], [2, 1], 0, .exited 2, [.failed 1, .deleted 1, .made 2]⟩ := by decide +kernel

example : (qtRun ⟨true, true, false, false⟩ qtInit [.starts ⟨1, false, 0⟩, .starts ⟨2, false, 0⟩, .ends 1 1 false]).phase = .working ∧
    (qtStep ⟨true, false, false, false⟩ (qtRun ⟨true, false, false, false⟩ qtInit [.starts ⟨1, false, 0⟩, .starts ⟨2, false, 0⟩]) (.ends 1 1 false)).phase =
      .dying 2 := by decide +kernel

/-- **C153** (negative) A makefile with `-check` in it, where `check` ends with 77 as tests do that are skipped, and another job: without the debugger all is made; with it memory is used
that was freed. -/
theorem C153_skipped :
    qtRun ⟨false, false, false, false⟩ qtInit (qtOps 77) = ⟨[], [1, 2], 0, .working, [.ignored 1, .next 1, .made 2, .made 1]⟩ ∧
    (qtRun ⟨true, false, false, false⟩ qtInit (qtOps 77)).phase = .ub := by decide +kernel

end Remake
