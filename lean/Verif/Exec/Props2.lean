import Verif.Exec.Lemmas
/-!
# The standard streams of commands (C134) and the function shell (C135)
-/
set_option linter.unusedVariables false
set_option linter.unusedSimpArgs false
namespace Remake
open Spec

/-! ### The standard input -/

/-- What holds at every moment: numbers are used once, and `used` tells whether some command has the input; no two have it. -/
def SiInv (st : SiSt) : Prop :=
  (∀ c ∈ st.cmds, c.id < st.next) ∧ (st.cmds.map (·.id)).Nodup ∧
  ((st.cmds.filter (·.good)).length = if st.used then 1 else 0)

theorem siInv_step (st : SiSt) (e : SiEv) (h : SiInv st) : SiInv (siStep st e) := by
  obtain ⟨h1, h2, h3⟩ := h
  cases e with
  | choose =>
    refine ⟨?_, ?_, ?_⟩
    · intro c hc
      simp only [siStep, List.mem_append, List.mem_singleton] at hc ⊢
      rcases hc with hc | rfl
      · have := h1 c hc; omega
      · simp
    · simp only [siStep, List.map_append, List.map_cons, List.map_nil]
      rw [List.nodup_append]
      refine ⟨h2, by simp, ?_⟩
      intro a ha b hb hab
      simp at hb
      obtain ⟨c, hc, rfl⟩ := List.mem_map.1 ha
      have := h1 c hc
      omega
    · simp only [siStep, List.filter_append, List.length_append, h3]
      by_cases hu : st.used = true <;> simp [hu]
  | spawn id =>
    refine ⟨?_, ?_, ?_⟩
    · intro c hc
      simp only [siStep, List.mem_map] at hc ⊢
      obtain ⟨a, ha, rfl⟩ := hc
      have := h1 a ha
      split <;> exact this
    · simp only [siStep, List.map_map]
      have : ((fun x : SiCmd => x.id) ∘ fun c => if c.id = id then { c with running := true } else c) = fun x : SiCmd => x.id := by
        funext c
        simp only [Function.comp]
        split <;> rfl
      rw [this]
      exact h2
    · simp only [siStep]
      rw [List.filter_map]
      simp only [List.length_map]
      have : ((fun x : SiCmd => x.good) ∘ fun c => if c.id = id then { c with running := true } else c) =
          fun x : SiCmd => x.good := by
        funext c
        simp only [Function.comp]
        split <;> rfl
      rw [this]
      exact h3
  | reap id =>
    unfold siStep
    simp only []
    cases hf : st.cmds.find? fun c => c.id == id && c.running with
    | none => exact ⟨h1, h2, h3⟩
    | some c =>
      have hc := List.mem_of_find?_eq_some hf
      have hid : c.id = id := by
        have := List.find?_some hf
        simp at this
        exact this.1
      refine ⟨fun a ha => h1 a (List.mem_filter.1 ha).1, ?_, ?_⟩
      · exact h2.sublist (List.Sublist.map _ List.filter_sublist)
      · -- the list is `l ++ c :: r` and no other command has this number
        obtain ⟨l, r, hl⟩ := List.append_of_mem hc
        have hnd := h2
        rw [hl] at hnd
        simp only [List.map_append, List.map_cons] at hnd
        rw [List.nodup_append] at hnd
        obtain ⟨_, hnr, hdis⟩ := hnd
        have hlne : ∀ a ∈ l, a.id ≠ id := by
          intro a ha hh
          exact hdis a.id (List.mem_map.2 ⟨a, ha, rfl⟩) c.id (by simp) (by rw [hh, hid])
        have hrne : ∀ a ∈ r, a.id ≠ id := by
          intro a ha hh
          have := (List.nodup_cons.1 hnr).1
          exact this (List.mem_map.2 ⟨a, ha, by rw [hh, hid]⟩)
        have hfil : st.cmds.filter (fun c => c.id != id) = l ++ r := by
          rw [hl, List.filter_append, List.filter_cons]
          have e1 : l.filter (fun c => c.id != id) = l := List.filter_eq_self.2 (fun a ha => by simpa using hlne a ha)
          have e2 : r.filter (fun c => c.id != id) = r := List.filter_eq_self.2 (fun a ha => by simpa using hrne a ha)
          rw [e1, e2]
          simp [hid]
        simp only [hfil]
        rw [hl] at h3
        simp only [List.filter_append, List.filter_cons, List.length_append] at h3 ⊢
        by_cases hg : c.good = true
        · rw [if_pos hg] at h3
          by_cases hu : st.used = true
          · simp [hu, hg] at h3 ⊢
            have h5 : (List.filter (fun x => x.good) l).length = 0 := by omega
            have h6 : (List.filter (fun x => x.good) r).length = 0 := by omega
            simpa using And.intro h5 h6
          · simp [hu] at h3
        · rw [if_neg hg] at h3
          simpa [hg] using h3

theorem siInv_run (es : List SiEv) (st : SiSt) (h : SiInv st) : SiInv (siRun st es) := by
  unfold siRun
  induction es generalizing st with
  | nil => exact h
  | cons e es ih => exact ih _ (siInv_step st e h)

theorem siInv_start : SiInv siStart := by
  unfold SiInv siStart
  simp

/-- However jobs are started and end, at most one running command of a recipe has the standard input of make. -/
theorem C134_one (es : List SiEv) : ((siRun siStart es).cmds.filter fun c => c.running && c.good).length ≤ 1 := by
  obtain ⟨_, _, h3⟩ := siInv_run es siStart siInv_start
  have hsub : ((siRun siStart es).cmds.filter fun c => c.running && c.good).Sublist
      ((siRun siStart es).cmds.filter (·.good)) := by
    have : ((siRun siStart es).cmds.filter fun c => c.running && c.good) =
        (((siRun siStart es).cmds.filter (·.good)).filter (·.running)) := by
      rw [List.filter_filter]
    rw [this]
    exact List.filter_sublist
  have := hsub.length_le
  split at h3 <;> omega

/-- A command gets the standard input of make exactly if no other has it; so the commands of a make that runs one at a time all
get it. -/
theorem C134_free (es : List SiEv) :
    (siStep (siRun siStart es) .choose).cmds = (siRun siStart es).cmds ++
      [⟨(siRun siStart es).next, decide (∀ c ∈ (siRun siStart es).cmds, c.good = false), false⟩] := by
  obtain ⟨_, _, h3⟩ := siInv_run es siStart siInv_start
  simp only [siStep]
  congr 3
  cases hu : (siRun siStart es).used
  · rw [hu] at h3
    simp at h3
    simp
    intro c hc
    simpa using h3 c hc
  · rw [hu] at h3
    simp
    have hne : (siRun siStart es).cmds.filter (·.good) ≠ [] := by
      intro h
      rw [h] at h3
      simp at h3
    obtain ⟨c, hc⟩ := List.exists_mem_of_ne_nil _ hne
    obtain ⟨hc1, hc2⟩ := List.mem_filter.1 hc
    exact ⟨c, hc1, hc2⟩

/-- While a command runs it keeps its standard input, whatever happens to the others. -/
theorem C134_kept (st : SiSt) (e : SiEv) (c : SiCmd) (hc : c ∈ st.cmds) (hr : c.running = true) (he : e ≠ .reap c.id) :
    c ∈ (siStep st e).cmds := by
  cases e with
  | choose => simp [siStep, hc]
  | spawn id =>
    simp only [siStep, List.mem_map]
    refine ⟨c, hc, ?_⟩
    split
    · cases c; simp_all
    · rfl
  | reap id =>
    simp only [siStep]
    split
    · exact hc
    · simp only [List.mem_filter]
      exact ⟨hc, by simp; intro h; exact he (by rw [h])⟩

example : (siRun siStart [.choose, .choose, .spawn 1, .spawn 0, .reap 0, .choose, .spawn 2]).cmds =
    [⟨1, false, true⟩, ⟨2, true, true⟩] := by rfl

/-! ### Descriptors -/

theorem fdDup_open (t : FdTab) (a b f : Nat) (x : Bool) (h : t a = some (f, x)) :
    fdDup t a b = fun i => if i = b then some (f, false) else t i := by
  unfold fdDup
  rw [h]

/-- If make itself has its three standard descriptors, a command has as standard input the one of make or the one that cannot be
read, as outputs the ones of make or the files that collect its output, and otherwise what make lets it inherit. -/
theorem C134_streams_partial (t : FdTab) (good sync : Bool) (bad out err : Option Nat) (file : Nat → Nat)
    (h0 : t 0 = some (file 0, false)) (h1 : t 1 = some (file 1, false)) (h2 : t 2 = some (file 2, false))
    (hbad : ∀ i, bad = some i → 3 ≤ i ∧ ∃ x, t i = some (file i, x))
    (hout : ∀ i, out = some i → 3 ≤ i ∧ ∃ x, t i = some (file i, x))
    (herr : ∀ i, err = some i → 3 ≤ i ∧ ∃ x, t i = some (file i, x)) :
    fdChild t good bad sync out err 0 = some (file (if good then 0 else bad.getD 0)) ∧
    fdChild t good bad sync out err 1 = some (file (if sync then out.getD 1 else 1)) ∧
    fdChild t good bad sync out err 2 = some (file (if sync then err.getD 2 else 2)) ∧
    ∀ i, 3 ≤ i → fdChild t good bad sync out err i = fdExec t i := by
  -- the table after the first step
  have s1 : ∃ t1 : FdTab, fdInput t (if good then some 0 else bad) = t1 ∧ t1 0 = some (file (if good then 0 else bad.getD 0), false) ∧ ∀ i, i ≠ 0 → t1 i = t i := by
    cases good with
    | true => exact ⟨t, by simp [fdInput], by simpa using h0, fun _ _ => rfl⟩
    | false =>
      cases hb : bad with
      | none => exact ⟨t, by simp [fdInput], by simpa using h0, fun _ _ => rfl⟩
      | some i =>
        obtain ⟨hi, x, hx⟩ := hbad i hb
        refine ⟨fdDup t i 0, by simp [fdInput]; omega, ?_, ?_⟩
        · rw [fdDup_open t i 0 _ x hx]; simp
        · intro j hj
          rw [fdDup_open t i 0 _ x hx]; simp [hj]
  obtain ⟨t1, ht1, ht1a, ht1b⟩ := s1
  have s2 : ∃ t2 : FdTab, (if (if sync then out.getD 1 else 1) ≠ 1 then fdDup t1 (if sync then out.getD 1 else 1) 1 else t1) = t2 ∧
      t2 1 = some (file (if sync then out.getD 1 else 1), false) ∧ ∀ i, i ≠ 1 → t2 i = t1 i := by
    cases sync with
    | false => exact ⟨t1, by simp, by rw [ht1b 1 (by simp)]; simpa using h1, fun _ _ => rfl⟩
    | true =>
      cases ho : out with
      | none => exact ⟨t1, by simp, by rw [ht1b 1 (by simp)]; simpa using h1, fun _ _ => rfl⟩
      | some i =>
        obtain ⟨hi, x, hx⟩ := hout i ho
        have hx' : t1 i = some (file i, x) := by rw [ht1b i (by omega), hx]
        refine ⟨fdDup t1 i 1, by simp; omega, ?_, ?_⟩
        · rw [fdDup_open t1 i 1 _ x hx']; simp
        · intro j hj
          rw [fdDup_open t1 i 1 _ x hx']; simp [hj]
  obtain ⟨t2, ht2, ht2a, ht2b⟩ := s2
  have s3 : ∃ t3 : FdTab, (if (if sync then err.getD 2 else 2) ≠ 2 then fdDup t2 (if sync then err.getD 2 else 2) 2 else t2) = t3 ∧
      t3 2 = some (file (if sync then err.getD 2 else 2), false) ∧ ∀ i, i ≠ 2 → t3 i = t2 i := by
    have h22 : t2 2 = some (file 2, false) := by rw [ht2b 2 (by simp), ht1b 2 (by simp), h2]
    cases sync with
    | false => exact ⟨t2, by simp, by simpa using h22, fun _ _ => rfl⟩
    | true =>
      cases he : err with
      | none => exact ⟨t2, by simp, by simpa using h22, fun _ _ => rfl⟩
      | some i =>
        obtain ⟨hi, x, hx⟩ := herr i he
        have hx' : t2 i = some (file i, x) := by rw [ht2b i (by omega), ht1b i (by omega), hx]
        refine ⟨fdDup t2 i 2, by simp; omega, ?_, ?_⟩
        · rw [fdDup_open t2 i 2 _ x hx']; simp
        · intro j hj
          rw [fdDup_open t2 i 2 _ x hx']; simp [hj]
  obtain ⟨t3, ht3, ht3a, ht3b⟩ := s3
  have hfin : fdChild t good bad sync out err = fdExec t3 := by
    unfold fdChild
    simp only []
    rw [ht1, ht2, ht3]
  rw [hfin]
  refine ⟨?_, ?_, ?_, ?_⟩
  · unfold fdExec; rw [ht3b 0 (by simp), ht2b 0 (by simp), ht1a]
  · unfold fdExec; rw [ht3b 1 (by simp), ht2a]
  · unfold fdExec; rw [ht3a]
  · intro i hi
    unfold fdExec
    rw [ht3b i (by omega), ht2b i (by omega), ht1b i (by omega)]

/-- A table for the example: the three standard descriptors, the pipe at 3, files at 4 and 5 that are closed. -/
def demoFds : FdTab := fun i => if i ≤ 2 then some (10 + i, false) else if i ≤ 5 then some (10 + i, true) else none

example : (List.range 7).map (fdChild demoFds false (some 3) true (some 4) (some 5)) =
    [some 13, some 14, some 15, none, none, none, none] := by rfl

/-- **Violation.** The command of the function `shell` (a command with the good input and its output collected) has the standard
input of make, also while a command of a recipe has it. -/
theorem C134_shell_shares (t : FdTab) (bad out err : Option Nat) (file : Nat → Nat)
    (h0 : t 0 = some (file 0, false)) (h1 : t 1 = some (file 1, false)) (h2 : t 2 = some (file 2, false))
    (hbad : ∀ i, bad = some i → 3 ≤ i ∧ ∃ x, t i = some (file i, x))
    (hout : ∀ i, out = some i → 3 ≤ i ∧ ∃ x, t i = some (file i, x))
    (herr : ∀ i, err = some i → 3 ≤ i ∧ ∃ x, t i = some (file i, x)) :
    ∃ c ∈ (siRun siStart [.choose, .spawn 0]).cmds, c.running = true ∧
      fdChild t c.good bad false none none 0 = some (file 0) ∧ fdChild t true bad true out err 0 = some (file 0) := by
  refine ⟨⟨0, true, true⟩, by simp [siRun, siStep, siStart], rfl, ?_, ?_⟩
  · exact (C134_streams_partial t true false bad none none file h0 h1 h2 hbad (by simp) (by simp)).1
  · exact (C134_streams_partial t true true bad out err file h0 h1 h2 hbad hout herr).1

/-- **Violation.** If no pipe could be made for the standard input that cannot be read, a command that should have that one has
the standard input of make, too. -/
theorem C134_no_pipe (t : FdTab) (sync : Bool) (out err : Option Nat) (file : Nat → Nat)
    (h0 : t 0 = some (file 0, false)) (h1 : t 1 = some (file 1, false)) (h2 : t 2 = some (file 2, false))
    (hout : ∀ i, out = some i → 3 ≤ i ∧ ∃ x, t i = some (file i, x))
    (herr : ∀ i, err = some i → 3 ≤ i ∧ ∃ x, t i = some (file i, x)) :
    fdChild t false none sync out err 0 = some (file 0) := by
  simpa using (C134_streams_partial t false sync none out err file h0 h1 h2 (by simp) hout herr).1

/-- **Violation.** If make was started with its standard input and output closed, the pipe of the function `shell` gets the
descriptors 0 and 1, which are closed when the command starts: it has no output at all. -/
theorem C134_closed (t : FdTab) (r w : Nat) (h0 : t 0 = some (r, true)) (h1 : t 1 = some (w, true)) (bad err : Option Nat)
    (h2 : t 2 = some (2, false)) (herr : err = some 2) :
    fdChild t true bad true (some 1) err 1 = none := by
  unfold fdChild fdExec
  simp [fdInput, h1, herr]

/-! ### The function shell -/

/-- A command that ends, not with 127, while there are descriptors: its output is what becomes the value, `.SHELLSTATUS` is its
exit status, or 128 and the number of the signal that ended it; no descriptor stays open. -/
theorem C135_value_partial (limit : Nat) (st : ShSt) (output : Str) (code sig : Nat) (hl : st.fds + 2 ≤ limit)
    (h127 : ¬ (sig = 0 ∧ code = 127)) (hw : sig > 0 → code = 0) :
    (shellFn limit st (.runs output code sig)).1 = output ∧
    (shellFn limit st (.runs output code sig)).2.status = some (if sig > 0 then 128 + sig else code) ∧
    (shellFn limit st (.runs output code sig)).2.fds = st.fds := by
  have hnl : ¬ limit < st.fds + 2 := by omega
  unfold shellFn
  simp only [if_neg hnl, if_neg h127]
  refine ⟨trivial, ?_, trivial⟩
  unfold shStatus
  by_cases hs : sig > 0
  · simp [hs, hw hs]
  · have : ¬ (code = 0 ∧ sig > 0) := fun h => hs h.2
    simp [hs, this]

example : (shellFn 1024 ⟨3, none, [], 0⟩ (.runs "x".toList 0 9)) = ("x".toList, ⟨3, some 137, [], 0⟩) := by rfl

/-- **Violation.** What a command that ends with 127 wrote goes to the standard error; the value is empty. -/
theorem C135_lost (limit : Nat) (st : ShSt) (output : Str) (hl : st.fds + 2 ≤ limit) :
    (shellFn limit st (.runs output 127 0)).1 = [] ∧
    (shellFn limit st (.runs output 127 0)).2.stderr = st.stderr ++ [output] ∧
    (shellFn limit st (.runs output 127 0)).2.status = some 127 := by
  have hnl : ¬ limit < st.fds + 2 := by omega
  unfold shellFn
  simp [if_neg hnl, shStatus]

/-- As long as every command can be started no descriptor is left open and none of the uses fails for want of descriptors: each
gives its own text. -/
theorem C135_descriptors_partial (limit : Nat) (cs : List ShCase) (hc : .fails ∉ cs) :
    ∀ st : ShSt, st.fds + 2 ≤ limit →
      (shellFns limit st cs).2.fds = st.fds ∧ (shellFns limit st cs).2.pipeErrors = st.pipeErrors ∧
      (shellFns limit st cs).1 = cs.map shellText := by
  induction cs with
  | nil => intro st _; simp [shellFns]
  | cons c cs ih =>
    intro st hl
    have hnl : ¬ limit < st.fds + 2 := by omega
    have hstep : (shellFn limit st c).2.fds = st.fds ∧ (shellFn limit st c).2.pipeErrors = st.pipeErrors ∧
        (shellFn limit st c).1 = shellText c := by
      cases c with
      | empty => exact ⟨rfl, rfl, rfl⟩
      | fails => simp at hc
      | runs output code sig =>
        unfold shellFn
        simp only [if_neg hnl]
        by_cases h : sig = 0 ∧ code = 127
        · simp [h, shellText]
        · simp [if_neg h, shellText]
    obtain ⟨e1, e2, e3⟩ := ih (fun h => hc (by simp [h])) (shellFn limit st c).2 (by rw [hstep.1]; exact hl)
    simp only [shellFns, List.map_cons]
    exact ⟨by rw [e1, hstep.1], by rw [e2, hstep.2.1], by rw [hstep.2.2, e3]⟩

/-- **Violation.** Each command that cannot be started leaves two descriptors open. -/
theorem C135_leak (limit n : Nat) : ∀ st : ShSt, st.fds + 2 * n ≤ limit →
    (shellFns limit st (List.replicate n .fails)).2.fds = st.fds + 2 * n := by
  induction n with
  | zero => intro st _; rfl
  | succ n ih =>
    intro st h
    have hnl : ¬ limit < st.fds + 2 := by omega
    have hs : (shellFn limit st .fails).2.fds = st.fds + 2 := by
      unfold shellFn
      simp [if_neg hnl]
    rw [List.replicate_succ]
    simp only [shellFns]
    rw [ih _ (by rw [hs]; omega), hs]
    omega

/-- When the descriptors are used up, every use gives the empty text and leaves `.SHELLSTATUS` as it was. -/
theorem C135_used_up (limit : Nat) (cs : List ShCase) : ∀ st : ShSt, limit < st.fds + 2 →
    (∀ x ∈ (shellFns limit st cs).1, x = []) ∧ (shellFns limit st cs).2.status = st.status := by
  induction cs with
  | nil => intro st _; simp [shellFns]
  | cons c cs ih =>
    intro st h
    have hs : (shellFn limit st c).1 = [] ∧ (shellFn limit st c).2.status = st.status ∧ (shellFn limit st c).2.fds = st.fds := by
      cases c with
      | empty => exact ⟨rfl, rfl, rfl⟩
      | fails => unfold shellFn; simp [if_pos h]
      | runs o k s => unfold shellFn; simp [if_pos h]
    obtain ⟨e1, e2⟩ := ih (shellFn limit st c).2 (by rw [hs.2.2]; exact h)
    simp only [shellFns]
    refine ⟨?_, by rw [e2, hs.2.1]⟩
    intro x hx
    rcases List.mem_cons.1 hx with rfl | hx
    · exact hs.1
    · exact e1 x hx

/-- **Violation.** So after enough commands that could not be started, a command that would give a text gives none. -/
theorem C135_exhausted (limit n code : Nat) (st : ShSt) (output : Str) (h1 : st.fds + 2 * n ≤ limit)
    (h2 : limit < st.fds + 2 * n + 2) :
    (shellFn limit (shellFns limit st (List.replicate n .fails)).2 (.runs output code 0)).1 = [] := by
  have h := C135_leak limit n st h1
  have := C135_used_up limit [.runs output code 0] (shellFns limit st (List.replicate n .fails)).2 (by rw [h]; omega)
  simp only [shellFns, List.mem_singleton] at this
  exact this.1 _ rfl

example : (4 : Nat) + 2 * 510 ≤ 1024 ∧ 1024 < 4 + 2 * 510 + 2 := by decide

/-- **Violation.** An empty command leaves `.SHELLSTATUS` of the command before. -/
theorem C135_empty (limit : Nat) (st : ShSt) (output : Str) (code : Nat) (hl : st.fds + 2 ≤ limit) (hne : code ≠ 127) :
    (shellFns limit st [.runs output code 0, .empty]).2.status = some code := by
  have := (C135_value_partial limit st output code 0 hl (by simp [hne]) (by simp)).2.1
  simp only [shellFns]
  have he : (shellFn limit (shellFn limit st (.runs output code 0)).2 .empty).2 = (shellFn limit st (.runs output code 0)).2 := rfl
  rw [he, this]
  simp

end Remake
