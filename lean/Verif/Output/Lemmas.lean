import Verif.Output.Spec

/-! # The invariant of synchronised output -/
set_option linter.unusedVariables false
set_option linter.unusedSimpArgs false
namespace Remake
open Spec

/-- The contents of one of the files. -/
def TmpFiles.field (err : Bool) (t : TmpFiles) : Str := if err then t.err else t.out

/-- What has not been counted as written out. -/
def restOf : DumpPc → Nat → Bool → TmpFiles → Str
  | .trunc j, i, err, t => if j = i then [] else t.field err
  | .dead p, i, err, t => restOf p i err t
  | _, _, err, t => t.field err

/-- A dump that has not reached the unlocking. -/
def pendingOf : DumpPc → Nat → Nat
  | .wait j .., i => if j = i then 1 else 0
  | .enter j .., i => if j = i then 1 else 0
  | .out j .., i => if j = i then 1 else 0
  | .err j .., i => if j = i then 1 else 0
  | .leave j _, i => if j = i then 1 else 0
  | .unlock j _, i => if j = i then 1 else 0
  | _, _ => 0

/-- In the critical section. -/
def holdsLock : DumpPc → Bool
  | .enter _ _ _ sem => sem
  | .out _ _ _ sem => sem
  | .err _ _ sem => sem
  | .leave _ sem => sem
  | .unlock _ sem => sem
  | _ => false

/-- In what should be the critical section, without the lock. -/
def unlocked : DumpPc → Bool
  | .enter _ _ _ sem => !sem
  | .out _ _ _ sem => !sem
  | .err _ _ sem => !sem
  | .leave _ sem => !sem
  | .unlock _ sem => !sem
  | _ => false

/-- The flags of a dump are those of its files. -/
def flagsOk (c : OutConfig) (t : Nat → TmpFiles) : DumpPc → Prop
  | .wait j o e => (o = false → (t j).out = []) ∧ (e = false → (t j).err = [])
  | .enter j o e _ => (o = false → (t j).out = []) ∧ (e = false → (t j).err = [])
  | .out j pos e _ => (e = false → (t j).err = [])
  | _ => True

/-- What the owner of the lock has written so far. -/
def curOk (t : Nat → TmpFiles) (m : Nat) (cur : List OutEvent) : DumpPc → Prop
  | .enter j _ _ _ => cur = []
  | .out j pos _ _ => (∀ e ∈ cur, e.make = m ∧ e.ctx = some j) ∧ textOf false cur = (t j).out.take pos ∧ textOf true cur = []
  | .err j pos _ => (∀ e ∈ cur, e.make = m ∧ e.ctx = some j) ∧ textOf false cur = (t j).out ∧ textOf true cur = (t j).err.take pos
  | .leave j _ => (∀ e ∈ cur, e.make = m ∧ e.ctx = some j) ∧ textOf false cur = (t j).out ∧ textOf true cur = (t j).err
  | .unlock j _ => (∀ e ∈ cur, e.make = m ∧ e.ctx = some j) ∧ textOf false cur = (t j).out ∧ textOf true cur = (t j).err
  | _ => True

/-- The number of calls of `output_dump` for a context. -/
def dumpCalls (m j : Nat) (ls : List OutLabel) : Nat := ls.countP (fun l => l = .dump m j)

/-- The number of blocks of a context. -/
def blockCount (m j : Nat) (bs : List Block) : Nat := bs.countP (fun b => b.make == m && b.ctx == j)

structure OutInv (c : OutConfig) (ls : List OutLabel) (s : OutSys) (bs : List Block) (cur : List OutEvent) : Prop where
  cap : capturedEvents s.term = bs.flatMap (·.events) ++ cur
  own : ∀ b ∈ bs, b.Own
  lock : ∀ m, s.lock = some m ↔ holdsLock (s.pc m) = true
  safe : ∀ m, unlocked (s.pc m) = false
  free : s.lock = none → cur = []
  cur : ∀ m, s.lock = some m → curOk (s.tmp m) m cur (s.pc m)
  acct : ∀ m j err, writtenTo c m j err ls = blocksText m j err bs ++ restOf (s.pc m) j err (s.tmp m j)
  flags : ∀ m, flagsOk c (s.tmp m) (s.pc m)
  comb : c.combined = true → ∀ m j, (s.tmp m j).err = []
  count : ∀ m j, blockCount m j bs + pendingOf (s.pc m) j ≤ dumpCalls m j ls
  whole : ∀ b ∈ bs, b.whole = false → OutLabel.kill b.make ∈ ls

theorem outInv_init (c : OutConfig) : OutInv c [] .init [] [] := by
  refine ⟨rfl, by simp, ?_, ?_, fun _ => rfl, ?_, ?_, ?_, ?_, ?_, by simp⟩
  · intro m; simp [OutSys.init, holdsLock]
  · intro m; rfl
  · intro m h; cases h
  · intro m j err; cases err <;> simp [OutSys.init, writtenTo, blocksText, restOf, TmpFiles.field]
  · intro m; trivial
  · intro _ m j; rfl
  · intro m j; simp [blockCount, OutSys.init, pendingOf, dumpCalls]

/-! ## Small facts -/

theorem writtenTo_append (c : OutConfig) (m j : Nat) (err : Bool) (a b : List OutLabel) :
    writtenTo c m j err (a ++ b) = writtenTo c m j err a ++ writtenTo c m j err b := by
  induction a with
  | nil => rfl
  | cons l a ih =>
    cases l with
    | write m' j' e s => simp only [List.cons_append, writtenTo, ih, List.append_assoc]
    | _ => simpa only [List.cons_append, writtenTo] using ih

/-- A step that is not a write. -/
theorem writtenTo_other (c : OutConfig) (m j : Nat) (err : Bool) (ls : List OutLabel) (l : OutLabel) (h : ∀ m j e s, l ≠ .write m j e s) :
    writtenTo c m j err (ls ++ [l]) = writtenTo c m j err ls := by
  rw [writtenTo_append]
  cases l with
  | write m' j' e s => exact absurd rfl (h m' j' e s)
  | _ => simp [writtenTo]

theorem dumpCalls_mono (m j : Nat) (ls : List OutLabel) (l : OutLabel) : dumpCalls m j ls ≤ dumpCalls m j (ls ++ [l]) := by
  simp [dumpCalls, List.countP_append]

theorem capturedEvents_append (a b : List OutEvent) : capturedEvents (a ++ b) = capturedEvents a ++ capturedEvents b := by
  simp [capturedEvents]

theorem textOf_append (err : Bool) (a b : List OutEvent) : textOf err (a ++ b) = textOf err a ++ textOf err b := by
  simp [textOf]

theorem textOf_log (err : Bool) (m : Nat) (j : Option Nat) (e : Bool) (t : Str) : textOf err [⟨m, j, e, true, t⟩] = [] := by
  simp [textOf]

theorem textOf_one (err : Bool) (m : Nat) (j : Option Nat) (e : Bool) (t : Str) :
    textOf err [⟨m, j, e, false, t⟩] = if e = err then t else [] := by
  cases err <;> cases e <;> simp [textOf]

theorem blocksText_append (m j : Nat) (err : Bool) (a b : List Block) : blocksText m j err (a ++ b) = blocksText m j err a ++ blocksText m j err b := by
  simp [blocksText]

theorem restOf_ne_trunc {p : DumpPc} {i : Nat} {err : Bool} {t : TmpFiles} (h : busyWith p i = false) : restOf p i err t = t.field err := by
  induction p with
  | trunc j =>
    simp only [busyWith, beq_eq_false_iff_ne] at h
    simp [restOf, h]
  | dead p ih => exact ih h
  | _ => rfl

theorem append_take_drop (a : Str) (pos n : Nat) : a.take pos ++ (a.drop pos).take n = a.take (pos + n) := by
  rw [List.take_add]

theorem OutInv.whole_mono {c : OutConfig} {ls : List OutLabel} {s : OutSys} {bs : List Block} {cur : List OutEvent} (hi : OutInv c ls s bs cur) (l : OutLabel) :
    ∀ b ∈ bs, b.whole = false → OutLabel.kill b.make ∈ ls ++ [l] := fun b hb hw => List.mem_append_left _ (hi.whole b hb hw)

/-- Steps of one make that change neither the terminal nor the files, and stay inside or outside of the lock. -/
theorem OutInv.goto {c : OutConfig} {ls : List OutLabel} {s : OutSys} {bs : List Block} {cur : List OutEvent} (hi : OutInv c ls s bs cur)
    (m : Nat) (p : DumpPc) (l : OutLabel) (hl : ∀ m j e s, l ≠ .write m j e s)
    (hh : holdsLock p = holdsLock (s.pc m)) (hu : unlocked p = false) (hc : s.lock = some m → curOk (s.tmp m) m cur p)
    (hr : ∀ j err, restOf p j err (s.tmp m j) = restOf (s.pc m) j err (s.tmp m j)) (hf : flagsOk c (s.tmp m) p)
    (hp : ∀ j, blockCount m j bs + pendingOf p j ≤ dumpCalls m j (ls ++ [l])) :
    OutInv c (ls ++ [l]) (s.goto m p) bs cur := by
  refine ⟨hi.cap, hi.own, ?_, ?_, hi.free, ?_, ?_, ?_, hi.comb, ?_, hi.whole_mono _⟩
  · intro k
    simp only [OutSys.goto]
    split
    · rename_i e; subst e; rw [hh]; exact hi.lock k
    · exact hi.lock k
  · intro k
    simp only [OutSys.goto]
    split
    · exact hu
    · exact hi.safe k
  · intro k h
    simp only [OutSys.goto] at h ⊢
    split
    · rename_i e; subst e; exact hc h
    · exact hi.cur k h
  · intro k j err
    rw [writtenTo_other c k j err ls l hl, hi.acct k j err]
    simp only [OutSys.goto]
    split
    · rename_i e; subst e; rw [hr]
    · rfl
  · intro k
    simp only [OutSys.goto]
    split
    · rename_i e; subst e; exact hf
    · exact hi.flags k
  · intro k j
    simp only [OutSys.goto]
    split
    · rename_i e; subst e; exact hp j
    · exact Nat.le_trans (hi.count k j) (dumpCalls_mono k j ls l)

/-- Something the owner of the lock writes. -/
theorem OutInv.emit {c : OutConfig} {ls : List OutLabel} {s : OutSys} {bs : List Block} {cur : List OutEvent} (hi : OutInv c ls s bs cur)
    (e : OutEvent) (hc : ∀ m, s.lock = some m → curOk (s.tmp m) m (cur ++ [e]) (s.pc m)) (hl : s.lock ≠ none) (he : e.ctx.isSome) :
    OutInv c ls (s.emit e) bs (cur ++ [e]) := by
  refine ⟨?_, hi.own, hi.lock, hi.safe, fun h => absurd h hl, hc, hi.acct, hi.flags, hi.comb, hi.count, hi.whole⟩
  simp only [OutSys.emit]
  rw [capturedEvents_append, hi.cap]
  simp [capturedEvents, he]

theorem count_le {c : OutConfig} {ls : List OutLabel} {s : OutSys} {bs : List Block} {cur : List OutEvent} (hi : OutInv c ls s bs cur)
    (m : Nat) (p : DumpPc) (l : OutLabel) (hp : ∀ j, pendingOf p j ≤ pendingOf (s.pc m) j) :
    ∀ j, blockCount m j bs + pendingOf p j ≤ dumpCalls m j (ls ++ [l]) := by
  intro j
  have := hi.count m j
  have := hp j
  have := dumpCalls_mono m j ls l
  omega

end Remake
