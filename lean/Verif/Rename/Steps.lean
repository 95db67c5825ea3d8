import Verif.Rename.Lemmas
import Verif.Rename.Spec
/-! What one call of `rehash_file` does to records that are in order. -/
set_option linter.unusedVariables false
set_option linter.unusedSimpArgs false
namespace Remake
open Spec

theorem denotes_of_follow (s : RState) (fuel i j : Nat) (h : followRenamed s fuel i = some j) : Denotes s i j := by
  induction fuel generalizing i with
  | zero => simp [followRenamed] at h
  | succ fuel ih =>
    simp only [followRenamed] at h
    cases hr : (s.node i).renamed with
    | none =>
      rw [hr] at h
      have : i = j := by simpa using h
      subst this
      exact .here i hr
    | some k =>
      rw [hr] at h
      exact .step i k j hr (ih k h)

theorem follow_of_denotes (s : RState) (i j : Nat) (h : Denotes s i j) : ∃ fuel, followRenamed s fuel i = some j := by
  induction h with
  | here i h => exact ⟨1, by simp [followRenamed, h]⟩
  | step i k j h h' ih =>
    obtain ⟨fuel, hf⟩ := ih
    exact ⟨fuel + 1, by simp [followRenamed, h, hf]⟩

theorem denotes_fun (s : RState) (i j k : Nat) (h : Denotes s i j) (h' : Denotes s i k) : j = k := by
  induction h with
  | here i h =>
    cases h' with
    | here _ _ => rfl
    | step _ m _ hm _ => rw [h] at hm; cases hm
  | step i m j hm hd ih =>
    cases h' with
    | here _ hn => rw [hm] at hn; cases hn
    | step _ m' _ hm' hd' =>
      rw [hm] at hm'
      cases hm'
      exact ih hd'

theorem denotes_live (s : RState) (i j : Nat) (h : Denotes s i j) : (s.node j).renamed = none := by
  induction h with
  | here i h => exact h
  | step _ _ _ _ _ ih => exact ih

/-- The record is already found under the name. -/
theorem rehash_same (s : RState) (r : Nat) (to : Str) (h : (s.node r).hname = to) :
    rehashFile s r to = .ok (s.upd r { s.node r with builtin := false }) [] := by
  simp [rehashFile, RState.upd, h]

/-- The record after the mark of a built-in rule is taken away and the name changed. -/
def movedNode (n : FNode) (to : Str) : FNode := { n with builtin := false, hname := to }

/-- The record moves to a name nobody has. -/
theorem rehash_move (s : RState) (hs : Single s) (r : Nat) (to : Str) (hne : (s.node r).hname ≠ to)
    (hl : (s.node r).renamed = none) (ht : s.tbl (s.node r).hname = some r) (hto : s.tbl to = none) :
    ∃ s', rehashFile s r to = .ok s' [] ∧ s'.count = s.count ∧
      (∀ i, s'.node i = if i = r then movedNode (s.node r) to else s.node i) ∧
      s'.tbl = fun m => if m = to then some r else if m = (s.node r).hname then none else s.tbl m := by
  have hd := hs r
  refine ⟨((((s.upd r { s.node r with builtin := false }).put (s.node r).hname none).upd r
    (movedNode (s.node r) to)).put to (some r)), ?_, rfl, fun i => ?_, ?_⟩
  · have hto' : ¬ to = (s.node r).hname := fun e => hne e.symm
    simp [rehashFile, followRenamed, RState.upd, RState.put, hne, hl, ht, rehashAt, hto, hto', hd, setHnames_none, movedNode]
  · simp only [RState.upd, RState.put]
    by_cases hi : i = r
    · simp [hi]
    · simp [hi]
  · rfl

/-- The record is merged into the one that has the name. -/
theorem rehash_join (s : RState) (hs : Single s) (r t : Nat) (to : Str) (hne : (s.node r).hname ≠ to)
    (hl : (s.node r).renamed = none) (ht : s.tbl (s.node r).hname = some r) (hto : s.tbl to = some t) (hrt : r ≠ t) :
    ∃ s', rehashFile s r to = .ok s' (recipeMsgs (movedNode (s.node r) to) (s.node t) to) ∧ s'.count = s.count ∧
      s'.node r = { movedNode (s.node r) to with renamed := some t } ∧
      s'.node t = mergedNode (movedNode (s.node r) to) (s.node t) ∧
      (∀ i, i ≠ r → i ≠ t → s'.node i = s.node i) ∧
      s'.tbl = fun m => if m = (s.node r).hname then none else s.tbl m := by
  have hd := hs r
  have hdt := hs t
  have htr : t ≠ r := Ne.symm hrt
  refine ⟨(((((s.upd r { s.node r with builtin := false }).put (s.node r).hname none).upd r
    (movedNode (s.node r) to)).upd t (mergedNode (movedNode (s.node r) to) (s.node t))).upd r
      { movedNode (s.node r) to with renamed := some t }), ?_, rfl, ?_, ?_, ?_, ?_⟩
  · have hto' : ¬ to = (s.node r).hname := fun e => hne e.symm
    simp [rehashFile, followRenamed, RState.upd, RState.put, hne, hl, ht, rehashAt, hto, hto', hd, hdt, setHnames_none,
      movedNode, hrt, htr]
  · simp [RState.upd]
  · simp [RState.upd, htr]
  · intro i h1 h2; simp [RState.upd, RState.put, h1, h2]
  · rfl

end Remake
