import Verif.Rename.Props
/-! **C121**, the rest: messages, double-colon rules. -/
set_option linter.unusedVariables false
set_option linter.unusedSimpArgs false
namespace Remake
open Spec

/-- Two files that become one under the second name, with the recipes of two rules. -/
def exTwoRecipes : List ROp :=
  [.enter "foo".toList, .enter "src/foo".toList,
   .edit 0 fun n => { n with cmds := some 1, flags := { isTarget := true } },
   .edit 1 fun n => { n with cmds := some 2, flags := { isTarget := true } },
   .rehash 0 "src/foo".toList]

/-- **C121** (a deviation) The message about two recipes says the wrong thing: `foo` is found as `src/foo` and both have recipes; the
message says that the recipe for `src/foo` is ignored in favour of the one for `foo`, but the recipe for `src/foo` (rule 2)
is the one that stays. -/
theorem C121_message_wrong : ∃ s m, rrun RState.empty exTwoRecipes = .ok s [m] ∧ m.ignored = "src/foo".toList ∧
    m.inFavorOf = "foo".toList ∧ s.tbl "src/foo".toList = some 1 ∧ (s.node 1).cmds = some 2 :=
  ⟨_, _, rfl, by decide, by decide, by decide, by decide⟩

/-- **C121** The message is wrong in every case: it names as ignored the name that is kept with its recipe. -/
theorem C121_message (f t : FNode) (to : Str) (m : RMsg) (h : m ∈ recipeMsgs f t to) :
    m.ignored = to ∧ m.inFavorOf = f.name ∧ (mergedNode f t).cmds = t.cmds ∧ t.cmds ≠ none ∧ t.cmds ≠ f.cmds := by
  unfold recipeMsgs at h
  cases hf : f.cmds with
  | none => simp [hf] at h
  | some cf =>
    cases ht : t.cmds with
    | none => simp [hf, ht] at h
    | some ct =>
      simp only [hf, ht] at h
      split at h
      · rename_i hne
        have := List.mem_singleton.mp h
        subst this
        refine ⟨rfl, rfl, by simp [mergedNode, ht], by simp, fun e => hne ?_⟩
        injection e with e
        exact e.symm
      · simp at h

/-- **C121** A single-colon target does not become one with a double-colon file and the other way round: make stops.  For any
state in which `r` is found by its name, and no other case stops make. -/
theorem C121_kinds (s : RState) (r t : Nat) (to : Str) (hne : (s.node r).hname ≠ to) (hl : (s.node r).renamed = none)
    (ht : s.tbl (s.node r).hname = some r) (hto : s.tbl to = some t) (hrt : r ≠ t) :
    rehashFile s r to = .fatal ↔
      ((s.node t).doubleColon ≠ none ∧ (s.node r).doubleColon = none ∧ (s.node r).flags.isTarget = true ∨
       (s.node t).doubleColon = none ∧ (s.node r).doubleColon ≠ none ∧ (s.node t).flags.isTarget = true) := by
  have hto' : ¬ to = (s.node r).hname := fun e => hne e.symm
  have htr : t ≠ r := Ne.symm hrt
  have hset : ∀ (fuel : Nat) (s : RState) (o : Option Nat) (i : Nat),
      ((setHnames s to fuel o).node i).doubleColon = (s.node i).doubleColon ∧
      ((setHnames s to fuel o).node i).flags = (s.node i).flags := by
    intro fuel
    induction fuel with
    | zero => intro s o i; exact ⟨rfl, rfl⟩
    | succ fuel ih =>
      intro s o i
      cases o with
      | none => exact ⟨rfl, rfl⟩
      | some k =>
        simp only [setHnames]
        rw [(ih _ _ i).1, (ih _ _ i).2]
        simp only [RState.upd]
        by_cases hi : i = k <;> simp [hi]
  have hstep : rehashFile s r to = rehashAt ((s.upd r { s.node r with builtin := false }).put (s.node r).hname none) r to := by
    simp [rehashFile, followRenamed, RState.upd, hne, hl, ht]
  rw [hstep]
  unfold rehashAt
  have htgt : ((s.upd r { s.node r with builtin := false }).put (s.node r).hname none).tbl to = some t := by
    simp [RState.put, RState.upd, hto', hto]
  simp only [htgt]
  simp only [(hset _ _ _ _).1, (hset _ _ _ _).2]
  simp only [RState.upd, RState.put, if_true, htr, if_false]
  by_cases hd : (s.node t).doubleColon = none <;> by_cases hr : (s.node r).doubleColon = none <;>
    by_cases hf : (s.node t).flags.isTarget = true <;> by_cases hg : (s.node r).flags.isTarget = true <;>
    simp [hd, hr, hf, hg]

example : ∃ s : RState, ∃ r t to, (s.node r).hname ≠ to ∧ (s.node r).renamed = none ∧ s.tbl (s.node r).hname = some r ∧
    s.tbl to = some t ∧ r ≠ t ∧ rehashFile s r to = .fatal := by
  refine ⟨⟨fun i => if i = 0 then ⟨['a'], ['a'], [], none, [], none, none, none, some 0, 0, 0, {}, false⟩
    else ⟨['b'], ['b'], [], none, [], none, none, none, none, 0, 0, { isTarget := true }, false⟩, 2,
    fun m => if m = ['a'] then some 0 else if m = ['b'] then some 1 else none⟩, 0, 1, ['b'], ?_⟩
  refine ⟨by decide, by decide, by decide, by decide, by decide, ?_⟩
  rfl

/-! ## The rules of a double-colon file -/

/-- `update_file_1` looks for the record: the file is found as `to`. -/
def lookAs (to : Str) (s : RState) (i : Nat) : RState :=
  match rehashFile s i to with
  | .ok s' _ => s'
  | _ => s

theorem rules_congr {s s' : RState} (h : ∀ i, (s'.node i).prev = (s.node i).prev) (o : Option Nat) (c : List Nat)
    (hc : RulesOf s o c) : RulesOf s' o c := by
  induction hc with
  | nil => exact .nil
  | cons i c _ ih => exact .cons i c (by rw [h]; exact ih)

theorem setHnames_rest (to : Str) (fuel : Nat) (s : RState) (o : Option Nat) (i : Nat) :
    ((setHnames s to fuel o).node i).prev = (s.node i).prev ∧ ((setHnames s to fuel o).node i).renamed = (s.node i).renamed ∧
    ((setHnames s to fuel o).node i).doubleColon = (s.node i).doubleColon ∧ (setHnames s to fuel o).count = s.count ∧
    ((s.node i).hname = to → ((setHnames s to fuel o).node i).hname = to) := by
  induction fuel generalizing s o with
  | zero => exact ⟨rfl, rfl, rfl, rfl, id⟩
  | succ fuel ih =>
    cases o with
    | none => exact ⟨rfl, rfl, rfl, rfl, id⟩
    | some k =>
      simp only [setHnames]
      obtain ⟨h1, h2, h3, h4, h5⟩ := ih (s.upd k { s.node k with hname := to }) (s.node k).prev
      refine ⟨h1.trans ?_, h2.trans ?_, h3.trans ?_, h4, fun h => h5 ?_⟩
      · simp only [RState.upd]
        by_cases hi : i = k <;> simp [hi]
      · simp only [RState.upd]
        by_cases hi : i = k <;> simp [hi]
      · simp only [RState.upd]
        by_cases hi : i = k <;> simp [hi]
      · simp only [RState.upd]
        by_cases hi : i = k
        · simp [hi]
        · simpa [hi] using h

theorem setHnames_chain (to : Str) (fuel : Nat) (s : RState) (o : Option Nat) (c : List Nat) (hc : RulesOf s o c)
    (hl : c.length ≤ fuel) (i : Nat) (hi : i ∈ c) : ((setHnames s to fuel o).node i).hname = to := by
  induction fuel generalizing s o c with
  | zero =>
    have : c = [] := List.length_eq_zero_iff.mp (by omega)
    subst this; simp at hi
  | succ fuel ih =>
    cases hc with
    | nil => simp at hi
    | cons k c hc' =>
      simp only [setHnames]
      rcases List.mem_cons.mp hi with rfl | hi
      · exact (setHnames_rest to fuel _ _ i).2.2.2.2 (by simp [RState.upd])
      · refine ih _ _ c (rules_congr (fun j => ?_) _ c hc') (by simpa using hl) hi
        simp only [RState.upd]
        by_cases hj : j = k <;> simp [hj]

/-- Once all records of a chain have the name, looking for them changes no pointer, and the walk sees them all. -/
theorem walk_settled (to : Str) (fuel : Nat) (s : RState) (o : Option Nat) (c : List Nat) (hc : RulesOf s o c)
    (hl : c.length ≤ fuel) (hn : ∀ i ∈ c, (s.node i).hname = to) (hr : ∀ i ∈ c, (s.node i).renamed = none) :
    updateWalk (lookAs to) s fuel o = c := by
  induction fuel generalizing s o c with
  | zero =>
    have : c = [] := List.length_eq_zero_iff.mp (by omega)
    subst this; cases o <;> rfl
  | succ fuel ih =>
    cases hc with
    | nil => rfl
    | cons k c hc' =>
      have hlook : lookAs to s k = s.upd k { s.node k with builtin := false } := by
        simp [lookAs, rehash_same s k to (hn k (by simp))]
      have hp : ∀ j, ((s.upd k { s.node k with builtin := false }).node j).prev = (s.node j).prev := fun j => by
        simp only [RState.upd]; by_cases hj : j = k <;> simp [hj]
      have hnm : ∀ j, ((s.upd k { s.node k with builtin := false }).node j).hname = (s.node j).hname := fun j => by
        simp only [RState.upd]; by_cases hj : j = k <;> simp [hj]
      have hrn : ∀ j, ((s.upd k { s.node k with builtin := false }).node j).renamed = (s.node j).renamed := fun j => by
        simp only [RState.upd]; by_cases hj : j = k <;> simp [hj]
      simp only [updateWalk, hlook]
      rw [follow_live _ _ k (by rw [hrn]; exact hr k (by simp))]
      simp only [hp]
      congr 1
      exact ih _ _ c (rules_congr hp _ c hc') (by simpa using hl) (fun i hi => by rw [hnm]; exact hn i (by simp [hi]))
        (fun i hi => by rw [hrn]; exact hr i (by simp [hi]))

/-- **C121** A double-colon file that is found under a name that no other file has: every one of its rules is looked at, in
order. -/
theorem C121_double_all (s : RState) (h : Nat) (c : List Nat) (to : Str) (hc : RulesOf s (some h) c) (hlen : c.length ≤ s.count)
    (hd : (s.node h).doubleColon = some h) (hr : ∀ i ∈ c, (s.node i).renamed = none)
    (ht : s.tbl (s.node h).hname = some h) (hto : s.tbl to = none) :
    updateRecords (lookAs to) s h = c := by
  have hne : (s.node h).hname ≠ to := fun e => by rw [e, hto] at ht; cases ht
  have hh : h ∈ c := by cases hc; simp
  have hto' : ¬ to = (s.node h).hname := fun e => hne e.symm
  let s0 := ((s.upd h { s.node h with builtin := false }).put (s.node h).hname none)
  let s1 := s0.upd h { s0.node h with hname := to }
  let s2 := setHnames s1 to s1.count (some h)
  have hdc : (s1.node h).doubleColon = some h := by simp [s1, s0, RState.upd, RState.put, hd]
  have hlook : lookAs to s h = s2.put to (some h) := by
    have hstep : rehashFile s h to = rehashAt s0 h to := by
      simp [rehashFile, followRenamed, RState.upd, hne, hr h hh, ht, s0]
    have htgt : s0.tbl to = none := by simp [s0, RState.put, RState.upd, hto', hto]
    unfold lookAs
    rw [hstep]
    unfold rehashAt
    simp only [htgt]
    show (setHnames s1 to s1.count (s1.node h).doubleColon).put to (some h) = s2.put to (some h)
    rw [hdc]
  have hp1 : ∀ j, (s1.node j).prev = (s.node j).prev := fun j => by
    simp only [s1, s0, RState.upd, RState.put]; by_cases hj : j = h <;> simp [hj]
  have hr1 : ∀ j, (s1.node j).renamed = (s.node j).renamed := fun j => by
    simp only [s1, s0, RState.upd, RState.put]; by_cases hj : j = h <;> simp [hj]
  have hcs : s1.count = s.count := rfl
  have hp2 : ∀ j, ((s2.put to (some h)).node j).prev = (s.node j).prev := fun j =>
    ((setHnames_rest to s1.count s1 (some h) j).1).trans (hp1 j)
  have hr2 : ∀ j, ((s2.put to (some h)).node j).renamed = (s.node j).renamed := fun j =>
    ((setHnames_rest to s1.count s1 (some h) j).2.1).trans (hr1 j)
  have hn2 : ∀ j ∈ c, ((s2.put to (some h)).node j).hname = to := fun j hj =>
    setHnames_chain to s1.count s1 (some h) c (rules_congr hp1 _ c hc) (by rw [hcs]; exact hlen) j hj
  unfold updateRecords
  simp only [hd, Option.getD_some, updateWalk, hlook]
  rw [follow_live _ _ h (by rw [hr2]; exact hr h hh)]
  simp only [hp2]
  cases hc with
  | cons _ c hc' =>
    congr 1
    exact walk_settled to s.count _ _ c (rules_congr hp2 _ c hc') (by simp at hlen; omega)
      (fun i hi => hn2 i (by simp [hi])) (fun i hi => by rw [hr2]; exact hr i (by simp [hi]))

/-- `foo::` with two rules (records 0 and 1), as `enter_file` and `record_files` (read.c 2188-2213) leave it, and `src/foo`,
a prerequisite of something (record 2). -/
def exDouble (other : Bool) : RState :=
  let s := (enterNode RState.empty "foo".toList).1
  let s := s.upd 0 { s.node 0 with doubleColon := some 0, cmds := some 1, flags := { isTarget := true } }
  let s := (enterNode s "foo".toList).1
  let s := s.upd 1 { s.node 1 with cmds := some 2, flags := { isTarget := true } }
  if other then (enterNode s "src/foo".toList).1 else s

example : RulesOf (exDouble false) (some 0) [0, 1] ∧ updateRecords (lookAs "src/foo".toList) (exDouble false) 0 = [0, 1] :=
  ⟨.cons 0 [1] (.cons 1 [] .nil), by decide⟩

/-- **C121** (a deviation) Rules are lost: `foo::` has two rules and is found as `src/foo` by a search path, and some rule
has `src/foo` as prerequisite.  Then only the first of the two rules is ever looked at. -/
theorem C121_double_lost : RulesOf (exDouble true) (some 0) [0, 1] ∧
    updateRecords (lookAs "src/foo".toList) (exDouble true) 0 = [0] ∧
    updateRecords (lookAs "src/foo".toList) (lookAs "src/foo".toList (exDouble true) 0) 2 = [0] :=
  ⟨.cons 0 [1] (.cons 1 [] .nil), by decide, by decide⟩

end Remake
