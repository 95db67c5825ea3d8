import Verif.Rename.Steps
/-! **C121** A file found under the name of another file is one file with it. -/
set_option linter.unusedVariables false
set_option linter.unusedSimpArgs false
namespace Remake
open Spec

/-- What a call does to records in order: it succeeds, the records stay in order, and every reference still means a record
with all prerequisites, a recipe if there was one, and all marks. -/
structure RecGrows (s s' : RState) : Prop where
  count : s.count ≤ s'.count
  keeps : ∀ i j, i < s.count → Denotes s i j → ∃ j', Denotes s' i j' ∧
    (∀ d ∈ (s.node j).deps, d ∈ (s'.node j').deps) ∧ ((s.node j).cmds.isSome → (s'.node j').cmds.isSome) ∧
    ((s.node j).flags.isTarget = true → (s'.node j').flags.isTarget = true) ∧
    ((s.node j).flags.precious = true → (s'.node j').flags.precious = true) ∧
    ((s.node j).flags.phony = true → (s'.node j').flags.phony = true) ∧
    (s.node j).lastMtime ≤ (s'.node j').lastMtime

theorem RecGrows.refl (s : RState) : RecGrows s s :=
  ⟨Nat.le_refl _, fun i j _ h => ⟨j, h, fun _ h => h, id, id, id, id, Int.le_refl _⟩⟩

theorem RecGrows.trans {a b c : RState} (h : RecGrows a b) (h' : RecGrows b c) : RecGrows a c := by
  refine ⟨Nat.le_trans h.count h'.count, fun i j hi hd => ?_⟩
  obtain ⟨k, h1, h2, h3, h4, h5, h6, h7⟩ := h.keeps i j hi hd
  obtain ⟨l, g1, g2, g3, g4, g5, g6, g7⟩ := h'.keeps i k (Nat.lt_of_lt_of_le hi h.count) h1
  exact ⟨l, g1, fun d hd => g2 d (h2 d hd), g3 ∘ h3, g4 ∘ h4, g5 ∘ h5, g6 ∘ h6, Int.le_trans h7 g7⟩

theorem denotes_samePtr {s s' : RState} (h : SamePtr s s') (i j : Nat) (hd : Denotes s i j) : Denotes s' i j := by
  obtain ⟨fuel, hf⟩ := follow_of_denotes s i j hd
  exact denotes_of_follow s' fuel i j (by rw [h.follow]; exact hf)

theorem grows_same {s s' : RState} (h : SamePtr s s') (hd : ∀ i, (s'.node i).deps = (s.node i).deps)
    (hc : ∀ i, (s'.node i).cmds = (s.node i).cmds) (hf : ∀ i, (s'.node i).flags = (s.node i).flags)
    (hm : ∀ i, (s'.node i).lastMtime = (s.node i).lastMtime) : RecGrows s s' := by
  refine ⟨by rw [h.count]; exact Nat.le_refl _, fun i j hi hj => ⟨j, denotes_samePtr h i j hj, ?_⟩⟩
  rw [hd, hc, hf, hm]
  exact ⟨fun _ h => h, id, id, id, id, Int.le_refl _⟩

theorem denotes_move {s s' : RState} (h : ∀ i, (s'.node i).renamed = (s.node i).renamed) (i j : Nat) (hd : Denotes s i j) :
    Denotes s' i j := by
  induction hd with
  | here i hn => exact .here i (by rw [h]; exact hn)
  | step i k j hk _ ih => exact .step i k j (by rw [h]; exact hk) ih

theorem setNames_rest (s : RState) (fuel : Nat) (o : Option Nat) (i : Nat) :
    ((setNames s fuel o).node i).deps = (s.node i).deps ∧ ((setNames s fuel o).node i).cmds = (s.node i).cmds ∧
    ((setNames s fuel o).node i).flags = (s.node i).flags ∧ ((setNames s fuel o).node i).lastMtime = (s.node i).lastMtime := by
  induction fuel generalizing s o with
  | zero => simp [setNames]
  | succ fuel ih =>
    cases o with
    | none => simp [setNames]
    | some k =>
      simp only [setNames]
      have := ih (s.upd k { s.node k with name := (s.node k).hname }) (s.node k).prev
      rw [this.1, this.2.1, this.2.2.1, this.2.2.2]
      simp only [RState.upd]
      by_cases hi : i = k
      · simp [hi]
      · simp [hi]

theorem later_le (a b : Int) : a ≤ (if a > b then a else b) ∧ b ≤ (if a > b then a else b) := by
  by_cases h : a > b
  · rw [if_pos h]; omega
  · rw [if_neg h]; omega

theorem later_max (a b : Int) : (if a > b then a else b) = max b a := by
  by_cases h : a > b
  · rw [if_pos h]; omega
  · rw [if_neg h]; omega

theorem rehash_ok (s : RState) (hh : Heaped s) (hs : Single s) (r : Nat) (hr : r < s.count) (hl : (s.node r).renamed = none)
    (to : Str) : ∃ s' ms, rehashFile s r to = .ok s' ms ∧ Heaped s' ∧ Single s' ∧ RecGrows s s' := by
  by_cases hne : (s.node r).hname = to
  · have hp := upd_samePtr s r { s.node r with builtin := false } rfl rfl rfl
    refine ⟨_, _, rehash_same s r to hne, hp.heaped hh, hp.single hs, grows_same hp ?_ ?_ ?_ ?_⟩ <;>
    · intro i
      simp only [RState.upd]
      by_cases hi : i = r
      · simp [hi]
      · simp [hi]
  · have ht := hh.live r hr hl
    cases hto : s.tbl to with
    | none =>
      obtain ⟨s', h1, h2, h3, h4⟩ := rehash_move s hs r to hne hl ht hto
      have hren : ∀ i, (s'.node i).renamed = (s.node i).renamed := fun i => by
        rw [h3]; split
        · rename_i h; rw [h]; rfl
        · rfl
      refine ⟨s', [], h1, heaped_move hh r hr hl to hto s' h2 h4 ?_ hren, ?_, ?_⟩
      · intro i; rw [h3]; split <;> rfl
      · intro i; rw [h3]; split
        · exact hs r
        · exact hs i
      · refine ⟨by omega, fun i j hi hj => ⟨j, denotes_move hren i j hj, ?_⟩⟩
        rw [h3]
        split
        · rename_i h; rw [h]; exact ⟨fun _ h => h, id, id, id, id, Int.le_refl _⟩
        · exact ⟨fun _ h => h, id, id, id, id, Int.le_refl _⟩
    | some t =>
      obtain ⟨htc, htn, htl⟩ := hh.tblOk to t hto
      have hrt : r ≠ t := fun e => hne (by rw [e, htn])
      obtain ⟨s', h1, h2, h3, h4, h5, h6⟩ := rehash_join s hs r t to hne hl ht hto hrt
      have hren : ∀ i, i ≠ r → (s'.node i).renamed = (s.node i).renamed := fun i hi => by
        by_cases hit : i = t
        · rw [hit, h4]; rfl
        · rw [h5 i hi hit]
      have hrr : (s'.node r).renamed = some t := by rw [h3]
      refine ⟨s', _, h1, heaped_join hh r t hr hl hrt (by rw [htn]; exact hto) s' h2 h6 ?_ hrr hren, ?_, ?_⟩
      · intro i hi
        by_cases hit : i = t
        · rw [hit, h4]; rfl
        · rw [h5 i hi hit]
      · intro i
        by_cases hi : i = r
        · rw [hi, h3]; exact hs r
        · by_cases hit : i = t
          · rw [hit, h4]; simp [mergedNode, movedNode, hs t, hs r]
          · rw [h5 i hi hit]; exact hs i
      · refine ⟨by omega, fun i j hi hj => ?_⟩
        obtain ⟨fuel, hf⟩ := follow_of_denotes s i j hj
        have := follow_join s s' r t hrt hl htl hrr hren fuel i j hf
        refine ⟨_, denotes_of_follow s' _ i _ this, ?_⟩
        by_cases hjr : j = r
        · subst hjr
          simp only [if_true, h4, mergedNode, movedNode, RFlags.merge]
          refine ⟨fun d hd => List.mem_append.mpr (Or.inr hd), ?_, fun h => by simp [h], fun h => by simp [h],
            fun h => by simp [h], ?_⟩
          · cases (s.node t).cmds <;> simp
          · exact (later_le _ _).1
        · simp only [hjr, if_false]
          by_cases hjt : j = t
          · subst hjt
            simp only [h4, mergedNode, movedNode, RFlags.merge]
            refine ⟨fun d hd => List.mem_append.mpr (Or.inl hd), ?_, fun h => by simp [h], fun h => by simp [h],
              fun h => by simp [h], ?_⟩
            · cases (s.node j).cmds <;> simp
            · exact (later_le _ _).2
          · rw [h5 j hjr hjt]
            exact ⟨fun _ h => h, id, id, id, id, Int.le_refl _⟩

theorem rename_ok (s : RState) (hh : Heaped s) (hs : Single s) (r : Nat) (hr : r < s.count) (hl : (s.node r).renamed = none)
    (to : Str) : ∃ s' ms, renameFile s r to = .ok s' ms ∧ Heaped s' ∧ Single s' ∧ RecGrows s s' := by
  obtain ⟨s', ms, h1, h2, h3, h4⟩ := rehash_ok s hh hs r hr hl to
  have hp := setNames_samePtr s' s'.count (some r)
  refine ⟨_, ms, by simp only [renameFile, h1], hp.heaped h2, hp.single h3, h4.trans (grows_same hp ?_ ?_ ?_ ?_)⟩
  · intro i; exact (setNames_rest s' _ _ i).1
  · intro i; exact (setNames_rest s' _ _ i).2.1
  · intro i; exact (setNames_rest s' _ _ i).2.2.1
  · intro i; exact (setNames_rest s' _ _ i).2.2.2

theorem denotes_lt (s : RState) (hh : Heaped s) (i j : Nat) (hi : i < s.count) (hd : Denotes s i j) : j < s.count := by
  induction hd with
  | here i h => exact hi
  | step i k j hk _ ih =>
    obtain ⟨rank, _, h2⟩ := hh.rank
    exact ih (h2 i hi k hk).1

theorem enter_ok (s : RState) (hh : Heaped s) (hs : Single s) (n : Str) :
    Heaped (enterNode s n).1 ∧ Single (enterNode s n).1 ∧ RecGrows s (enterNode s n).1 := by
  unfold enterNode
  cases h : s.tbl n with
  | none =>
    simp only
    have hnode : ∀ i, i ≠ s.count →
        ((({ s with count := s.count + 1 } : RState).upd s.count { name := n, hname := n, last := some s.count }).put n
          (some s.count)).node i = s.node i := fun i hi => by simp [RState.upd, RState.put, hi]
    refine ⟨heaped_enter hh n h { name := n, hname := n, last := some s.count } rfl rfl _ rfl rfl rfl, fun i => ?_, ?_⟩
    · by_cases hi : i = s.count
      · simp [RState.upd, RState.put, hi]
      · rw [hnode i hi]; exact hs i
    · refine ⟨Nat.le_succ _, fun i j hi hj => ⟨j, ?_, ?_⟩⟩
      · have key : ∀ i j, i < s.count → Denotes s i j → Denotes ((({ s with count := s.count + 1 } : RState).upd s.count
            { name := n, hname := n, last := some s.count }).put n (some s.count)) i j := by
          intro i j hi hj
          induction hj with
          | here i hn => exact .here i (by rw [hnode i (by omega)]; exact hn)
          | step i k j hk _ ih =>
            obtain ⟨rank, _, h2⟩ := hh.rank
            exact .step i k j (by rw [hnode i (by omega)]; exact hk) (ih (h2 i hi k hk).1)
        exact key i j hi hj
      · have := denotes_lt s hh i j hi hj
        rw [hnode j (by omega)]
        exact ⟨fun _ h => h, id, id, id, id, Int.le_refl _⟩
  | some f =>
    simp only [hs f, if_true]
    have hp := upd_samePtr s f { s.node f with builtin := false, doubleColon := none } rfl rfl (hs f).symm
    refine ⟨hp.heaped hh, hp.single hs, grows_same hp ?_ ?_ ?_ ?_⟩ <;>
    · intro i
      simp only [RState.upd]
      by_cases hi : i = f
      · simp [hi]
      · simp [hi]

theorem rstep_ok (s : RState) (hh : Heaped s) (hs : Single s) (op : ROp) :
    ∃ s' ms, rstep s op = .ok s' ms ∧ Heaped s' ∧ Single s' ∧ s.count ≤ s'.count ∧
      ((∀ i g, op ≠ .edit i g) → RecGrows s s') := by
  cases op with
  | enter n =>
    obtain ⟨h1, h2, h3⟩ := enter_ok s hh hs n
    exact ⟨_, _, rfl, h1, h2, h3.count, fun _ => h3⟩
  | edit i g =>
    have hp := upd_samePtr s i (editNode g (s.node i)) rfl rfl rfl
    exact ⟨_, _, rfl, hp.heaped hh, hp.single hs, Nat.le_refl _, fun h => absurd rfl (h i g)⟩
  | rehash i to =>
    simp only [rstep]
    split
    · rename_i hi
      obtain ⟨r, h1, h2, h3⟩ := hh.follow i hi
      rw [h1]
      obtain ⟨s', ms, g1, g2, g3, g4⟩ := rehash_ok s hh hs r h2 h3 to
      exact ⟨s', ms, g1, g2, g3, g4.count, fun _ => g4⟩
    · exact ⟨s, [], rfl, hh, hs, Nat.le_refl _, fun _ => RecGrows.refl s⟩
  | rename i to =>
    simp only [rstep]
    split
    · rename_i hi
      obtain ⟨r, h1, h2, h3⟩ := hh.follow i hi
      rw [h1]
      obtain ⟨s', ms, g1, g2, g3, g4⟩ := rename_ok s hh hs r h2 h3 to
      exact ⟨s', ms, g1, g2, g3, g4.count, fun _ => g4⟩
    · exact ⟨s, [], rfl, hh, hs, Nat.le_refl _, fun _ => RecGrows.refl s⟩

theorem rrun_ok (s : RState) (hh : Heaped s) (hs : Single s) (ops : List ROp) :
    ∃ s' ms, rrun s ops = .ok s' ms ∧ Heaped s' ∧ Single s' ∧ s.count ≤ s'.count ∧
      ((∀ op ∈ ops, ∀ i g, op ≠ .edit i g) → RecGrows s s') := by
  induction ops generalizing s with
  | nil => exact ⟨s, [], rfl, hh, hs, Nat.le_refl _, fun _ => RecGrows.refl s⟩
  | cons op ops ih =>
    obtain ⟨s1, ms1, h1, h2, h3, h4, h5⟩ := rstep_ok s hh hs op
    obtain ⟨s2, ms2, g1, g2, g3, g4, g5⟩ := ih s1 h2 h3
    refine ⟨s2, ms1 ++ ms2, by simp only [rrun, h1, g1], g2, g3, Nat.le_trans h4 g4, fun h => ?_⟩
    exact (h5 fun i g => h op (by simp) i g).trans (g5 fun o ho => h o (by simp [ho]))

theorem reached_ok (s : RState) (h : Reached s) : Heaped s ∧ Single s := by
  obtain ⟨ops, ms, h⟩ := h
  obtain ⟨s', ms', h1, h2, h3, -⟩ := rrun_ok RState.empty heaped_empty single_empty ops
  rw [h] at h1
  cases h1
  exact ⟨h2, h3⟩

/-- **C121** (partial: no double-colon rules) Whatever names are entered, however records change, and whatever files are
found under whatever names in whatever order: make never aborts and never loops.  Every reference means exactly one record, and
that is the one that is found by its name; what is found by a name is a record with this name, not one that is gone. -/
theorem C121_history_partial (ops : List ROp) :
    ∃ s ms, rrun RState.empty ops = .ok s ms ∧
      (∀ i, i < s.count → ∃ j, Denotes s i j ∧ (∀ k, Denotes s i k → k = j) ∧ s.tbl (s.node j).hname = some j) ∧
      (∀ n j, s.tbl n = some j → j < s.count ∧ (s.node j).hname = n ∧ Denotes s j j) := by
  obtain ⟨s, ms, h1, h2, h3, -⟩ := rrun_ok RState.empty heaped_empty single_empty ops
  refine ⟨s, ms, h1, fun i hi => ?_, fun n j hj => ?_⟩
  · obtain ⟨j, g1, g2, g3⟩ := h2.follow i hi
    have hd := denotes_of_follow s _ i j g1
    exact ⟨j, hd, fun k hk => denotes_fun s i k j hk hd, h2.live j g2 g3⟩
  · obtain ⟨a, b, c⟩ := h2.tblOk n j hj
    exact ⟨a, b, .here j c⟩

/-- **C121** (partial: no double-colon rules) Nothing is forgotten by renaming: after any number of files were found under other
names (and other names entered), what a reference means has all prerequisites it had before, a recipe if it had one, is still
a target, precious and phony if it was, and is not older. -/
theorem C121_kept_partial (s : RState) (hr : Reached s) (ops : List ROp) (hops : ∀ op ∈ ops, ∀ i g, op ≠ .edit i g) :
    ∃ s' ms, rrun s ops = .ok s' ms ∧ ∀ i j, i < s.count → Denotes s i j → ∃ j', Denotes s' i j' ∧
      (∀ d ∈ (s.node j).deps, d ∈ (s'.node j').deps) ∧ ((s.node j).cmds.isSome → (s'.node j').cmds.isSome) ∧
      ((s.node j).flags.isTarget = true → (s'.node j').flags.isTarget = true) ∧
      ((s.node j).flags.precious = true → (s'.node j').flags.precious = true) ∧
      ((s.node j).flags.phony = true → (s'.node j').flags.phony = true) ∧
      (s.node j).lastMtime ≤ (s'.node j').lastMtime := by
  obtain ⟨hh, hs⟩ := reached_ok s hr
  obtain ⟨s', ms, h1, -, -, -, h5⟩ := rrun_ok s hh hs ops
  exact ⟨s', ms, h1, (h5 hops).keeps⟩

/-- **C121** (partial: no double-colon rules) A file that is found under a name no file has: it has this name from now on and not the old
one, nothing else about it changes but that it is no longer built in, and nothing changes about other files. -/
theorem C121_new_name_partial (s : RState) (hr : Reached s) (r : Nat) (hc : r < s.count) (hl : Denotes s r r) (to : Str)
    (hne : (s.node r).hname ≠ to) (hto : s.tbl to = none) :
    ∃ s', rehashFile s r to = .ok s' [] ∧ s'.tbl to = some r ∧ s'.tbl (s.node r).hname = none ∧
      (∀ m, m ≠ to → m ≠ (s.node r).hname → s'.tbl m = s.tbl m) ∧
      s'.node r = { s.node r with builtin := false, hname := to } ∧ (∀ i, i ≠ r → s'.node i = s.node i) ∧
      ∀ i j, Denotes s i j → Denotes s' i j := by
  obtain ⟨hh, hs⟩ := reached_ok s hr
  have hl' := denotes_live s r r hl
  obtain ⟨s', h1, h2, h3, h4⟩ := rehash_move s hs r to hne hl' (hh.live r hc hl') hto
  have hren : ∀ i, (s'.node i).renamed = (s.node i).renamed := fun i => by
    rw [h3]; split
    · rename_i h; rw [h]; rfl
    · rfl
  exact ⟨s', h1, by simp [h4], by simp [h4, hne], fun m a b => by simp [h4, a, b], by simp [h3, movedNode],
    fun i hi => by simp [h3, hi], fun i j hd => denotes_move hren i j hd⟩

/-- **C121** (partial: no double-colon rules) A file that is found under the name of another file becomes one with it: the record of that
name has the prerequisites of both in order, its own recipe or else that of the found file, the later time, the marks of
either; the name is its own.  The old name is free, everything that meant either file now means this one, and nothing else
changes.  A message comes iff both had recipes and not the same. -/
theorem C121_one_file_partial (s : RState) (hr : Reached s) (r t : Nat) (hc : r < s.count) (hl : Denotes s r r) (to : Str)
    (hne : (s.node r).hname ≠ to) (hto : s.tbl to = some t) :
    ∃ s' ms, rehashFile s r to = .ok s' ms ∧ s'.tbl to = some t ∧ s'.tbl (s.node r).hname = none ∧
      (∀ m, m ≠ (s.node r).hname → s'.tbl m = s.tbl m) ∧
      (s'.node t).name = (s.node t).name ∧ (s'.node t).hname = to ∧
      (s'.node t).deps = (s.node t).deps ++ (s.node r).deps ∧
      (s'.node t).cmds = (s.node t).cmds.or (s.node r).cmds ∧
      (s'.node t).lastMtime = max (s.node t).lastMtime (s.node r).lastMtime ∧
      (s'.node t).mtimeBefore = (s.node r).mtimeBefore ∧
      (∀ bit ∈ [RFlags.precious, RFlags.triedImplicit, RFlags.updating, RFlags.updated, RFlags.isTarget, RFlags.cmdTarget,
          RFlags.phony, RFlags.loaded, RFlags.ignoreVpath],
        bit (s'.node t).flags = (bit (s.node t).flags || bit (s.node r).flags)) ∧
      (∀ i, i ≠ r → i ≠ t → s'.node i = s.node i) ∧
      (∀ i j, Denotes s i j → Denotes s' i (if j = r then t else j)) ∧
      (ms ≠ [] ↔ ∃ c c', (s.node r).cmds = some c ∧ (s.node t).cmds = some c' ∧ c ≠ c') := by
  obtain ⟨hh, hs⟩ := reached_ok s hr
  have hl' := denotes_live s r r hl
  obtain ⟨htc, htn, htl⟩ := hh.tblOk to t hto
  have hrt : r ≠ t := fun e => hne (by rw [e, htn])
  obtain ⟨s', h1, h2, h3, h4, h5, h6⟩ := rehash_join s hs r t to hne hl' (hh.live r hc hl') hto hrt
  have hren : ∀ i, i ≠ r → (s'.node i).renamed = (s.node i).renamed := fun i hi => by
    by_cases hit : i = t
    · rw [hit, h4]; rfl
    · rw [h5 i hi hit]
  refine ⟨s', _, h1, ?_, by simp [h6], fun m hm => by simp [h6, hm], by rw [h4]; rfl, by rw [h4]; exact htn, by rw [h4]; rfl,
    ?_, ?_, by rw [h4]; rfl, ?_, h5, fun i j hd => ?_, ?_⟩
  · have : ¬ to = (s.node r).hname := fun e => hne e.symm
    simp [h6, this, hto]
  · rw [h4]; simp only [mergedNode, movedNode]
    cases (s.node t).cmds <;> rfl
  · rw [h4]; exact later_max _ _
  · intro bit hb
    rw [h4]
    simp only [List.mem_cons, List.not_mem_nil, or_false] at hb
    rcases hb with rfl | rfl | rfl | rfl | rfl | rfl | rfl | rfl | rfl <;> rfl
  · obtain ⟨fuel, hf⟩ := follow_of_denotes s i j hd
    exact denotes_of_follow s' _ i _ (follow_join s s' r t hrt hl' htl (by rw [h3]) hren fuel i j hf)
  · simp only [recipeMsgs, movedNode]
    cases (s.node r).cmds with
    | none => simp
    | some c =>
      cases (s.node t).cmds with
      | none => simp
      | some c' =>
        simp only
        split
        · rename_i h; simp [h]
        · rename_i h; simp only [ne_eq, Decidable.not_not] at h; simp [h]

/-- A run that meets the hypotheses: `foo` (with a recipe and a prerequisite) is found as `src/foo`, which has a prerequisite. -/
def exRenameOps : List ROp :=
  [.enter "foo".toList, .enter "a".toList, .enter "src/foo".toList, .enter "b".toList,
   .edit 0 fun n => { n with deps := [1], cmds := some 7, flags := { isTarget := true } },
   .edit 2 fun n => { n with deps := [3], flags := { precious := true } },
   .rehash 0 "src/foo".toList, .rename 0 "lib/foo".toList]

example : ∃ s ms, rrun RState.empty exRenameOps = .ok s ms ∧ s.tbl "lib/foo".toList = some 2 ∧ s.tbl "foo".toList = none ∧
    s.tbl "src/foo".toList = none ∧ (s.node 2).deps = [3, 1] ∧ (s.node 2).cmds = some 7 ∧ Denotes s 0 2 ∧ (s.node 2).name = "lib/foo".toList := by
  refine ⟨_, _, rfl, by decide, by decide, by decide, by decide, by decide, ?_, by decide⟩
  exact .step 0 2 2 (by decide) (.here 2 (by decide))

/-- **C121** The found name of `rename_file` becomes the name of the file itself (in messages, in `$@`), also for all the
records of a double-colon file; `rehash_file` leaves it. -/
theorem C121_permanent (s : RState) (r : Nat) (to : Str) (s' : RState) (ms : List RMsg) (h : rehashFile s r to = .ok s' ms)
    (c : List Nat) (hc : RulesOf s' (some r) c) (hlen : c.length ≤ s'.count) (hd : c.Nodup) :
    ∃ s'', renameFile s r to = .ok s'' ms ∧ (∀ i ∈ c, (s''.node i).name = (s'.node i).hname) ∧
      ∀ i, i ∉ c → s''.node i = s'.node i := by
  refine ⟨setNames s' s'.count (some r), by simp [renameFile, h], ?_⟩
  have key : ∀ (fuel : Nat) (c : List Nat) (s : RState) (o : Option Nat), RulesOf s o c → c.length ≤ fuel → c.Nodup →
      (∀ i ∈ c, ((setNames s fuel o).node i).name = (s.node i).hname) ∧
      ∀ i, i ∉ c → (setNames s fuel o).node i = s.node i := by
    intro fuel
    induction fuel with
    | zero =>
      intro c s o hc hl hn
      have : c = [] := List.length_eq_zero_iff.mp (by omega)
      subst this
      exact ⟨by simp, fun i _ => rfl⟩
    | succ fuel ih =>
      intro c s o hc hl hn
      cases hc with
      | nil => exact ⟨by simp, fun i _ => rfl⟩
      | cons k c hc' =>
        have hk : k ∉ c := (List.nodup_cons.mp hn).1
        have hch : ∀ (c : List Nat) (o : Option Nat), RulesOf s o c →
            RulesOf (s.upd k { s.node k with name := (s.node k).hname }) o c := by
          intro c o h
          induction h with
          | nil => exact .nil
          | cons i c h ih =>
            refine .cons i c ?_
            have : ((s.upd k { s.node k with name := (s.node k).hname }).node i).prev = (s.node i).prev := by
              simp only [RState.upd]
              by_cases hi : i = k <;> simp [hi]
            rw [this]; exact ih
        obtain ⟨g1, g2⟩ := ih c (s.upd k { s.node k with name := (s.node k).hname }) (s.node k).prev (hch c _ hc')
          (by simpa using hl) (List.nodup_cons.mp hn).2
        refine ⟨fun i hi => ?_, fun i hi => ?_⟩
        · show ((setNames (s.upd k { s.node k with name := (s.node k).hname }) fuel (s.node k).prev).node i).name = _
          by_cases hic : i ∈ c
          · rw [g1 i hic]
            simp only [RState.upd]
            by_cases hik : i = k <;> simp [hik]
          · have : i = k := by simpa [hic] using hi
            subst this
            rw [g2 i hic]
            simp [RState.upd]
        · simp only [List.mem_cons, not_or] at hi
          show (setNames (s.upd k { s.node k with name := (s.node k).hname }) fuel (s.node k).prev).node i = _
          rw [g2 i hi.2]
          simp [RState.upd, hi.1]
  exact key s'.count c s' (some r) hc hlen hd

/-- **C121** The sets of variables: a variable has the value of the file whose name is kept if it has one there, else that
of the found file, else what the wider scopes say. -/
theorem C121_variables (t f : FScope) (ts : List FScope) (v x : Str) :
    ValueIn (mergeScopes (t :: ts) [f]) v x ↔ ValueIn (t :: f :: ts) v x := by
  have hl : ∀ v, (mergeScope t f).lookup v = (t.lookup v).or (f.lookup v) := by
    intro v
    have hf : ∀ g : FScope, t.lookup v = none → (g.filter fun p => (t.lookup p.1).isNone).lookup v = g.lookup v := by
      intro g hn
      induction g with
      | nil => rfl
      | cons p g ih =>
        obtain ⟨a, b⟩ := p
        by_cases hav : v = a
        · subst hav
          simp [hn, List.lookup]
        · have hb : (v == a) = false := by simpa using hav
          by_cases hp : (t.lookup a).isNone
          · simp only [List.filter_cons, hp, if_true, List.lookup, hb]; exact ih
          · simp only [List.filter_cons, hp, List.lookup, hb]; exact ih
    unfold mergeScope
    rw [List.lookup_append]
    cases h : t.lookup v with
    | none => simp [hf f h]
    | some y => simp
  simp only [mergeScopes]
  have hm : mergeScopes ts [] = ts := by cases ts <;> rfl
  rw [hm]
  constructor
  · intro h
    cases h with
    | first _ _ _ _ h =>
      rw [hl] at h
      cases ht : t.lookup v with
      | some y => rw [ht] at h; exact .first _ _ _ _ (by rw [ht]; simpa using h)
      | none => rw [ht] at h; exact .later _ _ _ _ ht (.first _ _ _ _ (by simpa using h))
    | later _ _ _ _ h h' =>
      rw [hl] at h
      cases ht : t.lookup v with
      | some y => rw [ht] at h; simp at h
      | none => rw [ht] at h; exact .later _ _ _ _ ht (.later _ _ _ _ (by simpa using h) h')
  · intro h
    cases h with
    | first _ _ _ _ h => exact .first _ _ _ _ (by rw [hl, h]; rfl)
    | later _ _ _ _ h h' =>
      cases h' with
      | first _ _ _ _ g => exact .first _ _ _ _ (by rw [hl, h, g]; rfl)
      | later _ _ _ _ g g' => exact .later _ _ _ _ (by rw [hl, h, g]; rfl) g'

/-- The sets of the record that is kept after a merge are the merged sets. -/
theorem C121_variables_kept (f t : FNode) : (mergedNode f t).vars = mergeScopes t.vars f.vars ∧
    (t.vars = [] → (mergedNode f t).vars = f.vars) ∧ (f.vars = [] → (mergedNode f t).vars = t.vars) := by
  refine ⟨rfl, fun h => ?_, fun h => ?_⟩
  · simp [mergedNode, h, mergeScopes]
  · simp only [mergedNode, h]; cases t.vars <;> rfl

example : ValueIn (mergeScopes [[("X".toList, "1".toList)]] [[("X".toList, "2".toList), ("Y".toList, "3".toList)]]) "Y".toList "3".toList :=
  .first _ _ _ _ (by decide)

end Remake
