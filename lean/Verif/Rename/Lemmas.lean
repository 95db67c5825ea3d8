import Verif.Rename.Model
/-! The pointers between records stay in order. -/
set_option linter.unusedVariables false
set_option linter.unusedSimpArgs false
namespace Remake

/-- No record is a double-colon record. -/
def Single (s : RState) : Prop := ∀ i, (s.node i).doubleColon = none

/-- The number of records that were not renamed into another one. -/
def liveCount (s : RState) : Nat := (List.range s.count).countP fun i => (s.node i).renamed.isNone

/-- The pointers are in order: the table has live records under their names, every live record is there, and `renamed`
pointers lead up. -/
structure Heaped (s : RState) : Prop where
  tblOk : ∀ n i, s.tbl n = some i → i < s.count ∧ (s.node i).hname = n ∧ (s.node i).renamed = none
  live : ∀ i, i < s.count → (s.node i).renamed = none → s.tbl (s.node i).hname = some i
  rank : ∃ rank : Nat → Nat, (∀ i, i < s.count → rank i + liveCount s ≤ s.count) ∧
    ∀ i, i < s.count → ∀ j, (s.node i).renamed = some j → j < s.count ∧ rank i < rank j

/-- Two states that differ only in what does not matter for pointers. -/
structure SamePtr (s s' : RState) : Prop where
  count : s'.count = s.count
  tbl : s'.tbl = s.tbl
  hname : ∀ i, (s'.node i).hname = (s.node i).hname
  renamed : ∀ i, (s'.node i).renamed = (s.node i).renamed
  dc : ∀ i, (s'.node i).doubleColon = (s.node i).doubleColon

theorem SamePtr.refl (s : RState) : SamePtr s s := ⟨rfl, rfl, fun _ => rfl, fun _ => rfl, fun _ => rfl⟩

theorem SamePtr.trans {a b c : RState} (h : SamePtr a b) (h' : SamePtr b c) : SamePtr a c :=
  ⟨h'.count.trans h.count, h'.tbl.trans h.tbl, fun i => (h'.hname i).trans (h.hname i),
   fun i => (h'.renamed i).trans (h.renamed i), fun i => (h'.dc i).trans (h.dc i)⟩

theorem SamePtr.follow {s s' : RState} (h : SamePtr s s') (fuel i : Nat) :
    followRenamed s' fuel i = followRenamed s fuel i := by
  induction fuel generalizing i with
  | zero => rfl
  | succ fuel ih =>
    simp only [followRenamed, h.renamed i]
    cases (s.node i).renamed with
    | none => rfl
    | some j => exact ih j

theorem SamePtr.single {s s' : RState} (h : SamePtr s s') (hs : Single s) : Single s' :=
  fun i => (h.dc i).trans (hs i)

theorem SamePtr.liveCount {s s' : RState} (h : SamePtr s s') : liveCount s' = liveCount s := by
  unfold Remake.liveCount
  rw [h.count]
  congr 1
  funext i
  rw [h.renamed i]

theorem SamePtr.heaped {s s' : RState} (h : SamePtr s s') (hs : Heaped s) : Heaped s' := by
  refine ⟨fun n i hi => ?_, fun i hi hr => ?_, ?_⟩
  · rw [h.tbl] at hi
    rw [h.count, h.hname, h.renamed]
    exact hs.tblOk n i hi
  · rw [h.count] at hi
    rw [h.renamed] at hr
    rw [h.tbl, h.hname]
    exact hs.live i hi hr
  · obtain ⟨rank, h1, h2⟩ := hs.rank
    refine ⟨rank, fun i hi => ?_, fun i hi j hj => ?_⟩
    · rw [h.count] at hi ⊢
      rw [h.liveCount]
      exact h1 i hi
    · rw [h.count] at hi ⊢
      rw [h.renamed] at hj
      exact h2 i hi j hj

theorem upd_samePtr (s : RState) (i : Nat) (n : FNode) (h1 : n.hname = (s.node i).hname)
    (h2 : n.renamed = (s.node i).renamed) (h3 : n.doubleColon = (s.node i).doubleColon) : SamePtr s (s.upd i n) := by
  refine ⟨rfl, rfl, fun j => ?_, fun j => ?_, fun j => ?_⟩ <;>
  · simp only [RState.upd]
    by_cases hj : j = i
    · subst hj; simp [h1, h2, h3]
    · simp [hj]

theorem setNames_samePtr (s : RState) (fuel : Nat) (o : Option Nat) : SamePtr s (setNames s fuel o) := by
  induction fuel generalizing s o with
  | zero => exact SamePtr.refl s
  | succ fuel ih =>
    cases o with
    | none => exact SamePtr.refl s
    | some i =>
      have h := upd_samePtr s i { s.node i with name := (s.node i).hname } rfl rfl rfl
      exact h.trans (ih _ _)

theorem setHnames_none (s : RState) (to : Str) (fuel : Nat) : setHnames s to fuel none = s := by
  cases fuel <;> rfl

/-- Following pointers, the end is found with the fuel that is given. -/
theorem follow_rank (s : RState) (rank : Nat → Nat) (top : Nat) (hb : ∀ i, i < s.count → rank i ≤ top)
    (hr : ∀ i, i < s.count → ∀ j, (s.node i).renamed = some j → j < s.count ∧ rank i < rank j)
    (fuel i : Nat) (hi : i < s.count) (hf : top < fuel + rank i) :
    ∃ j, followRenamed s fuel i = some j ∧ j < s.count ∧ (s.node j).renamed = none := by
  induction fuel generalizing i with
  | zero => have := hb i hi; omega
  | succ fuel ih =>
    cases h : (s.node i).renamed with
    | none => exact ⟨i, by simp [followRenamed, h], hi, h⟩
    | some k =>
      obtain ⟨h1, h2⟩ := hr i hi k h
      obtain ⟨j, h3, h4⟩ := ih k h1 (by omega)
      exact ⟨j, by simp [followRenamed, h, h3], h4⟩

theorem Heaped.follow {s : RState} (h : Heaped s) (i : Nat) (hi : i < s.count) :
    ∃ j, followRenamed s (s.count + 1) i = some j ∧ j < s.count ∧ (s.node j).renamed = none := by
  obtain ⟨rank, h1, h2⟩ := h.rank
  exact follow_rank s rank s.count (fun i hi => by have := h1 i hi; omega) h2 _ i hi (by omega)

theorem follow_live (s : RState) (fuel i : Nat) (h : (s.node i).renamed = none) :
    followRenamed s (fuel + 1) i = some i := by simp [followRenamed, h]

/-- More fuel gives the same end. -/
theorem follow_mono (s : RState) (fuel fuel' i j : Nat) (h : followRenamed s fuel i = some j) (hle : fuel ≤ fuel') :
    followRenamed s fuel' i = some j := by
  induction fuel generalizing i fuel' with
  | zero => simp [followRenamed] at h
  | succ fuel ih =>
    obtain ⟨k, rfl⟩ : ∃ k, fuel' = k + 1 := ⟨fuel' - 1, by omega⟩
    simp only [followRenamed] at h ⊢
    cases hr : (s.node i).renamed with
    | none => simpa [hr] using h
    | some n =>
      rw [hr] at h
      exact ih k n h (by omega)

theorem follow_end (s : RState) (fuel i j : Nat) (h : followRenamed s fuel i = some j) : (s.node j).renamed = none := by
  induction fuel generalizing i with
  | zero => simp [followRenamed] at h
  | succ fuel ih =>
    simp only [followRenamed] at h
    cases hr : (s.node i).renamed with
    | none =>
      rw [hr] at h
      have : i = j := by simpa using h
      exact this ▸ hr
    | some n =>
      rw [hr] at h
      exact ih n h

/-- After `r` was renamed into `t`, what led to `r` leads to `t`, everything else where it led. -/
theorem follow_join (s s' : RState) (r t : Nat) (hrt : r ≠ t) (hr : (s.node r).renamed = none) (ht : (s.node t).renamed = none)
    (hr' : (s'.node r).renamed = some t) (ho : ∀ i, i ≠ r → (s'.node i).renamed = (s.node i).renamed)
    (fuel i j : Nat) (h : followRenamed s fuel i = some j) :
    followRenamed s' (fuel + 1) i = some (if j = r then t else j) := by
  induction fuel generalizing i with
  | zero => simp [followRenamed] at h
  | succ fuel ih =>
    simp only [followRenamed] at h
    by_cases hi : i = r
    · subst hi
      rw [hr] at h
      have hj : j = i := by simpa using h.symm
      subst hj
      have ht' : (s'.node t).renamed = none := by rw [ho t (Ne.symm hrt)]; exact ht
      simp [followRenamed, hr', ht']
    · cases hn : (s.node i).renamed with
      | none =>
        rw [hn] at h
        have hj : j = i := by simpa using h.symm
        subst hj
        rw [follow_live s' _ j (by rw [ho j hi]; exact hn), if_neg hi]
      | some n =>
        rw [hn] at h
        have := ih n h
        rw [followRenamed.eq_def]
        simp only [ho i hi, hn]
        exact this

theorem countP_drop (p p' : Nat → Bool) (r n : Nat) (hr : r < n) (h1 : p r = true) (h2 : p' r = false)
    (ho : ∀ i, i ≠ r → p' i = p i) : (List.range n).countP p' + 1 = (List.range n).countP p := by
  induction n with
  | zero => omega
  | succ n ih =>
    rw [List.range_succ, List.countP_append, List.countP_append]
    by_cases hn : r = n
    · subst hn
      have hsame : (List.range r).countP p' = (List.range r).countP p := by
        apply List.countP_congr
        intro x hx
        rw [ho x (by have := List.mem_range.mp hx; omega)]
      simp [hsame, h1, h2]
    · have := ih (by omega)
      have hnn : p' n = p n := ho n (fun h => hn h.symm)
      simp only [List.countP_cons, List.countP_nil, hnn]
      omega

theorem countP_same (p p' : Nat → Bool) (n : Nat) (h : ∀ i, i < n → p' i = p i) :
    (List.range n).countP p' = (List.range n).countP p := by
  apply List.countP_congr
  intro x hx
  rw [h x (List.mem_range.mp hx)]

theorem liveCount_le (s : RState) : liveCount s ≤ s.count := by
  have := List.countP_le_length (p := fun i => (s.node i).renamed.isNone) (l := List.range s.count)
  simpa [liveCount] using this

/-- The state after a move of `r` to a name that no record has. -/
theorem heaped_move {s : RState} (h : Heaped s) (r : Nat) (hr : r < s.count) (hl : (s.node r).renamed = none)
    (to : Str) (hto : s.tbl to = none) (s' : RState) (hc : s'.count = s.count)
    (ht : s'.tbl = fun m => if m = to then some r else if m = (s.node r).hname then none else s.tbl m)
    (hn : ∀ i, (s'.node i).hname = if i = r then to else (s.node i).hname)
    (hren : ∀ i, (s'.node i).renamed = (s.node i).renamed) : Heaped s' := by
  refine ⟨fun n i hi => ?_, fun i hi hri => ?_, ?_⟩
  · rw [ht] at hi
    rw [hc, hn, hren]
    by_cases h1 : n = to
    · simp only [h1, if_true, Option.some.injEq] at hi
      subst hi
      exact ⟨hr, by simp [h1], hl⟩
    · simp only [h1, if_false] at hi
      by_cases h2 : n = (s.node r).hname
      · simp [h2] at hi
      · simp only [h2, if_false] at hi
        obtain ⟨a, b, c⟩ := h.tblOk n i hi
        have : i ≠ r := fun e => h2 (by rw [← e, b])
        exact ⟨a, by simp [this, b], c⟩
  · rw [hc] at hi
    rw [hren] at hri
    rw [ht, hn]
    by_cases h1 : i = r
    · simp [h1]
    · have hh := h.live i hi hri
      have h2 : (s.node i).hname ≠ to := fun e => by rw [e, hto] at hh; cases hh
      have h3 : (s.node i).hname ≠ (s.node r).hname := fun e => by
        rw [e, h.live r hr hl] at hh
        exact h1 (Option.some.inj hh).symm
      simp [h1, h2, h3, hh]
  · obtain ⟨rank, h1, h2⟩ := h.rank
    have hlc : liveCount s' = liveCount s := by
      unfold liveCount
      rw [hc]
      exact countP_same _ _ _ fun i _ => by rw [hren]
    refine ⟨rank, fun i hi => ?_, fun i hi j hj => ?_⟩
    · rw [hc] at hi ⊢; rw [hlc]; exact h1 i hi
    · rw [hc] at hi ⊢; rw [hren] at hj; exact h2 i hi j hj

/-- The state after `r` was merged into `t`. -/
theorem heaped_join {s : RState} (h : Heaped s) (r t : Nat) (hr : r < s.count) (hl : (s.node r).renamed = none)
    (hrt : r ≠ t) (ht : s.tbl (s.node t).hname = some t) (s' : RState) (hc : s'.count = s.count)
    (htb : s'.tbl = fun m => if m = (s.node r).hname then none else s.tbl m)
    (hn : ∀ i, i ≠ r → (s'.node i).hname = (s.node i).hname)
    (hrr : (s'.node r).renamed = some t)
    (hren : ∀ i, i ≠ r → (s'.node i).renamed = (s.node i).renamed) : Heaped s' := by
  obtain ⟨htc, -, htl⟩ := h.tblOk _ _ ht
  refine ⟨fun n i hi => ?_, fun i hi hri => ?_, ?_⟩
  · rw [htb] at hi
    by_cases h2 : n = (s.node r).hname
    · simp [h2] at hi
    · simp only [h2, if_false] at hi
      obtain ⟨a, b, c⟩ := h.tblOk n i hi
      have : i ≠ r := fun e => h2 (by rw [← e, b])
      rw [hc, hn i this, hren i this]
      exact ⟨a, b, c⟩
  · by_cases h1 : i = r
    · rw [h1, hrr] at hri; cases hri
    · rw [hc] at hi
      rw [hren i h1] at hri
      have hh := h.live i hi hri
      have h3 : (s.node i).hname ≠ (s.node r).hname := fun e => by
        rw [e, h.live r hr hl] at hh
        exact h1 (Option.some.inj hh).symm
      rw [htb, hn i h1]
      simp [h3, hh]
  · obtain ⟨rank, h1, h2⟩ := h.rank
    have hlc : liveCount s' + 1 = liveCount s := by
      unfold liveCount
      rw [hc]
      exact countP_drop _ _ r _ hr (by simp [hl]) (by simp [hrr]) fun i hi => by rw [hren i hi]
    refine ⟨fun i => if i = t then max (rank t) (rank r + 1) else rank i, fun i hi => ?_, fun i hi j hj => ?_⟩
    · rw [hc] at hi ⊢
      have a := h1 i hi
      have b := h1 r hr
      by_cases hit : i = t
      · subst hit; simp only [if_true]; omega
      · simp only [hit, if_false]; omega
    · rw [hc] at hi ⊢
      by_cases hir : i = r
      · subst hir
        rw [hrr] at hj
        have : j = t := (Option.some.inj hj).symm
        subst this
        refine ⟨htc, ?_⟩
        simp only [hrt, if_false, if_true]
        omega
      · rw [hren i hir] at hj
        obtain ⟨a, b⟩ := h2 i hi j hj
        refine ⟨a, ?_⟩
        have hit : i ≠ t := fun e => by rw [e, htl] at hj; cases hj
        simp only [hit, if_false]
        by_cases hjt : j = t
        · subst hjt; simp only [if_true]; omega
        · simp only [hjt, if_false]; exact b

theorem heaped_enter {s : RState} (h : Heaped s) (n : Str) (hn : s.tbl n = none) (nd : FNode) (h1 : nd.hname = n)
    (h2 : nd.renamed = none) (s' : RState) (hc : s'.count = s.count + 1)
    (htb : s'.tbl = fun m => if m = n then some s.count else s.tbl m)
    (hnode : s'.node = fun i => if i = s.count then nd else s.node i) : Heaped s' := by
  refine ⟨fun m i hi => ?_, fun i hi hri => ?_, ?_⟩
  · rw [htb] at hi
    by_cases hm : m = n
    · simp only [hm, if_true, Option.some.injEq] at hi
      subst hi
      exact ⟨by omega, by simp [hnode, h1, hm], by simp [hnode, h2]⟩
    · simp only [hm, if_false] at hi
      obtain ⟨a, b, c⟩ := h.tblOk m i hi
      have : i ≠ s.count := by omega
      exact ⟨by omega, by simp [hnode, this, b], by simp [hnode, this, c]⟩
  · by_cases hi' : i = s.count
    · subst hi'; simp [hnode, htb, h1]
    · simp only [hnode, hi', if_false] at hri ⊢
      have hh := h.live i (by omega) hri
      have : (s.node i).hname ≠ n := fun e => by rw [e, hn] at hh; cases hh
      rw [htb]
      simp [this, hh]
  · obtain ⟨rank, r1, r2⟩ := h.rank
    have hlc : liveCount s' = liveCount s + 1 := by
      unfold liveCount
      rw [hc, List.range_succ, List.countP_append]
      congr 1
      · apply countP_same
        intro i hi
        have : i ≠ s.count := by omega
        simp [hnode, this]
      · simp [hnode, h2]
    refine ⟨fun i => if i = s.count then 0 else rank i, fun i hi => ?_, fun i hi j hj => ?_⟩
    · rw [hc] at hi ⊢
      rw [hlc]
      by_cases hi' : i = s.count
      · have := liveCount_le s; simp [hi']; omega
      · have := r1 i (by omega); simp only [hi', if_false]; omega
    · rw [hc] at hi ⊢
      by_cases hi' : i = s.count
      · simp [hnode, hi', h2] at hj
      · simp only [hnode, hi', if_false] at hj
        obtain ⟨a, b⟩ := r2 i (by omega) j hj
        have : j ≠ s.count := by omega
        exact ⟨by omega, by simp only [hi', this, if_false]; exact b⟩

theorem heaped_empty : Heaped RState.empty := by
  refine ⟨fun n i h => by simp [RState.empty] at h, fun i h => by simp [RState.empty] at h, fun _ => 0, ?_, ?_⟩
  · intro i h; simp [RState.empty] at h
  · intro i h; simp [RState.empty] at h

theorem single_empty : Single RState.empty := fun _ => rfl

end Remake
