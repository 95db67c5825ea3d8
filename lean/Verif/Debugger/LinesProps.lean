import Verif.Debugger.Lines
/-!
# Targets by line numbers: property theorems (C119)
-/
namespace Remake.Spec

/-- The items that come from the given line, in order. -/
def itemsAt (items : List (LineItem × LinePlace)) (name : Str) (line : Nat) : List LineItem :=
  (items.filter fun x => x.2 = some (name, line)).map (·.1)

/-- Every place is on a line of its makefile. -/
def Within (nlines : Str → Option Nat) (items : List (LineItem × LinePlace)) : Prop :=
  ∀ x ∈ items, ∀ name line n, x.2 = some (name, line) → nlines name = some n → line ≤ n

end Remake.Spec

namespace Remake
set_option linter.unusedVariables false
open Spec

variable {nlines : Str → Option Nat} {items : List (LineItem × LinePlace)} {tab tab' : LineTable} {name : Str}

/-! ## Lemmas -/

/-- All arrays have the length they were made with. -/
def Sized (nlines : Str → Option Nat) (tab : LineTable) : Prop := ∀ name cells, tab name = some cells → ∃ n, nlines name = some n ∧ cells.length = n + 1

/-- The content of a line. -/
def cellAt (tab : LineTable) (name : Str) (line : Nat) : Option LineItem := ((tab name).bind (·[line]?)).join

theorem enterLine_sized {line i} (hs : Sized nlines tab) (h : enterLine nlines tab name line i = some tab') : Sized nlines tab' := by
  unfold enterLine at h
  split at h
  · cases h; exact hs
  · rename_i n hn
    simp only at h
    split at h
    · cases h
      intro x cells hx
      simp only at hx
      split at hx
      · rename_i e
        subst e
        cases hx
        refine ⟨n, hn, ?_⟩
        rw [List.length_set]
        cases hc : tab x with
        | none => simp
        | some c =>
          obtain ⟨m, hm, hl⟩ := hs x c hc
          rw [hn] at hm; cases hm
          exact hl
      · exact hs x cells hx
    · cases h

theorem enterLine_within {line i n} (hs : Sized nlines tab) (hn : nlines name = some n) :
    (∃ tab', enterLine nlines tab name line i = some tab') ↔ line ≤ n := by
  have hl : ((tab name).getD (List.replicate (n + 1) none)).length = n + 1 := by
    cases hc : tab name with
    | none => simp
    | some c =>
      obtain ⟨m, hm, hl⟩ := hs name c hc
      rw [hn] at hm; cases hm
      exact hl
  unfold enterLine
  simp only [hn, hl]
  constructor
  · rintro ⟨t, h⟩
    split at h
    · omega
    · cases h
  · intro h
    rw [if_pos (by omega)]
    exact ⟨_, rfl⟩

theorem enterLine_cell {line i n} (hs : Sized nlines tab) (hn : nlines name = some n) (h : enterLine nlines tab name line i = some tab')
    (x : Str) (l : Nat) : cellAt tab' x l = if x = name ∧ l = line then some i else cellAt tab x l := by
  unfold enterLine at h
  simp only [hn] at h
  split at h
  · rename_i hlt
    cases h
    unfold cellAt
    by_cases hx : x = name
    · subst hx
      simp only [if_true]
      rw [Option.bind_some, List.getElem?_set]
      by_cases hl : line = l
      · subst hl
        rw [if_pos rfl, if_pos hlt]
        simp
      · rw [if_neg hl, if_neg (fun h => hl h.2.symm)]
        cases hc : tab x with
        | none => simp [List.getElem?_replicate]; split <;> rfl
        | some c => rfl
    · simp [hx]
  · cases h

theorem enterLine_some {line i n} (hn : nlines name = some n) (h : enterLine nlines tab name line i = some tab') (x : Str) :
    tab' x ≠ none ↔ (x = name ∨ tab x ≠ none) := by
  unfold enterLine at h
  simp only [hn] at h
  split at h
  · cases h
    simp only
    by_cases hx : x = name <;> simp [hx]
  · cases h

theorem buildLines_sized (hs : Sized nlines tab) (h : buildLines nlines items tab = some tab') : Sized nlines tab' := by
  induction items generalizing tab with
  | nil => cases h; exact hs
  | cons x r ih =>
    obtain ⟨i, pl⟩ := x
    cases pl with
    | none => exact ih hs h
    | some pl =>
      obtain ⟨nm, ln⟩ := pl
      simp only [buildLines] at h
      split at h
      · cases h
      · rename_i t ht
        exact ih (enterLine_sized hs ht) h

theorem buildLines_cell (hs : Sized nlines tab) (h : buildLines nlines items tab = some tab') {n : Nat} (hn : nlines name = some n) (line : Nat) :
    cellAt tab' name line = ((itemsAt items name line).getLast?).or (cellAt tab name line) := by
  induction items generalizing tab with
  | nil => cases h; rfl
  | cons x r ih =>
    obtain ⟨i, pl⟩ := x
    cases pl with
    | none =>
      rw [buildLines] at h
      rw [ih hs h]
      simp [itemsAt]
    | some pl =>
      obtain ⟨nm, ln⟩ := pl
      simp only [buildLines] at h
      split at h
      · cases h
      · rename_i t ht
        rw [ih (enterLine_sized hs ht) h]
        cases hm : nlines nm with
        | none =>
          have : nm ≠ name := by intro e; rw [e, hn] at hm; cases hm
          have htt : t = tab := by
            simp only [enterLine, hm] at ht
            exact (Option.some.inj ht).symm
          rw [htt]
          simp [itemsAt, this]
        | some m =>
          rw [enterLine_cell hs hm ht]
          by_cases hx : nm = name ∧ ln = line
          · obtain ⟨rfl, rfl⟩ := hx
            rw [if_pos ⟨rfl, rfl⟩]
            unfold itemsAt
            rw [List.filter_cons_of_pos (by simp), List.map_cons]
            cases hr : List.map (fun x => x.1) (List.filter (fun x => decide (x.2 = some (nm, ln))) r) with
            | nil => simp
            | cons a b => rw [List.getLast?_cons_cons]; simp [List.getLast?_cons]
          · rw [if_neg (fun h => hx ⟨h.1.symm, h.2.symm⟩)]
            unfold itemsAt
            rw [List.filter_cons_of_neg (by simp only [decide_eq_true_eq, Option.some.injEq, Prod.mk.injEq]; exact hx)]

theorem buildLines_some (hs : Sized nlines tab) : (∃ tab', buildLines nlines items tab = some tab') ↔ Within nlines items := by
  induction items generalizing tab with
  | nil => exact ⟨fun _ x hx => (by cases hx), fun _ => ⟨tab, rfl⟩⟩
  | cons x r ih =>
    obtain ⟨i, pl⟩ := x
    have tl : Within nlines ((i, pl) :: r) ↔ (∀ name line n, pl = some (name, line) → nlines name = some n → line ≤ n) ∧ Within nlines r := by
      unfold Within
      simp only [List.forall_mem_cons]
    rw [tl]
    cases pl with
    | none =>
      rw [buildLines, ih hs]
      simp
    | some pl =>
      obtain ⟨nm, ln⟩ := pl
      simp only [buildLines]
      cases hm : nlines nm with
      | none =>
        have : enterLine nlines tab nm ln i = some tab := by simp [enterLine, hm]
        simp only [this, ih hs]
        constructor
        · intro h
          refine ⟨?_, h⟩
          intro a b c hab hc
          cases hab
          rw [hm] at hc; cases hc
        · exact fun h => h.2
      | some m =>
        cases he : enterLine nlines tab nm ln i with
        | none =>
          simp only
          constructor
          · rintro ⟨t, h⟩; cases h
          · rintro ⟨h, _⟩
            obtain ⟨t, ht⟩ := (enterLine_within (i := i) hs hm).mpr (h nm ln m rfl hm)
            rw [ht] at he; cases he
        | some t =>
          simp only [ih (enterLine_sized hs he)]
          constructor
          · intro h
            refine ⟨?_, h⟩
            intro a b c hab hc
            cases hab
            rw [hm] at hc; cases hc
            exact (enterLine_within (i := i) hs hm).mp ⟨t, he⟩
          · exact fun h => h.2

theorem buildLines_known (h : buildLines nlines items tab = some tab') {n : Nat} (hn : nlines name = some n) :
    tab' name ≠ none ↔ (tab name ≠ none ∨ ∃ x ∈ items, ∃ line, x.2 = some (name, line)) := by
  induction items generalizing tab with
  | nil => cases h; simp
  | cons x r ih =>
    obtain ⟨i, pl⟩ := x
    cases pl with
    | none =>
      rw [buildLines] at h
      rw [ih h]
      simp
    | some pl =>
      obtain ⟨nm, ln⟩ := pl
      simp only [buildLines] at h
      split at h
      · cases h
      · rename_i t ht
        rw [ih h]
        cases hm : nlines nm with
        | none =>
          have : nm ≠ name := by intro e; rw [e, hn] at hm; cases hm
          have htt : t = tab := by
            simp only [enterLine, hm] at ht
            exact (Option.some.inj ht).symm
          rw [htt]
          simp [this]
        | some m =>
          rw [enterLine_some hm ht]
          by_cases hx : nm = name
          · subst hx; simp
          · simp [hx, Ne.symm hx]

theorem sized_empty : Sized nlines (fun _ => none) := fun _ _ h => by cases h

/-! ## Properties -/

/-- The table can be built, without a write outside of the arrays, exactly if every place is on a line of
its makefile. -/
theorem C119_build : (∃ tab, buildLines nlines items (fun _ => none) = some tab) ↔ Within nlines items := buildLines_some sized_empty

/-- On the lines of a makefile with a rule the lookup is safe, and gives the last of the items that come
from the line. -/
theorem C119_lookup_partial (h : buildLines nlines items (fun _ => none) = some tab) {n line : Nat} (hn : nlines name = some n)
    (hr : ∃ x ∈ items, ∃ l, x.2 = some (name, l)) (hl : line ≤ n) :
    lineLookup tab (some name) line = .found (itemsAt items name line).getLast? := by
  have hc := buildLines_cell sized_empty h hn line
  have hk := (buildLines_known h hn).mpr (.inr hr)
  cases ht : tab name with
  | none => exact absurd ht hk
  | some cells =>
    obtain ⟨m, hm, hlen⟩ := buildLines_sized sized_empty h name cells ht
    rw [hn] at hm; cases hm
    have hlt : line < cells.length := by omega
    unfold lineLookup
    simp only [ht, if_neg (show ¬ line > cells.length by omega), List.getElem?_eq_getElem hlt]
    rw [cellAt, ht] at hc
    simp only [Option.bind_some, List.getElem?_eq_getElem hlt, Option.join_some] at hc
    rw [hc]
    simp [cellAt]

/-- A breakpoint is never set at a target that the line does not define, for any line and makefile. -/
theorem C119_sound (h : buildLines nlines items (fun _ => none) = some tab) {line t : Nat} (hb : breakLine tab (some name) line = .target t) :
    (.target t, some (name, line)) ∈ items := by
  unfold breakLine lineLookup at hb
  cases ht : tab name with
  | none => simp [ht] at hb
  | some cells =>
    obtain ⟨n, hn, hlen⟩ := buildLines_sized sized_empty h name cells ht
    have hc := buildLines_cell sized_empty h hn line
    simp only [ht] at hb
    by_cases hlt : line < cells.length
    · simp only [if_neg (show ¬ line > cells.length by omega), List.getElem?_eq_getElem hlt] at hb
      rw [cellAt, ht] at hc
      simp only [Option.bind_some, List.getElem?_eq_getElem hlt, Option.join_some] at hc
      have he : cells[line] = some (.target t) := by
        cases hcell : cells[line] with
        | none => rw [hcell] at hb; cases hb
        | some i =>
          rw [hcell] at hb
          cases i with
          | target m => cases hb; rfl
          | pattern m => cases hb
      rw [he] at hc
      simp only [cellAt, Option.bind_none, Option.join_none, Option.or_none] at hc
      have := List.mem_of_getLast? hc.symm
      unfold itemsAt at this
      rw [List.mem_map] at this
      obtain ⟨⟨i, pl⟩, hi, rfl⟩ := this
      rw [List.mem_filter] at hi
      have e : pl = some (name, line) := by simpa using hi.2
      rw [← e]; exact hi.1
    · by_cases h1 : line > cells.length
      · simp [h1] at hb
      · rw [List.getElem?_eq_none (by omega)] at hb
        simp [h1] at hb

/-- If a target is the only thing that comes from a line, `break` and `list` with the number of the line
are about it. -/
theorem C119_unique_partial (h : buildLines nlines items (fun _ => none) = some tab) {n line t : Nat} (hn : nlines name = some n)
    (ht : itemsAt items name line = [.target t]) : breakLine tab (some name) line = .target t ∧ listLine tab (some name) line = .target t := by
  have hmem : (.target t, some (name, line)) ∈ items := by
    have : (.target t : LineItem) ∈ itemsAt items name line := by rw [ht]; exact List.mem_singleton_self _
    unfold itemsAt at this
    rw [List.mem_map] at this
    obtain ⟨⟨i, pl⟩, hi, he⟩ := this
    rw [List.mem_filter] at hi
    have e : pl = some (name, line) := by simpa using hi.2
    simp only at he
    rw [← e, ← he]; exact hi.1
  have hw := (C119_build.mp ⟨tab, h⟩) _ hmem name line n rfl hn
  have := C119_lookup_partial h hn ⟨_, hmem, line, rfl⟩ hw
  rw [ht] at this
  simp [breakLine, listLine, this]

/-- On a line of the makefile without a target or pattern rule both say so. -/
theorem C119_empty_partial (h : buildLines nlines items (fun _ => none) = some tab) {n line : Nat} (hn : nlines name = some n)
    (hr : ∃ x ∈ items, ∃ l, x.2 = some (name, l)) (hl : line ≤ n) (ht : itemsAt items name line = []) :
    breakLine tab (some name) line = .refused ∧ listLine tab (some name) line = .refused := by
  have := C119_lookup_partial h hn hr hl
  rw [ht] at this
  simp [breakLine, listLine, this]

/-! ## Where the code goes wrong -/

/-- The line after the last one (`nlines` counts one more than the makefile has): memory after the array
is read.  Beyond that, a variable that is not set is read. -/
theorem C119_past_end (h : buildLines nlines items (fun _ => none) = some tab) {n line : Nat} (hn : nlines name = some n)
    (hr : ∃ x ∈ items, ∃ l, x.2 = some (name, l)) (hl : n < line) : breakLine tab (some name) line = .undef := by
  have hk := (buildLines_known h hn).mpr (.inr hr)
  cases ht : tab name with
  | none => exact absurd ht hk
  | some cells =>
    obtain ⟨m, hm, hlen⟩ := buildLines_sized sized_empty h name cells ht
    rw [hn] at hm; cases hm
    unfold breakLine lineLookup
    simp only [ht]
    by_cases h1 : line > cells.length
    · simp [h1]
    · rw [if_neg h1, List.getElem?_eq_none (by omega)]

/-- Beyond that line `list` says that there is nothing, and so it does in a makefile without rules. -/
theorem C119_list_refused (h : buildLines nlines items (fun _ => none) = some tab) {n line : Nat} (hn : nlines name = some n)
    (hr : (∃ x ∈ items, ∃ l, x.2 = some (name, l)) → n + 1 < line) : listLine tab (some name) line = .refused := by
  cases ht : tab name with
  | none => simp [listLine, lineLookup, ht]
  | some cells =>
    obtain ⟨m, hm, hlen⟩ := buildLines_sized sized_empty h name cells ht
    rw [hn] at hm; cases hm
    have hx := (buildLines_known h hn).mp (by simp [ht])
    have := hr (hx.resolve_left (by simp))
    have h1 : line > cells.length := by omega
    simp [listLine, lineLookup, ht, h1]

/-- A rule that comes from `$(eval)` of several lines on the last line of a makefile has a place after the
end: the table is written outside of its array. -/
theorem C119_eval : ¬ ∃ tab, buildLines (fun _ => some 6) [(.target 0, some (['m'], 5)), (.target 1, some (['m'], 7))] (fun _ => none) = some tab :=
  fun ⟨_, h⟩ => by cases h

/-- A pattern rule with its recipe on the same line hides the target on the line before. -/
theorem C119_hidden (nlines : Str → Option Nat) (name : Str) (n l t r : Nat) (hn : nlines name = some n) (hl : l ≤ n) :
    ∃ tab, buildLines nlines [(.target t, some (name, l)), (.pattern r, patternLine name (some (l + 1)))] (fun _ => none) = some tab ∧
      breakLine tab (some name) l = .refused ∧ listLine tab (some name) l = .undef := by
  have hw : Within nlines [(.target t, some (name, l)), (.pattern r, patternLine name (some (l + 1)))] := by
    intro x hx a b c hx2 hc
    simp only [List.mem_cons, List.not_mem_nil, or_false] at hx
    rcases hx with rfl | rfl
    · cases hx2
      rw [hn] at hc; cases hc; exact hl
    · cases hx2
      rw [hn] at hc; cases hc; exact hl
  obtain ⟨tab, h⟩ := C119_build.mpr hw
  refine ⟨tab, h, ?_⟩
  have := C119_lookup_partial h (line := l) hn ⟨_, List.mem_cons_self .., l, rfl⟩ hl
  have e : itemsAt [(.target t, some (name, l)), (.pattern r, patternLine name (some (l + 1)))] name l = [.target t, .pattern r] := by
    simp [itemsAt, patternLine]
  rw [e] at this
  simp [breakLine, listLine, this]

/-- At a target that does not come from a makefile, such as one made by a built-in rule, a number makes
the debugger follow a null pointer. -/
theorem C119_no_place (tab : LineTable) (line : Nat) : breakLine tab none line = .undef ∧ listLine tab none line = .undef := ⟨rfl, rfl⟩

/-! ## The hypotheses can be met -/

def exampleItems : List (LineItem × LinePlace) :=
  [(.target 0, some (['m'], 1)), (.target 1, some (['m'], 3)), (.target 2, some (['m'], 3)), (.target 3, none), (.pattern 0, patternLine ['m'] (some 6))]

def exampleNlines : Str → Option Nat := fun x => if x = ['m'] then some 8 else none

example : ∃ tab, buildLines exampleNlines exampleItems (fun _ => none) = some tab ∧ breakLine tab (some ['m']) 1 = .target 0 ∧
    breakLine tab (some ['m']) 3 = .target 2 ∧ breakLine tab (some ['m']) 2 = .refused ∧ breakLine tab (some ['m']) 5 = .refused ∧
    breakLine tab (some ['m']) 9 = .undef := ⟨_, rfl, by decide, by decide, by decide, by decide, by decide⟩
example : itemsAt exampleItems ['m'] 1 = [.target 0] := by decide

end Remake
