import Verif.Prompt.Model

/-!
# C157: the prompt tells the level
-/
namespace Remake

/-! ## Lemmas -/

theorem dpDepth_deep {level : Nat} (h : 4 ≤ level) (c : Char) (hc : c ≠ Char.ofNat 0) : dpDepth level c = some [c, c, c, c, c, '.', '.', '.'] := by
  have d : '.' ≠ Char.ofNat 0 := by decide
  unfold dpDepth
  simp [dpLoop, mbPut, mbGet, h, show 1 ≤ level by omega, show 2 ≤ level by omega, show 3 ≤ level by omega, List.replicate, hc, d]

theorem dpDepth_flat {level : Nat} (h : level < 4) (c : Char) (hc : c ≠ Char.ofNat 0) : dpDepth level c = some (List.replicate (level + 1) c) := by
  unfold dpDepth
  match level, h with
  | 0, _ => simp [dpLoop, mbPut, mbGet, List.replicate, hc]
  | 1, _ => simp [dpLoop, mbPut, mbGet, List.replicate, hc]
  | 2, _ => simp [dpLoop, mbPut, mbGet, List.replicate, hc]
  | 3, _ => simp [dpLoop, mbPut, mbGet, List.replicate, hc]

/-! ## C157 -/

/-- C157: at every level of recursion the prompt is built within its arrays. -/
theorem C157_memory (level n : Nat) : ∃ p, dpPrompt level n = some p ∧ p.length < 300 := by
  have h1 : '<' ≠ Char.ofNat 0 := by decide
  have h2 : '>' ≠ Char.ofNat 0 := by decide
  unfold dpPrompt
  by_cases h : 4 ≤ level
  · rw [dpDepth_deep h _ h1, dpDepth_deep h _ h2]
    exact ⟨_, rfl, by simp only [List.length_take]; omega⟩
  · rw [dpDepth_flat (by omega) _ h1, dpDepth_flat (by omega) _ h2]
    exact ⟨_, rfl, by simp only [List.length_take]; omega⟩

/-- C157 (partial): below level 4 the prompt has one bracket for each level and one more.  Missing: deeper levels, see `C157_deep`. -/
theorem C157_level_partial {level n : Nat} (h : level < 4) (hn : (Nat.toDigits 10 n).length ≤ 200) :
    dpPrompt level n =
      some ("remake".toList ++ List.replicate (level + 1) '<' ++ Nat.toDigits 10 n ++ List.replicate (level + 1) '>' ++ [' ']) := by
  have h1 : '<' ≠ Char.ofNat 0 := by decide
  have h2 : '>' ≠ Char.ofNat 0 := by decide
  unfold dpPrompt
  rw [dpDepth_flat h _ h1, dpDepth_flat h _ h2]
  simp only [Option.bind_some, Option.map_some]
  rw [List.take_of_length_le]
  have : "remake".toList.length = 6 := by decide
  simp only [List.length_append, List.length_replicate, List.length_singleton, this]
  omega

/-- C157 fails from level 4 on: all levels have the same prompt. -/
theorem C157_deep {a b : Nat} (ha : 4 ≤ a) (hb : 4 ≤ b) (n : Nat) : dpPrompt a n = dpPrompt b n := by
  have h1 : '<' ≠ Char.ofNat 0 := by decide
  have h2 : '>' ≠ Char.ofNat 0 := by decide
  unfold dpPrompt
  rw [dpDepth_deep ha _ h1, dpDepth_deep ha _ h2, dpDepth_deep hb _ h1, dpDepth_deep hb _ h2]

example : dpPrompt 1 12 = some "remake<<12>> ".toList ∧ dpPrompt 7 0 = some "remake<<<<<...0>>>>>... ".toList := by
  constructor
  · rw [C157_level_partial (by decide) (by decide)]; decide
  · unfold dpPrompt
    rw [dpDepth_deep (by decide) _ (by decide), dpDepth_deep (by decide) _ (by decide)]; decide

end Remake
