import Verif.Concat.Model
import Verif.Member.Props

/-!
# C156: texts that are put together are whole
-/
namespace Remake

/-! ## Lemmas -/

theorem ccPut (t s : Str) (r : List (Option Char)) (h : s.length ≤ r.length) :
    mbPut (t.map some ++ r) t.length s = some ((t ++ s).map some ++ r.drop s.length) := by
  unfold mbPut
  rw [if_pos (by simp; omega)]
  simp [List.take_append, List.drop_append]

theorem ccLoop_eq : ∀ (as : List (Option Str)) (t : Str) (r : List (Option Char)),
    ∃ r', ccLoop as (t.map some ++ r) t.length =
      some ((t ++ (as.map (·.getD [])).flatten).map some ++ r', (t ++ (as.map (·.getD [])).flatten).length) := by
  intro as
  induction as with
  | nil => intro t r; exact ⟨r, by simp [ccLoop]⟩
  | cons a as ih =>
    intro t r
    unfold ccLoop
    by_cases h0 : (a.getD []).length = 0
    · obtain ⟨r', e⟩ := ih t r
      refine ⟨r', ?_⟩
      have : a.getD [] = [] := List.length_eq_zero_iff.1 h0
      simp only [this, List.length_nil, if_true, List.map_cons, List.flatten_cons, List.nil_append]
      exact e
    · simp only [if_neg h0]
      obtain ⟨r2, e2, h2⟩ : ∃ r2, (if t.length + (a.getD []).length > (t.map some ++ r).length then
          ccGrow (t.map some ++ r) ((ccBase (t.map some ++ r).length + (a.getD []).length) * 2) else t.map some ++ r) =
          t.map some ++ r2 ∧ (a.getD []).length ≤ r2.length := by
        by_cases g : t.length + (a.getD []).length > (t.map some ++ r).length
        · rw [if_pos g]
          refine ⟨r ++ List.replicate ((ccBase (t.map some ++ r).length + (a.getD []).length) * 2 - (t.map some ++ r).length) none,
            by simp [ccGrow], ?_⟩
          have hb : (t.map some ++ r).length ≤ ccBase (t.map some ++ r).length := by unfold ccBase; split <;> omega
          simp only [List.length_append, List.length_replicate, List.length_map] at hb g ⊢
          omega
        · rw [if_neg g]
          refine ⟨r, rfl, ?_⟩
          simp only [List.length_append, List.length_map] at g
          omega
      rw [e2, ccPut t _ r2 h2, Option.bind_some]
      obtain ⟨r', e⟩ := ih (t ++ a.getD []) (r2.drop (a.getD []).length)
      refine ⟨r', ?_⟩
      rw [List.length_append] at e
      rw [e]
      simp

/-! ## C156 -/

/-- C156: whatever is in the static memory, one call returns its pieces one after the other, and writes and reads nothing outside. -/
theorem C156_call (buf : List (Option Char)) (args : List (Option Str)) (h : ∀ s, some s ∈ args → Char.ofNat 0 ∉ s) :
    ∃ b, concatStr buf args = some ((args.map (·.getD [])).flatten, b) := by
  unfold concatStr
  obtain ⟨r, e⟩ := ccLoop_eq args [] buf
  simp only [List.map_nil, List.nil_append, List.length_nil] at e
  rw [e, Option.bind_some]
  generalize ht : (args.map (·.getD [])).flatten = t
  have hn : Char.ofNat 0 ∉ t := by
    subst ht
    intro hc
    obtain ⟨l, hl, hc⟩ := List.mem_flatten.1 hc
    obtain ⟨a, ha, rfl⟩ := List.mem_map.1 hl
    cases a with
    | none => simp at hc
    | some s => exact h s ha hc
  obtain ⟨r2, e2, h2⟩ : ∃ r2, (if t.length = (t.map some ++ r).length then ccGrow (t.map some ++ r) (ccBase (t.map some ++ r).length * 2)
      else t.map some ++ r) = t.map some ++ r2 ∧ 1 ≤ r2.length := by
    by_cases g : t.length = (t.map some ++ r).length
    · rw [if_pos g]
      refine ⟨r ++ List.replicate (ccBase (t.map some ++ r).length * 2 - (t.map some ++ r).length) none, by simp [ccGrow], ?_⟩
      have hb : (t.map some ++ r).length + 1 ≤ ccBase (t.map some ++ r).length * 2 := by unfold ccBase; split <;> omega
      simp only [List.length_append, List.length_replicate, List.length_map] at hb g ⊢
      omega
    · rw [if_neg g]
      refine ⟨r, rfl, ?_⟩
      simp only [List.length_append, List.length_map] at g
      omega
  simp only
  rw [e2, ccPut t [Char.ofNat 0] r2 (by simpa using h2), Option.bind_some]
  have e3 : ((t ++ [Char.ofNat 0]).map some ++ r2.drop [Char.ofNat 0].length : List (Option Char)) =
      t.map some ++ some (Char.ofNat 0) :: r2.drop 1 := by simp
  rw [e3, mbGet_string hn]
  exact ⟨_, rfl⟩

/-- C156: in every history of calls each one returns its own pieces one after the other. -/
theorem C156_history (calls : List (List (Option Str))) (h : ∀ c ∈ calls, ∀ s, some s ∈ c → Char.ofNat 0 ∉ s) :
    concatAll [] calls = some (calls.map fun c => (c.map (·.getD [])).flatten) := by
  generalize ([] : List (Option Char)) = buf
  induction calls generalizing buf with
  | nil => rfl
  | cons c cs ih =>
    obtain ⟨b, e⟩ := C156_call buf c (h c (by simp))
    unfold concatAll
    rw [e, Option.bind_some]
    dsimp only
    rw [ih (fun d hd => h d (by simp [hd]))]
    rfl

/-- Two calls as for the environment of a command; the second finds the memory of the first. -/
example : concatAll [] [[some "A".toList, some "=".toList, some (List.replicate 200 'x')], [some "B".toList, none, some "=1".toList], []] =
    some ["A=".toList ++ List.replicate 200 'x', "B=1".toList, []] := by decide +kernel

end Remake
