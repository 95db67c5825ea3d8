import Verif.Cmds.Spec
set_option linter.unusedVariables false
set_option linter.unusedSimpArgs false
/-! # Lemmas on the splitting of recipes -/
namespace Remake

theorem takeWhile_replicate_append (n : Nat) (r : Str) (a : r.head? ≠ some '\\') :
    (List.replicate n '\\' ++ r).takeWhile (· = '\\') = List.replicate n '\\' := by
  induction n with
  | zero =>
    cases r with
    | nil => rfl
    | cons c r =>
      have : c ≠ '\\' := fun h => a (by rw [h]; rfl)
      simp [this]
  | succ n ih => simp [List.replicate_succ, ih]

theorem oddBackslashes_iff (t : Str) : oddBackslashes t.reverse = true ↔ Spec.OddEnd t := by
  constructor
  · intro a
    have e := List.takeWhile_append_dropWhile (p := fun c => decide (c = '\\')) (l := t.reverse)
    have r : ∀ (l : Str), l.takeWhile (fun c => decide (c = '\\')) = List.replicate (l.takeWhile (fun c => decide (c = '\\'))).length '\\' := by
      intro l
      apply List.eq_replicate_iff.2
      refine ⟨rfl, fun b m => ?_⟩
      have := mem_takeWhile_imp m
      exact of_decide_eq_true this
    simp only [oddBackslashes, decide_eq_true_eq] at a
    refine ⟨(t.reverse.dropWhile (fun c => decide (c = '\\'))).reverse, (t.reverse.takeWhile (fun c => decide (c = '\\'))).length / 2, ?_, ?_⟩
    · have h : 2 * ((t.reverse.takeWhile (fun c => decide (c = '\\'))).length / 2) + 1 = (t.reverse.takeWhile (fun c => decide (c = '\\'))).length := by omega
      rw [h, ← r]
      have e2 := congrArg List.reverse e
      rw [List.reverse_append, List.reverse_reverse] at e2
      refine e2.symm.trans ?_
      congr 1
      rw [r, List.reverse_replicate, ← r]
    · rw [List.getLast?_reverse]
      intro h
      have := List.head?_dropWhile_not (fun c => decide (c = '\\')) t.reverse
      rw [h] at this
      simp at this
  · rintro ⟨a, k, e, h⟩
    rw [e, List.reverse_append, List.reverse_replicate, oddBackslashes, takeWhile_replicate_append]
    · simp
    · rwa [List.head?_reverse]

theorem onlyEscaped_snoc {l : Str} {c : Char} (a : Spec.OnlyEscaped l) (b : c = '\n' → Spec.OddEnd l) :
    Spec.OnlyEscaped (l ++ [c]) := by
  intro x y e
  rcases List.eq_nil_or_concat y with h | ⟨y', d, h⟩
  · subst h
    have := List.append_inj' e rfl
    rw [← this.1]
    exact b (by simpa using this.2)
  · subst h
    rw [List.concat_eq_append, ← List.cons_append, ← List.append_assoc] at e
    have := List.append_inj' e rfl
    exact a x y' this.1

theorem chopLine_spec (rev s : Str) (a : Spec.OnlyEscaped rev.reverse) :
    (chopLine rev s = (rev.reverse ++ s, []) ∧ Spec.OnlyEscaped (rev.reverse ++ s)) ∨
      ∃ l r, chopLine rev s = (l, r) ∧ rev.reverse ++ s = l ++ '\n' :: r ∧ Spec.OnlyEscaped l ∧ ¬ Spec.OddEnd l := by
  induction s generalizing rev with
  | nil => left; simp only [chopLine, List.append_nil, true_and]; exact a
  | cons c s ih =>
    rw [chopLine]
    by_cases h : c = '\n'
    · rw [if_pos h]
      by_cases o : oddBackslashes rev = true
      · rw [if_pos o]
        have := ih (c :: rev) (by
          rw [List.reverse_cons]
          refine onlyEscaped_snoc a fun _ => ?_
          rw [← oddBackslashes_iff, List.reverse_reverse]; exact o)
        simpa using this
      · rw [if_neg o]
        right
        refine ⟨_, _, rfl, by rw [h], a, fun e => o ?_⟩
        rw [← oddBackslashes_iff, List.reverse_reverse] at e
        exact e
    · rw [if_neg h]
      have := ih (c :: rev) (by
        rw [List.reverse_cons]
        exact onlyEscaped_snoc a fun e => absurd e h)
      simpa using this

theorem onlyEscaped_nil : Spec.OnlyEscaped [] := by
  intro a b e
  simp at e

theorem chopText_lines (s : Str) : Spec.Lines s (chopText s) := by
  rw [chopText]
  split
  · rename_i h; rw [h]; exact .nil
  · rename_i h
    have lt := chopLine_lt s h
    rcases chopLine_spec [] s onlyEscaped_nil with ⟨e, o⟩ | ⟨l, r, e, f, o, n⟩
    · rw [e, chopText, dif_pos rfl]
      exact .last h o
    · have ih := chopText_lines r
      rw [e]
      have f' : s = l ++ '\n' :: r := f
      rw [f']
      exact .cons o n ih
termination_by s.length
decreasing_by
  rw [e] at lt
  exact lt

theorem lines_first {l l' s s' : Str} (o : Spec.OnlyEscaped l) (n : ¬ Spec.OddEnd l) (o' : Spec.OnlyEscaped l')
    (n' : ¬ Spec.OddEnd l') (e : l ++ '\n' :: s = l' ++ '\n' :: s') : l = l' ∧ s = s' := by
  rcases List.append_eq_append_iff.1 e with ⟨a, h1, h2⟩ | ⟨a, h1, h2⟩
  · cases a with
    | nil => simp at h1 h2; exact ⟨h1.symm, h2⟩
    | cons c a =>
      simp at h2
      rw [← h2.1] at h1
      exact absurd (o' _ _ h1) n
  · cases a with
    | nil => simp at h1 h2; exact ⟨h1, h2.symm⟩
    | cons c a =>
      simp at h2
      rw [← h2.1] at h1
      exact absurd (o _ _ h1) n'

theorem lines_unique {s : Str} {ls ls' : List Str} (a : Spec.Lines s ls) (b : Spec.Lines s ls') : ls = ls' := by
  induction a generalizing ls' with
  | nil =>
    generalize e : ([] : Str) = s at b
    cases b with
    | nil => rfl
    | last h _ => exact absurd e.symm h
    | cons _ _ _ => simp at e
  | @last l h o =>
    cases b with
    | nil => exact absurd rfl h
    | last _ _ => rfl
    | cons o' n' _ => exact absurd (o _ _ rfl) n'
  | @cons l s ls o n r ih =>
    generalize e : l ++ '\n' :: s = t at b
    cases b with
    | nil => simp at e
    | last _ o' => exact absurd (o' _ _ e.symm) n
    | cons o' n' r' =>
      obtain ⟨rfl, rfl⟩ := lines_first o n o' n' e
      rw [ih r']

theorem lines_count {s : Str} {ls : List Str} (a : Spec.Lines s ls) : ls.length ≤ s.count '\n' + 1 := by
  induction a with
  | nil => simp
  | last h o => simp
  | cons o n r ih => simp only [List.length_cons, List.count_append, List.count_cons_self]; omega

/-- The lines with newlines between them are the recipe, but for a last newline. -/
theorem lines_join {s : Str} {ls : List Str} (a : Spec.Lines s ls) :
    s = List.intercalate ['\n'] ls ∨ s = List.intercalate ['\n'] ls ++ ['\n'] := by
  induction a with
  | nil => left; rfl
  | last h o => left; simp [List.intercalate]
  | @cons l s ls o n r ih =>
    cases r with
    | nil => right; simp [List.intercalate]
    | last h o => left; simp [List.intercalate]
    | cons o' n' r' =>
      rcases ih with ih | ih
      · left
        conv => lhs; rw [ih]
        simp [List.intercalate]
      · right
        conv => lhs; rw [ih]
        simp [List.intercalate]

/-! ## The array -/

theorem push_fold (ls : List Str) (a : ChopArr) (h : a.idx + ls.length < 2 ^ 16) (n : a.idx ≤ a.nlines) :
    (ls.foldl ChopArr.push a).idx = a.idx + ls.length ∧
    (ls.foldl ChopArr.push a).idx ≤ (ls.foldl ChopArr.push a).nlines ∧
    (∀ i, i < a.idx → (ls.foldl ChopArr.push a).lines i = a.lines i) ∧
    (∀ i, i < ls.length → some ((ls.foldl ChopArr.push a).lines (a.idx + i)) = ls[i]?) := by
  induction ls generalizing a with
  | nil => simp; exact n
  | cons l ls ih =>
    simp only [List.length_cons] at h
    have hi : (a.push l).idx = a.idx + 1 := by
      simp only [ChopArr.push]; exact Nat.mod_eq_of_lt (by omega)
    obtain ⟨i1, i2, i3, i4⟩ := ih (a.push l) (by rw [hi]; omega) (by
      rw [hi]; simp only [ChopArr.push]; split <;> omega)
    simp only [List.foldl_cons, List.length_cons]
    refine ⟨by rw [i1, hi]; omega, i2, fun i b => ?_, fun i b => ?_⟩
    · rw [i3 i (by omega)]
      simp only [ChopArr.push]
      rw [if_neg (by omega)]
    · cases i with
      | zero =>
        rw [Nat.add_zero, i3 _ (by omega)]
        simp [ChopArr.push]
      | succ i =>
        have := i4 i (by omega)
        rw [hi] at this
        rw [show a.idx + (i + 1) = a.idx + 1 + i by omega, this]
        simp

theorem push_result (ls : List Str) (h : ls.length < 2 ^ 16) :
    (ls.foldl ChopArr.push ⟨fun _ => [], 0, 5⟩).result = ls := by
  obtain ⟨i1, i2, _, i4⟩ := push_fold ls ⟨fun _ => [], 0, 5⟩ (by simpa using h) (by simp)
  simp only [Nat.zero_add] at i1 i4
  have e : (if (ls.foldl ChopArr.push ⟨fun _ => [], 0, 5⟩).idx ≠ (ls.foldl ChopArr.push ⟨fun _ => [], 0, 5⟩).nlines
      then (ls.foldl ChopArr.push ⟨fun _ => [], 0, 5⟩).idx else (ls.foldl ChopArr.push ⟨fun _ => [], 0, 5⟩).nlines) = ls.length := by
    split
    · exact i1
    · rename_i x; rw [← Decidable.not_not.1 x, i1]
  rw [ChopArr.result, e]
  apply List.ext_getElem?
  intro i
  by_cases b : i < ls.length
  · rw [List.getElem?_map, List.getElem?_range b, ← i4 i b]
    rfl
  · rw [List.getElem?_eq_none (by simp; omega), List.getElem?_eq_none (by omega)]

/-- What is stored if the index wraps. -/
theorem push_idx (ls : List Str) (a : ChopArr) (h : a.idx < 2 ^ 16) :
    (ls.foldl ChopArr.push a).idx = (a.idx + ls.length) % 2 ^ 16 ∧ a.nlines ≤ (ls.foldl ChopArr.push a).nlines := by
  induction ls generalizing a with
  | nil => simp; omega
  | cons l ls ih =>
    obtain ⟨i1, i2⟩ := ih (a.push l) (by simp only [ChopArr.push]; exact Nat.mod_lt _ (by decide))
    simp only [List.foldl_cons, List.length_cons]
    refine ⟨?_, Nat.le_trans ?_ i2⟩
    · rw [i1]
      simp only [ChopArr.push]
      omega
    · simp only [ChopArr.push]; split <;> omega

theorem push_wrapped (ls : List Str) (h : ls.length % 2 ^ 16 = 0) :
    (ls.foldl ChopArr.push ⟨fun _ => [], 0, 5⟩).result = [] := by
  obtain ⟨i1, i2⟩ := push_idx ls ⟨fun _ => [], 0, 5⟩ (by simp)
  simp only [Nat.zero_add] at i1 i2
  rw [ChopArr.result, if_pos (by omega), i1, h]
  rfl

/-! ## Flags -/

theorem prefixFlags_spec (f : LineFlags) (s : Str) :
    (prefixFlags f s).1 = ⟨f.recurse || (Spec.linePrefix s).contains '+', f.silent || (Spec.linePrefix s).contains '@',
        f.noerror || (Spec.linePrefix s).contains '-'⟩ ∧ Spec.linePrefix s ++ (prefixFlags f s).2 = s := by
  induction s generalizing f with
  | nil => simp [prefixFlags, Spec.linePrefix]
  | cons c s ih =>
    rw [prefixFlags]
    by_cases h1 : c = '+'
    · subst h1
      rw [if_pos rfl]
      have := ih { f with recurse := true }
      simp only [Spec.linePrefix] at this ⊢
      simp [this]
    · rw [if_neg h1]
      by_cases h2 : c = '@'
      · subst h2
        rw [if_pos rfl]
        have := ih { f with silent := true }
        simp only [Spec.linePrefix] at this ⊢
        simp [this]
      · rw [if_neg h2]
        by_cases h3 : c = '-'
        · subst h3
          rw [if_pos rfl]
          have := ih { f with noerror := true }
          simp only [Spec.linePrefix] at this ⊢
          simp [this]
        · rw [if_neg h3]
          by_cases h4 : isBlank c = true
          · rw [if_pos h4]
            have := ih f
            simp only [isBlank, Bool.or_eq_true, beq_iff_eq] at h4
            simp only [Spec.linePrefix] at this ⊢
            rcases h4 with h4 | h4 <;> subst h4 <;> simp [this]
          · rw [if_neg h4]
            simp only [isBlank, Bool.or_eq_true, beq_iff_eq, not_or] at h4
            simp [Spec.linePrefix, h1, h2, h3, h4]

theorem hasInfix_iff (sub s : Str) : hasInfix sub s = true ↔ sub <:+: s := by
  induction s with
  | nil => simp [hasInfix]
  | cons c s ih => rw [hasInfix, Bool.or_eq_true, ih, List.isPrefixOf_iff_prefix, List.infix_cons_iff]

/-- A word that starts with a character not in `pre` is in `pre ++ s` only if it is in `s`. -/
theorem infix_of_append {c : Char} {w pre s : Str} (a : c ∉ pre) (b : (c :: w) <:+: pre ++ s) : (c :: w) <:+: s := by
  induction pre with
  | nil => exact b
  | cons d pre ih =>
    rw [List.cons_append, List.infix_cons_iff] at b
    rcases b with b | b
    · have := List.cons_prefix_cons.1 b
      exact absurd (by rw [this.1]; simp) a
    · exact ih (fun h => a (by simp [h])) b

end Remake
