import Verif.Expand.Spec
import Verif.Var.Lemmas3
/-!
# Lemmas about reading references
-/
set_option linter.unusedVariables false
set_option linter.unusedSimpArgs false
namespace Remake
open Spec

theorem lookupLoc_eq (b : Bool) (chain : List (VarSet × Bool)) (n : Str) :
    (lookupLoc b chain n).map (·.2) = lookupGo b chain n := by
  induction chain generalizing b with
  | nil => rfl
  | cons x rest ih =>
    obtain ⟨s, nip⟩ := x
    simp only [lookupLoc, lookupGo]
    cases s n with
    | none => exact ih _
    | some v =>
      simp only
      split
      · rfl
      · exact ih _

/-! ### Where things end -/

theorem span_stop (p : Char → Bool) (a : Str) (c : Char) (r : Str) (hc : p c = false) :
    (a ++ c :: r).takeWhile p = (a ++ [c]).takeWhile p := by
  induction a with
  | nil => simp [hc]
  | cons x a ih => simp only [List.cons_append, List.takeWhile_cons]; split <;> simp [ih]

theorem drop_stop (p : Char → Bool) (a : Str) (c : Char) (r : Str) (hc : p c = false) :
    (a ++ c :: r).dropWhile p = (a ++ [c]).dropWhile p ++ r := by
  induction a with
  | nil => simp [hc]
  | cons x a ih => simp only [List.cons_append, List.dropWhile_cons]; split <;> simp [ih]

theorem drop_stop_ne (p : Char → Bool) (a : Str) (c : Char) (hc : p c = false) :
    (a ++ [c]).dropWhile p ≠ [] := by
  induction a with
  | nil => simp [hc]
  | cons x a ih => simp only [List.cons_append, List.dropWhile_cons]; split <;> simp [ih]

theorem dropWhile_stop (t : Str) (c : Char) (s : Str) (hc : isSpace c = false) :
    nextToken (t ++ c :: s) = t.dropWhile isSpace ++ c :: s := by
  simp only [nextToken]
  induction t with
  | nil => simp [hc]
  | cons x t ih => simp only [List.cons_append, List.dropWhile_cons]; split <;> simp [ih]

theorem space_userFunc {c : Char} (h : isSpace c = true) : isUserFunc c = false := by
  simp only [isSpace, isBlank, isNewlineClass, Bool.or_eq_true, beq_iff_eq] at h
  rcases h with (h | h) | (((h | h) | h) | h) <;> subst h <;> decide

/-- The function looked up depends on the text up to the closing bracket only. -/
theorem lookupFunction_stop (a : Str) (c : Char) (r : Str) (hc : isUserFunc c = false) :
    lookupFunction (a ++ c :: r) = lookupFunction (a ++ [c]) := by
  simp only [lookupFunction]
  rw [span_stop isUserFunc a c r hc, drop_stop isUserFunc a c r hc]
  have hne := drop_stop_ne isUserFunc a c hc
  cases hd : (a ++ [c]).dropWhile isUserFunc with
  | nil => exact absurd hd hne
  | cons x xs => simp

theorem findClose_matched {o c : Char} {b : Str} (hb : Matched o c b) (hoc : o ≠ c) (n : Nat) (s : Str) :
    findClose o c n (b ++ s) = (findClose o c n s).map fun r => (b ++ r.1, r.2) := by
  induction hb generalizing n s with
  | nil => cases h : findClose o c n s <;> simp [h]
  | @char a b h1 h2 _ ih =>
    rw [List.cons_append]
    conv => lhs; unfold findClose
    simp only [h1, h2, if_false]
    rw [ih]
    cases findClose o c n s <;> simp
  | @nest b1 b2 _ _ ih1 ih2 =>
    rw [show o :: b1 ++ c :: b2 ++ s = o :: (b1 ++ (c :: (b2 ++ s))) by simp]
    conv => lhs; unfold findClose
    simp only [hoc, if_false, if_true]
    rw [ih1]
    have : findClose o c (n + 1) (c :: (b2 ++ s)) = (findClose o c n (b2 ++ s)).map fun r => (c :: r.1, r.2) := by
      simp [findClose]
    rw [this, ih2]
    cases findClose o c n s <;> simp

theorem findClose_end {o c : Char} {b : Str} (hb : Matched o c b) (hoc : o ≠ c) (s : Str) :
    findClose o c 0 (b ++ c :: s) = some (b, s) := by
  rw [findClose_matched hb hoc]
  simp [findClose]

/-- Dropping leading characters other than brackets keeps brackets matched. -/
theorem matched_drop {o c : Char} {a b : Str} (h : Matched o c (a ++ b))
    (ha : ∀ x ∈ a, x ≠ o ∧ x ≠ c) : Matched o c b := by
  induction a with
  | nil => exact h
  | cons x a ih =>
    have hx := ha x (by simp)
    rw [List.cons_append] at h
    generalize he : x :: (a ++ b) = y at h
    cases h with
    | nil => simp at he
    | char _ _ h =>
      simp only [List.cons.injEq] at he
      rw [← he.2] at h
      exact ih h (fun y hy => ha y (by simp [hy]))
    | nest _ _ =>
      simp only [List.cons_append, List.cons.injEq] at he
      exact absurd he.1 hx.1

theorem takeWhile_all_prefix {p : Char → Bool} {a b : Str} (h : a <+: b) (ha : ∀ x ∈ a, p x = true) :
    a <+: b.takeWhile p := by
  obtain ⟨t, rfl⟩ := h
  induction a with
  | nil => simp
  | cons x a ih =>
    have hx := ha x (by simp)
    simp only [List.cons_append, List.takeWhile_cons, hx, if_true]
    exact List.cons_prefix_cons.mpr ⟨rfl, ih (fun y hy => ha y (by simp [hy]))⟩

/-- The entry found is named by the beginning of the text, in letters, digits, `.`, `-`, `_`. -/
theorem lookupFunction_name {s : Str} {e : FnEntry} (h : lookupFunction s = some e) :
    e ∈ fnTable ∧ e.name <+: s ∧ ∀ x ∈ e.name, isUserFunc x = true := by
  simp only [lookupFunction] at h
  split at h
  · simp at h
  · split at h
    · simp at h
    · have hm := List.mem_of_find?_eq_some h
      have hp := List.find?_some h
      simp only [beq_iff_eq] at hp
      refine ⟨hm, ?_, ?_⟩
      · rw [hp]
        exact (List.take_prefix ..).trans (List.takeWhile_prefix _)
      · intro x hx
        rw [hp] at hx
        exact mem_takeWhile_imp (List.mem_of_mem_take hx)

theorem userFunc_ne {o c : Char} (h : (o = '(' ∧ c = ')') ∨ (o = '{' ∧ c = '}')) :
    ∀ x, isUserFunc x = true → x ≠ o ∧ x ≠ c := by
  intro x hx
  rcases h with ⟨rfl, rfl⟩ | ⟨rfl, rfl⟩ <;> constructor <;> rintro rfl <;> revert hx <;> decide

theorem space_ne {o c : Char} (h : (o = '(' ∧ c = ')') ∨ (o = '{' ∧ c = '}')) :
    ∀ x, isSpace x = true → x ≠ o ∧ x ≠ c := by
  intro x hx
  rcases h with ⟨rfl, rfl⟩ | ⟨rfl, rfl⟩ <;> constructor <;> rintro rfl <;> revert hx <;> decide

/-- A closed reference is read the same whatever follows. -/
theorem parseRef_closed {o c : Char} (hoc : (o = '(' ∧ c = ')') ∨ (o = '{' ∧ c = '}')) {b : Str}
    (hb : RefText o c b) (hcall : ∀ b, IsCall b → ∀ r, lookupFunction (b ++ r) ≠ none) (s : Str) :
    parseRef o (b ++ c :: s) = ((parseRef o (b ++ [c])).1, s) := by
  have hcls : (if o = '(' then ')' else '}') = c := by
    rcases hoc with ⟨rfl, rfl⟩ | ⟨rfl, rfl⟩ <;> rfl
  have hne : o ≠ c := by rcases hoc with ⟨rfl, rfl⟩ | ⟨rfl, rfl⟩ <;> decide
  have huf : isUserFunc c = false := by rcases hoc with ⟨rfl, rfl⟩ | ⟨rfl, rfl⟩ <;> decide
  have hsp : isSpace c = false := by rcases hoc with ⟨rfl, rfl⟩ | ⟨rfl, rfl⟩ <;> decide
  obtain ⟨hm, hor⟩ := hb
  simp only [parseRef, hcls]
  rw [lookupFunction_stop b c s huf]
  cases he : lookupFunction (b ++ [c]) with
  | some e =>
    simp only
    obtain ⟨_, hpre, huse⟩ := lookupFunction_name he
    -- the name lies inside the body
    have hpb : e.name <+: b := by
      obtain ⟨t, ht⟩ := hpre
      rcases List.append_eq_append_iff.mp ht with ⟨x, h1, h2⟩ | ⟨x, h1, h2⟩
      · exact ⟨x, h1.symm⟩
      · cases x with
        | nil => simp at h1; rw [h1]; exact List.prefix_refl _
        | cons y ys =>
          simp only [List.cons_append, List.cons.injEq] at h2
          have := huse y (by rw [h1]; simp)
          rw [← h2.1, huf] at this
          exact absurd this (by simp)
    obtain ⟨t, rfl⟩ := hpb
    have hmt : Matched o c t := matched_drop hm (fun x hx => userFunc_ne hoc x (huse x hx))
    have key : ∀ s, nextToken ((e.name ++ t ++ c :: s).drop e.name.length) =
        t.dropWhile isSpace ++ c :: s := by
      intro s
      rw [List.append_assoc, List.drop_left]
      exact dropWhile_stop t c s hsp
    have hmt' : Matched o c (t.dropWhile isSpace) := by
      rw [← List.takeWhile_append_dropWhile (p := isSpace) (l := t)] at hmt
      exact matched_drop hmt (fun x hx => space_ne hoc x (mem_takeWhile_imp hx))
    rw [key s, key []]
    rw [findClose_end hmt' hne s, findClose_end hmt' hne []]
  | none =>
    simp only
    have htw : ∀ r, (b ++ c :: r).takeWhile (fun x => decide (x ≠ c)) = (b ++ [c]).takeWhile (fun x => decide (x ≠ c)) :=
      fun r => span_stop _ b c r (by simp)
    have hdw : ∀ r, (b ++ c :: r).dropWhile (fun x => decide (x ≠ c)) = (b ++ [c]).dropWhile (fun x => decide (x ≠ c)) ++ r :=
      fun r => drop_stop _ b c r (by simp)
    rw [htw s, hdw s]
    have hdne := drop_stop_ne (fun x => decide (x ≠ c)) b c (by simp)
    cases hd : (b ++ [c]).dropWhile (fun x => decide (x ≠ c)) with
    | nil => exact absurd hd hdne
    | cons x rest =>
      simp only [List.cons_append]
      rw [findClose_end hm hne s, findClose_end hm hne []]
      by_cases hdol : '$' ∈ (b ++ [c]).takeWhile (fun x => decide (x ≠ c))
      · simp only [hdol, if_true]
      · simp only [hdol, if_false]
        -- no `$`: the name must be the whole body
        have hcb : c ∉ b := by
          rcases hor with h | h | h
          · exact h
          · exfalso
            apply hdol
            by_cases hcb : c ∈ b
            · have : (b ++ [c]).takeWhile (fun x => decide (x ≠ c)) = b.takeWhile (fun x => decide (x ≠ c)) := by
                rw [List.takeWhile_append]
                split
                · rename_i hl
                  have := List.takeWhile_sublist (fun x => decide (x ≠ c)) (l := b)
                  have := this.eq_of_length hl
                  have hh := mem_takeWhile_imp (p := fun x => decide (x ≠ c)) (this ▸ hcb)
                  simp at hh
                · rfl
              rw [this]; exact h
            · rw [List.takeWhile_append_of_pos]
              · exact List.mem_append_left _ (List.takeWhile_sublist _ |>.mem h)
              · intro a ha
                simp only [decide_eq_true_eq]
                rintro rfl; exact hcb ha
          · exact absurd he (hcall b h _)
        have : (b ++ [c]).dropWhile (fun x => decide (x ≠ c)) = [c] := by
          rw [List.dropWhile_append_of_pos]
          · simp
          · intro a ha
            simp only [decide_eq_true_eq]
            rintro rfl; exact hcb ha
        rw [this] at hd
        simp only [List.cons.injEq] at hd
        rw [← hd.2]; simp

theorem isCall_lookup {b : Str} (h : IsCall b) (r : Str) : lookupFunction (b ++ r) ≠ none := by
  obtain ⟨f, hf, sp, rest, rfl, hs⟩ := h
  have hu : isUserFunc sp = false := space_userFunc hs
  have key : ∀ f ∈ functionNames, f.toList ≠ [] ∧ (f.toList.all isUserFunc = true) ∧ f.toList.length < 256 ∧
      (fnTable.find? fun e => e.name == f.toList).isSome = true := by decide
  obtain ⟨k1, k2, k3, k4⟩ := key f hf
  have ht : (f.toList ++ sp :: rest ++ r).takeWhile isUserFunc = f.toList := by
    rw [List.append_assoc, List.takeWhile_append_of_pos (by simpa using k2)]
    simp [hu]
  have hd : (f.toList ++ sp :: rest ++ r).dropWhile isUserFunc = sp :: rest ++ r := by
    rw [List.append_assoc, List.dropWhile_append_of_pos (by simpa using k2)]
    simp [hu]
  simp only [lookupFunction, ht, hd]
  rw [if_neg k1, if_neg (by simp [hs]), Nat.mod_eq_of_lt k3, List.take_length]
  intro hn
  rw [hn] at k4
  simp at k4

end Remake
