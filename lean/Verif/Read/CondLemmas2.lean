import Verif.Read.CondLemmas
set_option linter.unusedVariables false
set_option linter.unusedSimpArgs false
/-! Lemmas on the syntax of `ifeq` and on `define` bodies. -/
namespace Remake
open Spec

theorem scanQuote_spec {q : Char} {rest : Str} : ∀ (a acc : Str), q ∉ a →
    scanQuote q acc (a ++ q :: rest) = some (acc ++ a, rest) := by
  intro a
  induction a with
  | nil => intro acc _; simp [scanQuote]
  | cons c cs ih =>
    intro acc h
    simp only [List.mem_cons, not_or] at h
    rw [List.cons_append, scanQuote, if_neg (fun e => h.1 e.symm), ih _ h.2]
    simp

theorem scanQuote_none {q : Char} : ∀ (a acc : Str), q ∉ a → scanQuote q acc a = none := by
  intro a
  induction a with
  | nil => intro acc _; rfl
  | cons c cs ih =>
    intro acc h
    simp only [List.mem_cons, not_or] at h
    rw [scanQuote, if_neg (fun e => h.1 e.symm), ih _ h.2]

theorem scanComma_spec {rest : Str} : ∀ (a acc : Str),
    (∀ x y, a = x ++ ',' :: y → (acc ++ x).count ')' < (acc ++ x).count '(') →
    (acc ++ a).count '(' ≤ (acc ++ a).count ')' →
    scanComma ((acc.count '(' : Int) - acc.count ')') acc (a ++ ',' :: rest) = some (acc ++ a, rest) := by
  intro a
  induction a with
  | nil =>
    intro acc h hb
    simp only [List.append_nil] at hb
    rw [List.nil_append, scanComma, if_neg (by decide), if_neg (by decide), if_pos ⟨rfl, by omega⟩]
    simp
  | cons c cs ih =>
    intro acc h hb
    have h' : ∀ x y, cs = x ++ ',' :: y →
        ((acc ++ [c]) ++ x).count ')' < ((acc ++ [c]) ++ x).count '(' := by
      intro x y e
      have := h (c :: x) y (by rw [e]; rfl)
      simpa using this
    have hb' : ((acc ++ [c]) ++ cs).count '(' ≤ ((acc ++ [c]) ++ cs).count ')' := by simpa using hb
    have := ih (acc ++ [c]) h' hb'
    rw [List.cons_append, scanComma]
    by_cases h1 : c = '('
    · subst h1
      rw [if_pos rfl]
      have e : ((acc.count '(' : Int) - acc.count ')' + 1) =
          ((acc ++ ['(']).count '(' : Int) - (acc ++ ['(']).count ')' := by
        simp [List.count_append, List.count_cons]; omega
      rw [e, this]; simp
    · rw [if_neg h1]
      by_cases h2 : c = ')'
      · subst h2
        rw [if_pos rfl]
        have e : ((acc.count '(' : Int) - acc.count ')' - 1) =
            ((acc ++ [')']).count '(' : Int) - (acc ++ [')']).count ')' := by
          simp [List.count_append, List.count_cons]; omega
        rw [e, this]; simp
      · rw [if_neg h2]
        have hn : ¬ (c = ',' ∧ ((acc.count '(' : Int) - acc.count ')') ≤ 0) := by
          rintro ⟨rfl, hle⟩
          have := h [] cs rfl
          simp only [List.append_nil] at this
          omega
        rw [if_neg hn]
        have e : ((acc.count '(' : Int) - acc.count ')') =
            ((acc ++ [c]).count '(' : Int) - (acc ++ [c]).count ')' := by
          simp [List.count_append, List.count_cons, h1, h2]
        rw [e, this]; simp

theorem scanParen_spec {rest : Str} : ∀ (a acc : Str),
    (∀ x y, a = x ++ ')' :: y → (acc ++ x).count ')' < (acc ++ x).count '(') →
    (acc ++ a).count '(' ≤ (acc ++ a).count ')' →
    scanParen ((acc.count '(' : Int) - acc.count ')') acc (a ++ ')' :: rest) = some (acc ++ a, rest) := by
  intro a
  induction a with
  | nil =>
    intro acc h hb
    simp only [List.append_nil] at hb
    rw [List.nil_append, scanParen, if_neg (by decide), if_pos rfl, if_pos (by omega)]
    simp
  | cons c cs ih =>
    intro acc h hb
    have h' : ∀ x y, cs = x ++ ')' :: y →
        ((acc ++ [c]) ++ x).count ')' < ((acc ++ [c]) ++ x).count '(' := by
      intro x y e
      have := h (c :: x) y (by rw [e]; rfl)
      simpa using this
    have hb' : ((acc ++ [c]) ++ cs).count '(' ≤ ((acc ++ [c]) ++ cs).count ')' := by simpa using hb
    have := ih (acc ++ [c]) h' hb'
    rw [List.cons_append, scanParen]
    by_cases h1 : c = '('
    · subst h1
      rw [if_pos rfl]
      have e : ((acc.count '(' : Int) - acc.count ')' + 1) =
          ((acc ++ ['(']).count '(' : Int) - (acc ++ ['(']).count ')' := by
        simp [List.count_append, List.count_cons]; omega
      rw [e, this]; simp
    · rw [if_neg h1]
      by_cases h2 : c = ')'
      · subst h2
        have := h [] cs rfl
        simp only [List.append_nil] at this
        rw [if_pos rfl, if_neg (by omega)]
        have e : ((acc.count '(' : Int) - acc.count ')' - 1) =
            ((acc ++ [')']).count '(' : Int) - (acc ++ [')']).count ')' := by
          simp [List.count_append, List.count_cons]; omega
        rw [e]
        have t := ih (acc ++ [')']) h' hb'
        rw [t]; simp
      · rw [if_neg h2]
        have e : ((acc.count '(' : Int) - acc.count ')') =
            ((acc ++ [c]).count '(' : Int) - (acc ++ [c]).count ')' := by
          simp [List.count_append, List.count_cons, h1, h2]
        rw [e, this]; simp

end Remake
