import Verif.Flags.Spec
import Verif.Expand.Props
/-!
# Quoting and splitting
-/
set_option linter.unusedVariables false
set_option linter.unusedSimpArgs false
namespace Remake
open Remake.Spec

/-- Quoting without the doubling of `$`. -/
def escapeBlanks : Str → Str
  | [] => []
  | c :: cs => if isBlank c || c = '\\' then '\\' :: c :: escapeBlanks cs else c :: escapeBlanks cs

theorem escapeBlanks_append (a b : Str) : escapeBlanks (a ++ b) = escapeBlanks a ++ escapeBlanks b := by
  induction a with
  | nil => rfl
  | cons c a ih => simp only [List.cons_append, escapeBlanks, ih]; split <;> simp

theorem escapeBlanks_id {a : Str} (h : ∀ c ∈ a, isBlank c = false ∧ c ≠ '\\') : escapeBlanks a = a := by
  induction a with
  | nil => rfl
  | cons c a ih =>
    obtain ⟨h1, h2⟩ := h c (by simp)
    simp only [escapeBlanks]
    rw [if_neg (by simp [h1, h2]), ih (fun x hx => h x (by simp [hx]))]

theorem dollar_blank : isBlank '$' = false := by decide

/-- The expansion of a quoted text. -/
theorem expand_quoted (ext : List (VarSet × Bool) → Str → List Str → Option Str) (fuel : Nat) (st : XState) (w r : Str) :
    expand ext (fuel + 1) st (quoteForEnv w ++ r) =
      (expand ext (fuel + 1) st r).bind fun y st => .ok (escapeBlanks w ++ y) st := by
  induction w with
  | nil =>
    show expand ext (fuel + 1) st r = _
    cases expand ext (fuel + 1) st r <;> simp [XRes.bind, escapeBlanks]
  | cons c w ih =>
    have key : ∀ a b : Str, Closed a → expand ext (fuel + 1) st a = .ok b st →
        expand ext (fuel + 1) st (a ++ (quoteForEnv w ++ r)) =
        (expand ext (fuel + 1) st r).bind fun y st => .ok (b ++ (escapeBlanks w ++ y)) st := by
      intro a b ha hb
      rw [C28_concat ext fuel st a _ ha, hb]
      simp only [XRes.bind, ih]
      cases expand ext (fuel + 1) st r <;> simp [XRes.bind]
    simp only [quoteForEnv, escapeBlanks]
    by_cases h1 : c = '$'
    · subst h1
      rw [if_pos rfl, if_neg (by decide)]
      exact key ['$', '$'] ['$'] (.dollar .nil) (C28_dollar ext fuel st)
    · rw [if_neg h1]
      by_cases h2 : (isBlank c || decide (c = '\\')) = true
      · rw [if_pos h2, if_pos h2]
        exact key ['\\', c] ['\\', c] (.char (by decide) (.char h1 .nil)) (C28_literal ext fuel st _ (by simp; exact Ne.symm h1))
      · rw [if_neg h2, if_neg h2]
        exact key [c] [c] (.char h1 .nil) (C28_literal ext fuel st _ (by simp; exact Ne.symm h1))

/-! ### Splitting -/

theorem splitEnvGo_nil (acc : Str) : splitEnvGo acc [] = [acc.reverse] := by rw [splitEnvGo.eq_def]
theorem splitEnvGo_plain (acc : Str) {c : Char} (cs : Str) (h1 : c ≠ '\\') (h2 : isBlank c = false) :
    splitEnvGo acc (c :: cs) = splitEnvGo (c :: acc) cs := by
  rw [splitEnvGo.eq_def]; simp [h1, h2]
theorem splitEnvGo_escaped (acc : Str) (c : Char) (cs : Str) :
    splitEnvGo acc ('\\' :: c :: cs) = splitEnvGo (c :: acc) cs := by
  rw [splitEnvGo.eq_def]; simp
theorem splitEnvGo_blank (acc : Str) (cs : Str) :
    splitEnvGo acc (' ' :: cs) = acc.reverse :: splitEnvGo [] (cs.dropWhile isBlank) := by
  rw [splitEnvGo.eq_def]; simp [show isBlank ' ' = true by decide]

theorem splitEnvGo_word (acc w r : Str) : splitEnvGo acc (escapeBlanks w ++ r) = splitEnvGo (w.reverse ++ acc) r := by
  induction w generalizing acc with
  | nil => rfl
  | cons c w ih =>
    simp only [escapeBlanks]
    split
    · show splitEnvGo acc ('\\' :: c :: (escapeBlanks w ++ r)) = _
      rw [splitEnvGo_escaped, ih]; simp
    · rename_i h
      simp only [Bool.or_eq_true, decide_eq_true_eq, not_or, Bool.not_eq_true] at h
      show splitEnvGo acc (c :: (escapeBlanks w ++ r)) = _
      rw [splitEnvGo_plain acc _ h.2 h.1, ih]; simp

/-- Words with blanks between them, each escaped. -/
def joinEscaped : List Str → Str
  | [] => []
  | [w] => escapeBlanks w
  | w :: ws => escapeBlanks w ++ ' ' :: joinEscaped ws

theorem joinEscaped_cons (w : Str) {ws : List Str} (h : ws ≠ []) : joinEscaped (w :: ws) = escapeBlanks w ++ ' ' :: joinEscaped ws := by
  cases ws with
  | nil => exact absurd rfl h
  | cons x xs => rfl

theorem joinEscaped_append {a b : List Str} (ha : a ≠ []) (hb : b ≠ []) : joinEscaped (a ++ b) = joinEscaped a ++ ' ' :: joinEscaped b := by
  induction a with
  | nil => exact absurd rfl ha
  | cons w a ih =>
    by_cases h : a = []
    · subst h; exact joinEscaped_cons w hb
    · rw [List.cons_append, joinEscaped_cons w (by simp [h]), ih h, joinEscaped_cons w h]; simp

theorem escapeBlanks_head {w : Str} (h : w ≠ []) : ∀ c, (escapeBlanks w).head? = some c → isBlank c = false := by
  cases w with
  | nil => exact absurd rfl h
  | cons x w =>
    intro c hc
    simp only [escapeBlanks] at hc
    split at hc
    · simp at hc; subst hc; decide
    · rename_i hx
      simp at hc; subst hc
      simp only [Bool.or_eq_true, not_or, Bool.not_eq_true] at hx
      exact hx.1

theorem escapeBlanks_ne {w : Str} (h : w ≠ []) : escapeBlanks w ≠ [] := by
  cases w with
  | nil => exact absurd rfl h
  | cons x w => simp only [escapeBlanks]; split <;> simp

theorem joinEscaped_head {w : Str} {ws : List Str} (h : w ≠ []) :
    (joinEscaped (w :: ws)).head? = (escapeBlanks w).head? := by
  cases ws with
  | nil => rfl
  | cons x xs =>
    rw [joinEscaped_cons _ (by simp)]
    cases hh : escapeBlanks w with
    | nil => exact absurd hh (escapeBlanks_ne h)
    | cons a b => rfl

theorem split_joined (ws : List Str) (hne : ws ≠ []) (h : ∀ w ∈ ws, w ≠ []) : splitEnvGo [] (joinEscaped ws) = ws := by
  induction ws with
  | nil => exact absurd rfl hne
  | cons w ws ih =>
    by_cases hw : ws = []
    · subst hw
      have := splitEnvGo_word [] w []
      rw [List.append_nil, splitEnvGo_nil] at this
      simpa [joinEscaped] using this
    · rw [joinEscaped_cons w hw, splitEnvGo_word, splitEnvGo_blank]
      have hd : (joinEscaped ws).dropWhile isBlank = joinEscaped ws := by
        cases ws with
        | nil => exact absurd rfl hw
        | cons x xs =>
          have h1 := joinEscaped_head (ws := xs) (h x (by simp))
          have h2 := escapeBlanks_head (h x (by simp))
          cases hj : joinEscaped (x :: xs) with
          | nil => rfl
          | cons a b =>
            rw [hj] at h1
            have := h2 a (by rw [← h1]; rfl)
            simp [this]
      rw [hd, ih hw (fun x hx => h x (by simp [hx]))]
      simp

end Remake
