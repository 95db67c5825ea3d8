import Verif.Says.Model
import Verif.Says.Spec
import Verif.Read.LineProps
import Verif.Cmds.Props
set_option linter.unusedVariables false
set_option linter.unusedSimpArgs false
/-!
# Lemmas about the places of lines
-/
namespace Remake
open Spec

theorem oddEnd_endsOdd {s : Str} : OddEnd s ↔ EndsOdd s := by
  constructor
  · rintro ⟨a, k, e, h⟩
    exact ⟨a, 2 * k + 1, e, h, by omega⟩
  · rintro ⟨a, n, e, h, o⟩
    exact ⟨a, n / 2, by rw [e]; congr 2; omega, h⟩

theorem onlyEscaped_allEscaped {s : Str} : OnlyEscaped s ↔ AllEscaped s := by
  unfold OnlyEscaped AllEscaped
  constructor
  · intro h a b e; exact oddEnd_endsOdd.1 (h a b e)
  · intro h a b e; exact oddEnd_endsOdd.2 (h a b e)

theorem endsOdd_cons {c : Char} {t : Str} (h : c ≠ '\\') : EndsOdd (c :: t) ↔ EndsOdd t := by
  constructor
  · rintro ⟨a, n, e, l, o⟩
    cases a with
    | nil =>
      cases n with
      | zero => omega
      | succ n => simp [List.replicate_succ] at e; exact absurd e.1 h
    | cons d a =>
      simp at e
      refine ⟨a, n, e.2, ?_, o⟩
      cases a with
      | nil => simp
      | cons x a => simpa [List.getLast?_cons_cons] using l
  · rintro ⟨a, n, e, l, o⟩
    refine ⟨c :: a, n, by rw [e]; simp, ?_, o⟩
    cases a with
    | nil => simpa using h
    | cons x a => simpa [List.getLast?_cons_cons] using l

theorem allEscaped_tail {c : Char} {t : Str} (h : c ≠ '\\') (a : AllEscaped (c :: t)) : AllEscaped t := by
  intro x y e
  exact (endsOdd_cons h).1 (a (c :: x) y (by rw [e]; simp))

/-- The recipe that has these lines. -/
theorem lines_of_texts (ts : List Str) (h : ∀ t ∈ ts, AllEscaped t ∧ ¬ EndsOdd t) : Lines (ts.flatMap (· ++ ['\n'])) ts := by
  induction ts with
  | nil => exact .nil
  | cons t ts ih =>
    have := h t (by simp)
    simp only [List.flatMap_cons, List.append_assoc, List.singleton_append]
    exact .cons (onlyEscaped_allEscaped.2 this.1) (fun o => this.2 (oddEnd_endsOdd.1 o)) (ih fun x hx => h x (by simp [hx]))

theorem chop_join (ts : List Str) (h : ∀ t ∈ ts, AllEscaped t ∧ ¬ EndsOdd t) (n : ts.length < 2 ^ 16) :
    chopCommands false (ts.flatMap (· ++ ['\n'])) = ts := by
  have e : chopText (ts.flatMap (· ++ ['\n'])) = ts := lines_unique (chopText_lines _) (lines_of_texts ts h)
  rw [chopCommands]
  have := push_result (chopText (ts.flatMap (· ++ ['\n']))) (by rw [e]; exact n)
  rw [e] at this ⊢
  exact this

theorem rcSkip_iff (pre : Char) (l : Str) (h : l.head? ≠ some pre) : rcSkip l = true ↔ BlankOrComment pre l := by
  unfold rcSkip BlankOrComment
  constructor
  · intro e
    refine ⟨h, l.takeWhile isSpace, l.dropWhile isSpace, by rw [List.takeWhile_append_dropWhile], fun c hc => mem_takeWhile_imp hc, ?_⟩
    simp at e
    rcases e with e | e
    · left; simpa using e
    · right; simpa using e
  · rintro ⟨h', a, b, rfl, ha, hb⟩
    have : (a ++ b).dropWhile isSpace = b.dropWhile isSpace := by
      rw [List.dropWhile_append]
      have : a.dropWhile isSpace = [] := by
        clear hb h h'
        induction a with
        | nil => rfl
        | cons c a ih => rw [List.dropWhile_cons_of_pos (ha c (by simp))]; exact ih fun x hx => ha x (by simp [hx])
      simp [this]
    rw [this]
    rcases hb with rfl | hb
    · simp
    · cases b with
      | nil => simp
      | cons c b =>
        simp at hb
        subst hb
        have : ¬ isSpace '#' = true := by decide
        rw [List.dropWhile_cons_of_neg this]
        simp

/-- The recipe lines among lines. -/
def recipeTexts (pre : Char) (ls : List (Str × Nat)) : List Str :=
  (ls.filter fun l => l.1.head? = some pre).map fun l => l.1.tail

theorem takeRecipe_append (pre : Char) (ls more : List (Str × Nat)) (start : Nat) (cmds : Str) (hc : cmds ≠ [])
    (h : ∀ l ∈ ls, RecipeLine pre l.1 ∨ BlankOrComment pre l.1) :
    takeRecipe pre start cmds (ls ++ more) =
      takeRecipe pre start (cmds ++ (recipeTexts pre ls).flatMap (· ++ ['\n'])) more := by
  induction ls generalizing cmds with
  | nil => simp [recipeTexts]
  | cons l ls ih =>
    obtain ⟨l, n⟩ := l
    have hl := h (l, n) (by simp)
    have ih' := fun c hc => ih c hc fun x hx => h x (by simp [hx])
    cases l with
    | nil =>
      simp only [List.cons_append, takeRecipe]
      rw [ih' cmds hc]
      simp [recipeTexts]
    | cons c t =>
      simp only [List.cons_append, takeRecipe]
      by_cases e : c = pre
      · rw [if_pos e, if_neg hc, ih' _ (by simp)]
        simp [recipeTexts, e]
      · rw [if_neg e]
        have nt : BlankOrComment pre (c :: t) := by
          rcases hl with hl | hl
          · simp [RecipeLine] at hl; exact absurd hl e
          · exact hl
        rw [if_pos ((rcSkip_iff pre _ nt.1).2 nt), ih' cmds hc]
        simp [recipeTexts, e]

theorem takeRecipe_skip (pre : Char) (ls more : List (Str × Nat)) (start : Nat) (cmds : Str) (h : ∀ l ∈ ls, BlankOrComment pre l.1) :
    takeRecipe pre start cmds (ls ++ more) = takeRecipe pre start cmds more := by
  induction ls with
  | nil => rfl
  | cons l ls ih =>
    obtain ⟨l, n⟩ := l
    have nt : BlankOrComment pre l := h (l, n) (by simp)
    have ih' := ih fun x hx => h x (by simp [hx])
    cases l with
    | nil => simpa only [List.cons_append, takeRecipe] using ih'
    | cons c t =>
      simp only [List.cons_append, takeRecipe]
      rw [if_neg (fun e => nt.1 (by simp [e])), if_pos ((rcSkip_iff pre _ nt.1).2 nt)]
      exact ih'

theorem takeRecipe_more (pre : Char) (ls : List (Str × Nat)) (start : Nat) (cmds : Str) (hc : cmds ≠ []) :
    ∃ ts : List Str, takeRecipe pre start cmds ls = (start, cmds ++ ts.flatMap (· ++ ['\n'])) ∧ ts.Sublist (recipeTexts pre ls) := by
  induction ls generalizing cmds with
  | nil => exact ⟨[], by simp [takeRecipe], by simp⟩
  | cons l ls ih =>
    obtain ⟨l, n⟩ := l
    cases l with
    | nil =>
      obtain ⟨ts, e, s⟩ := ih cmds hc
      exact ⟨ts, by simpa only [takeRecipe] using e, by simpa [recipeTexts] using s⟩
    | cons c t =>
      simp only [takeRecipe]
      by_cases e : c = pre
      · rw [if_pos e, if_neg hc]
        obtain ⟨ts, e', s⟩ := ih (cmds ++ t ++ ['\n']) (by simp)
        exact ⟨t :: ts, by rw [e']; simp, by simpa [recipeTexts, e] using s⟩
      · rw [if_neg e]
        split
        · obtain ⟨ts, e', s⟩ := ih cmds hc
          exact ⟨ts, e', by simpa [recipeTexts, e] using s⟩
        · exact ⟨[], by simp, by simp⟩

/-- All lines but the last have as many newlines as their number says, and are whole. -/
theorem numberLines_spec {text : Str} {ls : List (Str × Int)} (h : CountedLines text ls) (n : Nat) :
    ∀ x l k y, numberLines n ls = x ++ (l, k) :: y →
      ∃ a b, text = a ++ l ++ b ∧ k = n + a.count '\n' ∧ (a = [] ∨ a.getLast? = some '\n') ∧ (b = [] ∨ b.head? = some '\n') ∧
        AllEscaped l ∧ (EndsOdd l → text.getLast? = some '\\') := by
  induction h generalizing n with
  | nil => intro x l k y e; simp [numberLines] at e
  | @last l hne he =>
    intro x l' k y e
    simp only [numberLines] at e
    cases x with
    | nil =>
      simp at e
      obtain ⟨⟨rfl, rfl⟩, _⟩ := e
      refine ⟨[], [], by simp, by simp, .inl rfl, .inl rfl, he, ?_⟩
      rintro ⟨a, m, e, _, o⟩
      rw [e]
      obtain ⟨m, rfl⟩ : ∃ j, m = j + 1 := ⟨m - 1, by omega⟩
      rw [List.replicate_succ', ← List.append_assoc]
      simp
    | cons z x => simp at e
  | @line l rest ls he ho h ih =>
    intro x l' k y e
    simp only [numberLines] at e
    cases x with
    | nil =>
      simp at e
      obtain ⟨⟨rfl, rfl⟩, _⟩ := e
      exact ⟨[], '\n' :: rest, by simp, by simp, .inl rfl, .inr rfl, he, fun o => absurd o ho⟩
    | cons z x =>
      simp at e
      obtain ⟨a, b, e1, e2, e3, e4, e5, e6⟩ := ih _ x l' k y e.2
      refine ⟨l ++ '\n' :: a, b, by rw [e1]; simp, ?_, .inr ?_, e4, e5, ?_⟩
      · rw [e2]; simp; omega
      · rcases e3 with rfl | e3
        · simp
        · cases a with
          | nil => simp at e3
          | cons c a => rw [List.getLast?_append, List.getLast?_cons_cons, e3]; rfl
      · intro o
        have := e6 o
        cases rest with
        | nil => simp at this
        | cons c r => rw [List.getLast?_append, List.getLast?_cons_cons, this]; rfl

theorem numberLines_next {text : Str} {ls : List (Str × Int)} (h : CountedLines text ls) (n : Nat) :
    ∀ x l k m l' k' y, numberLines n ls = x ++ (l, k) :: (m ++ (l', k') :: y) →
      k' = k + (((l, k) :: m).map fun z => z.1.count '\n' + 1).sum := by
  induction h generalizing n with
  | nil => intro x l k m l' k' y e; simp [numberLines] at e
  | @last l hne he =>
    intro x l1 k m l' k' y e
    have := congrArg List.length e
    simp [numberLines] at this
    omega
  | @line l rest ls he ho h ih =>
    intro x l1 k m l' k' y e
    simp only [numberLines] at e
    cases x with
    | cons z x =>
      simp at e
      exact ih _ x l1 k m l' k' y e.2
    | nil =>
      simp at e
      obtain ⟨⟨rfl, rfl⟩, e⟩ := e
      cases m with
      | nil =>
        cases ls with
        | nil => simp [numberLines] at e
        | cons z ls =>
          simp [numberLines] at e
          simp; omega
      | cons w m =>
        obtain ⟨w, kw⟩ := w
        have := ih _ [] w kw m l' k' y (by simpa using e)
        cases ls with
        | nil => simp [numberLines] at e
        | cons z ls =>
          simp [numberLines] at e
          simp at this ⊢
          omega

end Remake
