import Verif.Print.Spec
import Verif.Read.LineProps
import Verif.Read.CondProps
import Verif.Quote.Props
import Verif.Reader.Props
import Verif.Var.Props
import Verif.Expand.Props
set_option linter.unusedVariables false
set_option linter.unusedSimpArgs false
/-! Lemmas about printed variables (C114). -/
namespace Remake
open Spec

/-! ## Lines -/

theorem logical_of_lines (ls : List Str) (h : ∀ l ∈ ls, PrintedLine l) :
    LogicalLines (ls.flatMap (· ++ ['\n'])) ls := by
  induction ls with
  | nil => exact .nil
  | cons l ls ih =>
    obtain ⟨h1, h2, h3, h4⟩ := h l (by simp)
    have := LogicalLines.line (allEscaped_no_nl h1) h3 (ih fun x hx => h x (by simp [hx]))
    simpa using this

theorem dropCr_lines (ls : List Str) (h : ∀ l ∈ ls, PrintedLine l) :
    dropCr (ls.flatMap (· ++ ['\n'])) = ls.flatMap (· ++ ['\n']) := by
  induction ls with
  | nil => rfl
  | cons l ls ih =>
    obtain ⟨h1, h2, h3, h4⟩ := h l (by simp)
    have ih := ih fun x hx => h x (by simp [hx])
    rw [List.flatMap_cons, List.append_assoc, List.singleton_append, dropCr_line h1, ih]
    rw [stripCr, if_neg h4]

theorem readFile_lines (ls : List Str) (h : ∀ l ∈ ls, PrintedLine l) :
    ∃ cs, readFile (ls.flatMap (· ++ ['\n'])) = some cs ∧ cs.map (·.1) = ls := by
  have hn : '\x00' ∉ ls.flatMap (· ++ ['\n']) := by
    intro hc
    obtain ⟨l, hl, hc⟩ := List.mem_flatMap.mp hc
    rcases List.mem_append.mp hc with hc | hc
    · exact (h l hl).2.1 hc
    · simp at hc
  obtain ⟨cs, h1, h2⟩ := C16_file_partial _ hn
  refine ⟨cs, h1, ?_⟩
  rw [dropCr_lines ls h] at h2
  exact (h2.logical).unique (logical_of_lines ls h)

/-! ## Comments -/

theorem commentRead_no_hash {t k : Str} {com : Option Str} (h : CommentRead t k com) (hh : '#' ∉ t) :
    k = t ∧ com = none := by
  induction h with
  | nil => exact ⟨rfl, rfl⟩
  | lone => exact ⟨rfl, rfl⟩
  | char _ _ _ _ ih => obtain ⟨rfl, rfl⟩ := ih (fun hc => hh (by simp [hc])); exact ⟨rfl, rfl⟩
  | dollarBs _ _ ih => obtain ⟨rfl, rfl⟩ := ih (fun hc => hh (by simp [hc])); exact ⟨rfl, rfl⟩
  | dollar _ _ _ _ ih => obtain ⟨rfl, rfl⟩ := ih (fun hc => hh (by simp [hc])); exact ⟨rfl, rfl⟩
  | ref _ _ _ _ ih => obtain ⟨rfl, rfl⟩ := ih (fun hc => hh (by simp [hc])); exact ⟨rfl, rfl⟩
  | unterminated _ _ => exact ⟨rfl, rfl⟩
  | backslashes _ _ _ _ ih => obtain ⟨rfl, rfl⟩ := ih (fun hc => hh (by simp [hc])); exact ⟨rfl, rfl⟩
  | cut => exact absurd (by simp) hh
  | quoted _ _ => exact absurd (by simp) hh

theorem commentRead_none {t : Str} (hh : '#' ∉ t) : CommentRead t t none := by
  obtain ⟨k, com, h⟩ := C18_reading_exists t
  obtain ⟨rfl, rfl⟩ := commentRead_no_hash h hh
  exact h

theorem commentRead_prefix {t k : Str} {com : Option Str} (h : CommentRead t k com) :
    ∀ (n : Nat) (p : Str), p.length ≤ n → '#' ∉ p → '$' ∉ p → p.getLast? ≠ some '\\' →
      CommentRead (p ++ t) (p ++ k) com := by
  intro n
  induction n with
  | zero =>
    intro p hp
    rw [List.length_eq_zero_iff.mp (Nat.le_zero.mp hp)]
    intros; exact h
  | succ n ih =>
    intro p hp h1 h2 h3
    obtain ⟨j, r, rfl, hr⟩ := leading_bs p
    cases r with
    | nil =>
      cases j with
      | zero => exact h
      | succ j => exact absurd (by simp [List.replicate_succ']) h3
    | cons c r =>
      have hc1 : c ≠ '#' := by rintro rfl; simp at h1
      have hc2 : c ≠ '$' := by rintro rfl; simp at h2
      have hc3 : c ≠ '\\' := by rintro rfl; simp at hr
      have hlast : r.getLast? ≠ some '\\' := by
        cases r with
        | nil => simp
        | cons d r => intro hl; apply h3; simpa [List.getLast?_append, List.getLast?_cons_cons] using hl
      have hstep :=
        CommentRead.char hc1 hc3 hc2 (ih r (by simp at hp; omega)
        (fun hx => h1 (by simp [hx])) (fun hx => h2 (by simp [hx])) hlast)
      cases j with
      | zero => simpa using hstep
      | succ j =>
        have := CommentRead.backslashes (k := j + 1) (by omega) (by simpa using hr) (by simpa using hc1) hstep
        simpa using this

/-- A line that is kept as it is. -/
theorem evalText_kept {posix : Bool} {l : Str} (h1 : '\n' ∉ l) (h2 : CommentRead l l none)
    (h3 : l.head?.all (fun c => !isSpace c) = true) : evalText posix l = l := by
  rw [evalText, C17_no_newline posix l h1, (C18_comments _ _ _ h2).1]
  cases l with
  | nil => rfl
  | cons c l => simp only [List.head?_cons, Option.all_some, Bool.not_eq_true'] at h3; simp [nextToken, h3]

theorem evalText_cut {posix : Bool} {l k : Str} {com : Option Str} (h1 : '\n' ∉ l) (h2 : CommentRead l k com)
    (h3 : k.head?.all (fun c => !isSpace c) = true) : evalText posix l = k := by
  rw [evalText, C17_no_newline posix l h1, (C18_comments _ _ _ h2).1]
  cases k with
  | nil => rfl
  | cons c k => simp only [List.head?_cons, Option.all_some, Bool.not_eq_true'] at h3; simp [nextToken, h3]

theorem evalText_comment {posix : Bool} {l : Str} (h1 : '\n' ∉ l) : evalText posix ('#' :: l) = [] := by
  rw [evalText, C17_no_newline posix _ (by simp [h1]),
    (C18_comments ('#' :: l) [] (some l) (CommentRead.cut (k := 0))).1]
  rfl

/-! ## Doubled dollar signs -/

theorem doubleDollars_mem {c : Char} (v : Str) : c ∈ doubleDollars v ↔ c ∈ v := by
  induction v with
  | nil => simp [doubleDollars]
  | cons d v ih =>
    rw [doubleDollars]
    split
    · rename_i h; subst h; simp [ih]
    · simp [ih]

theorem lex_doubleDollars (v : Str) : lex (doubleDollars v) = v.map .char := by
  induction v with
  | nil => simp [doubleDollars, lex_nil]
  | cons d v ih =>
    rw [doubleDollars]
    split
    · rename_i h; subst h; rw [lex_dollar, ih]; rfl
    · rename_i h; rw [lex_char h, ih]; rfl

theorem doubleDollars_getLast (v : Str) : (doubleDollars v).getLast? = v.getLast? := by
  induction v with
  | nil => rfl
  | cons d v ih =>
    cases v with
    | nil => rw [doubleDollars]; split <;> simp [doubleDollars, *]
    | cons e v =>
      have hne : doubleDollars (e :: v) ≠ [] := by rw [doubleDollars]; split <;> simp
      obtain ⟨x, y, hxy⟩ := List.exists_cons_of_ne_nil hne
      rw [doubleDollars]
      split
      · rw [hxy] at ih ⊢; simpa [List.getLast?_cons_cons] using ih
      · rw [hxy] at ih ⊢; simpa [List.getLast?_cons_cons] using ih

theorem doubleDollars_append (a b : Str) : doubleDollars (a ++ b) = doubleDollars a ++ doubleDollars b := by
  induction a with
  | nil => rfl
  | cons c a ih => simp only [List.cons_append, doubleDollars, ih]; split <;> simp

theorem doubleDollars_id {a : Str} (h : '$' ∉ a) : doubleDollars a = a := by
  induction a with
  | nil => rfl
  | cons c a ih =>
    rw [doubleDollars, if_neg (by rintro rfl; simp at h), ih (fun hc => h (by simp [hc]))]

theorem doubleDollars_endsOdd {v : Str} (h : ¬ EndsOdd v) : ¬ EndsOdd (doubleDollars v) := by
  obtain ⟨a, n, rfl, ha⟩ := split_trailing_bs v
  have e : doubleDollars (List.replicate n '\\') = List.replicate n '\\' :=
    doubleDollars_id (by simp [List.mem_replicate])
  rw [doubleDollars_append, e]
  rw [endsOdd_iff, trailingBs_append (by rw [doubleDollars_getLast]; exact ha)]
  rw [endsOdd_iff, trailingBs_append ha] at h
  exact h

theorem doubleDollars_head (v : Str) : (doubleDollars v).head? = v.head? := by
  cases v with
  | nil => rfl
  | cons c v => rw [doubleDollars]; split <;> simp [*]

/-! ## Expansion -/

theorem expand_doubled {ext : List (VarSet × Bool) → Str → List Str → Option Str} (fuel : Nat) (x : XState) (v : Str) :
    expand ext (fuel + 1) x (doubleDollars v) = .ok v x := by
  simp only [expand, lex_doubleDollars, evalToks_chars]

theorem argText_blank {v : Str} (h : ∀ c ∈ v, isSpace c = true) : ArgText '(' ')' v := by
  induction v with
  | nil => exact .nil
  | cons c v ih =>
    have hc := h c (by simp)
    refine .char ?_ ?_ ?_ (ih fun d hd => h d (by simp [hd]))
    all_goals rintro rfl; revert hc; decide

theorem space_no_dollar {v : Str} (h : ∀ c ∈ v, isSpace c = true) {d : Char} (hd : isSpace d = false) : d ∉ v :=
  fun hm => by rw [h d hm] at hd; cases hd

theorem expand_subst {ext : List (VarSet × Bool) → Str → List Str → Option Str} (hs : SubstOk ext) (fuel : Nat)
    (x : XState) {v : Str} (h : ∀ c ∈ v, isSpace c = true) :
    expand ext (fuel + 2) x ("$(subst ,,".toList ++ v ++ [')']) = .ok v x := by
  have ht : ArgTexts [[], [], v] := by
    refine ⟨by simp, ?_, by simp⟩
    intro t ht
    simp only [List.mem_cons, List.not_mem_nil, or_false] at ht
    rcases ht with rfl | rfl | rfl
    · exact .nil
    · exact .nil
    · exact argText_blank h
  have e : "$(subst ,,".toList ++ v ++ [')'] = fnText "subst" [[], [], v] ++ [] := by
    simp [fnText, joinArgs]
  have he : (⟨"subst".toList, 3, 3, true, .other⟩ : FnEntry) ∈ fnTable := by decide
  rw [e, expand, lex_fn he rfl ht (Or.inr (by simp)), lex_nil]
  have h0 : ∀ s : Str, '$' ∉ s → expand ext (fuel + 1) x s = .ok s x := fun s hs => C28_literal _ fuel x s hs
  simp only [evalToks, evalRef, expandArgs, h0 [] (by simp), h0 v (space_no_dollar h (by decide)), XRes.bind, applyFn,
    if_true, List.length_cons, List.length_nil]
  have := hs x.chain v
  simp only [Nat.lt_irrefl, if_false, this, List.append_nil]

end Remake
