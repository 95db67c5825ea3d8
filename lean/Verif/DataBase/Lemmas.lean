import Verif.DataBase.Spec
import Verif.Read.LineProps
import Verif.Reader.Props2
import Verif.Print.Lemmas
import Verif.Snap.Lemmas
set_option linter.unusedVariables false
set_option linter.unusedSimpArgs false
namespace Remake
open Spec

variable {σ : Type}

/-! ## Recipe lines -/

theorem trailingBs_snoc (a : Str) (c : Char) : trailingBs (a ++ [c]) = if c = '\\' then trailingBs a + 1 else 0 := by
  unfold trailingBs
  by_cases h : c = '\\' <;> simp [h]

theorem trailingBs_cons {p : Char} (hp : p ≠ '\\') (a : Str) : trailingBs (p :: a) = trailingBs a := by
  unfold trailingBs
  rw [List.reverse_cons, List.takeWhile_append]
  split
  · next h => simp [hp]; simpa using h.symm
  · simp [hp]

theorem dbCmdLine_go (rest : Str) : ∀ (l pre : Str), AllEscaped (pre ++ l) → ¬ EndsOdd (pre ++ l) →
    dbCmdLine (decide (trailingBs pre % 2 = 1)) (l ++ '\n' :: rest) = (l, rest) := by
  intro l
  induction l with
  | nil =>
    intro pre h1 h2
    rw [List.append_nil, endsOdd_iff] at h2
    simp [dbCmdLine, h2]
  | cons c l ih =>
    intro pre h1 h2
    have hn : ¬ (c = '\n' ∧ decide (trailingBs pre % 2 = 1) = false) := by
      rintro ⟨rfl, hb⟩
      have := endsOdd_iff.1 (h1 pre l rfl)
      simp [this] at hb
    have e : (c == '\\' && !decide (trailingBs pre % 2 = 1)) = decide (trailingBs (pre ++ [c]) % 2 = 1) := by
      rw [trailingBs_snoc]
      by_cases hc : c = '\\'
      · subst hc
        by_cases ho : trailingBs pre % 2 = 1
        · simp [ho]; omega
        · simp [ho]; omega
      · simp [hc]
    rw [List.cons_append, dbCmdLine, if_neg hn, e, ih (pre ++ [c]) (by simpa using h1) (by simpa using h2)]

theorem dbCmdLine_line {l rest : Str} (h1 : AllEscaped l) (h2 : ¬ EndsOdd l) :
    dbCmdLine false (l ++ '\n' :: rest) = (l, rest) := dbCmdLine_go rest l [] h1 h2

theorem dbCmdLines_whole (p : Char) {t : Str} {ls : List Str} (h : RecipeRows t ls) :
    dbCmdLines p t = ls.flatMap fun l => p :: l ++ ['\n'] := by
  obtain ⟨rfl, h⟩ := h
  induction ls with
  | nil => rw [dbCmdLines.eq_def]; rfl
  | cons l ls ih =>
    have hl := h l (by simp)
    rw [dbCmdLines.eq_def, dif_neg (by simp)]
    have e : (l :: ls).flatMap (fun l => l ++ ['\n']) = l ++ '\n' :: ls.flatMap (fun l => l ++ ['\n']) := by simp
    rw [e, dbCmdLine_line hl.1 hl.2]
    simp only [ih fun x hx => h x (by simp [hx])]
    simp

/-- A line of the data base. -/
def Whole (l : Str) : Prop := AllEscaped l ∧ ¬ EndsOdd l

theorem whole_plain {l : Str} (h1 : '\n' ∉ l) (h2 : '\\' ∉ l) : Whole l := by
  refine ⟨allEscaped_no_nl h1, ?_⟩
  rintro ⟨a, n, rfl, -, ho⟩
  cases n with
  | zero => simp at ho
  | succ n => exact h2 (by simp [List.replicate_succ])

theorem whole_recipe {p : Char} (hp : p ≠ '\\') (hn : p ≠ '\n') {l : Str} (h : Whole l) : Whole (p :: l) := by
  constructor
  · intro a b e
    cases a with
    | nil => cases e; exact absurd rfl hn
    | cons x a =>
      cases e
      rw [endsOdd_iff, trailingBs_cons hp, ← endsOdd_iff]
      exact h.1 a b rfl
  · rw [endsOdd_iff, trailingBs_cons hp, ← endsOdd_iff]
    exact h.2

theorem lines_of_whole : ∀ {ls : List Str}, (∀ l ∈ ls, Whole l) → readString (ls.flatMap fun l => l ++ ['\n']) = ls := by
  intro ls h
  refine (C16_string _).unique ?_
  induction ls with
  | nil => exact .nil
  | cons l ls ih =>
    have : (l :: ls).flatMap (fun l => l ++ ['\n']) = l ++ '\n' :: ls.flatMap (fun l => l ++ ['\n']) := by simp
    rw [this]
    exact .line (h l (by simp)).1 (h l (by simp)).2 (ih fun x hx => h x (by simp [hx]))

/-! ## The lines of a file -/

/-- The lines before the rule. -/
def dbLead (f : DbFile) : List Str := [] :: if f.isTarget then [] else [dbNotTarget]

/-- The rule line. -/
def dbHead (f : DbFile) : Str := f.name ++ ':' :: ((if f.double then [':'] else []) ++ printPrereqs f.deps)

/-- The recipe of a file. -/
def dbText (f : DbFile) : Str :=
  match f.cmds with
  | none => []
  | some c => c.text

/-- The lines after the rule; `ls` are those of the recipe. -/
def dbTrail (p : Char) (f : DbFile) (ls : List Str) : List Str :=
  (dbNotes f).map (fun n => '#' :: n) ++
    match f.cmds with
    | none => []
    | some c => (dbRecipeNote ++ c.place) :: ls.map fun l => p :: l

theorem printFile_lines {p : Char} {f : DbFile} (h : DbFileOk p f) : ∃ ls, RecipeRows (dbText f) ls ∧
    printFile p f = (p, (dbLead f ++ dbHead f :: dbTrail p f ls).flatMap fun l => l ++ ['\n']) := by
  have hp : dbPrefix p f = (p, []) := by
    unfold dbPrefix
    cases hc : f.cmds with
    | none => rfl
    | some c => simp [(h.cmds c hc).1]
  have hnotes : ∀ ns : List Str, (ns.map fun n => '#' :: n).flatMap (fun l => l ++ ['\n']) =
      ns.flatMap (fun n => '#' :: n ++ ['\n']) := by
    intro ns; rw [List.flatMap_map]
  have hlead : (dbLead f).flatMap (fun l => l ++ ['\n']) =
      '\n' :: (if f.isTarget then [] else dbNotTarget ++ ['\n']) := by
    unfold dbLead; cases f.isTarget <;> simp
  cases hc : f.cmds with
  | none =>
    refine ⟨[], ⟨by simp [dbText, hc], by simp⟩, ?_⟩
    unfold printFile dbTrail
    simp only [hp, hc, List.append_nil, List.flatMap_append, List.flatMap_cons, hlead, hnotes, dbHead]
    simp
  | some c =>
    obtain ⟨h1, h2, ls, hl⟩ := h.cmds c hc
    refine ⟨ls, by simpa [dbText, hc] using hl, ?_⟩
    have hr : (ls.map fun l => p :: l).flatMap (fun l => l ++ ['\n']) = ls.flatMap fun l => p :: l ++ ['\n'] := by
      rw [List.flatMap_map]
    unfold printFile dbTrail printCommands
    simp only [hp, hc, List.flatMap_append, List.flatMap_cons, hlead, hnotes, hr, dbHead, dbCmdLines_whole p hl]
    simp

theorem dbName_chars {w : Str} (h : DbName w) {c : Char} (hc : isSpace c = true ∨
    c ∈ ['=', ':', '$', '\\', '&', ';', '#', '(', '~', '?', '*', '[', '|']) : c ∉ w := by
  intro hm
  have := h.2.1 c hm
  rcases hc with hc | hc
  · rw [this.1] at hc; cases hc
  · exact this.2 hc

theorem prereqs_chars {ds : List PreReq} (h : ∀ d ∈ ds, DbName d.name) {c : Char} (hc : c ∈ printPrereqs ds) :
    c = ' ' ∨ c = '|' ∨ ∃ d ∈ ds, c ∈ d.name := by
  unfold printPrereqs at hc
  simp only [List.mem_append, List.mem_flatMap, List.mem_filter, List.mem_cons] at hc
  rcases hc with ⟨d, hd, rfl | hc⟩ | hc
  · exact .inl rfl
  · exact .inr (.inr ⟨d, hd.1, hc⟩)
  · have hsub : ∀ d ∈ ds.filter (fun d => d.orderOnly), d ∈ ds := fun d hd => (List.mem_filter.1 hd).1
    revert hc hsub
    generalize ds.filter (fun d => d.orderOnly) = os
    intro hc hsub
    cases os with
    | nil => cases hc
    | cons o os =>
      simp only [List.mem_cons, List.mem_append, List.mem_flatMap] at hc
      rcases hc with (rfl | rfl | rfl | hc) | ⟨d, hd, rfl | hc⟩
      · exact .inl rfl
      · exact .inr (.inl rfl)
      · exact .inl rfl
      · exact .inr (.inr ⟨o, hsub o (by simp), hc⟩)
      · exact .inl rfl
      · exact .inr (.inr ⟨d, hsub d (by simp [hd]), hc⟩)

theorem prereqs_not {ds : List PreReq} (h : ∀ d ∈ ds, DbName d.name) {c : Char}
    (hc : c ∈ ['\n', '=', ':', '$', '\\', '&', ';', '#', '(', '~', '?', '*', '[']) : c ∉ printPrereqs ds := by
  intro hm
  have hs : c ≠ ' ' ∧ c ≠ '|' ∧ (isSpace c = true ∨ c ∈ ['=', ':', '$', '\\', '&', ';', '#', '(', '~', '?', '*', '[', '|']) := by
    revert c
    intro c hc _
    simp only [List.mem_cons, List.not_mem_nil, or_false] at hc
    rcases hc with rfl | rfl | rfl | rfl | rfl | rfl | rfl | rfl | rfl | rfl | rfl | rfl | rfl <;> decide
  rcases prereqs_chars h hm with e | e | ⟨d, hd, hd'⟩
  · exact hs.1 e
  · exact hs.2.1 e
  · exact dbName_chars (h d hd) hs.2.2 hd'

theorem head_not {p : Char} {f : DbFile} (h : DbFileOk p f) {c : Char}
    (hc : c ∈ ['\n', '=', '$', '\\', '&', ';', '#', '(', '~', '?', '*', '[']) : c ∉ dbHead f := by
  intro hm
  unfold dbHead at hm
  simp only [List.mem_append, List.mem_cons] at hm
  have hne : c ≠ ':' ∧ (isSpace c = true ∨ c ∈ ['=', ':', '$', '\\', '&', ';', '#', '(', '~', '?', '*', '[', '|']) ∧
      c ∈ ['\n', '=', ':', '$', '\\', '&', ';', '#', '(', '~', '?', '*', '['] := by
    revert c
    intro c hc _
    simp only [List.mem_cons, List.not_mem_nil, or_false] at hc
    rcases hc with rfl | rfl | rfl | rfl | rfl | rfl | rfl | rfl | rfl | rfl | rfl | rfl <;> decide
  rcases hm with hm | hm | hm | hm
  · exact dbName_chars h.name hne.2.1 hm
  · exact hne.1 hm
  · split at hm
    · simp only [List.mem_singleton] at hm; exact hne.1 hm
    · cases hm
  · exact prereqs_not (fun d hd => (h.deps d hd).1) hne.2.2 hm

end Remake
