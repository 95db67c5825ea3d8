import Verif.Direct.Spec
import Verif.Print.AssignProps
import Verif.Vpath.Props
set_option linter.unusedVariables false
set_option linter.unusedSimpArgs false
/-! Lemmas about statements of makefiles (C116). -/
namespace Remake
open Spec

/-! ## The statements that a text about variables leads to, in any reader -/

/-- What the reader is told to do. -/
inductive VarEvent where
  | assign (m : VMods) (q : Str)
  | define (m : VMods) (q body : Str)

def VarEvent.run {σ : Type} (E : RdEnv σ) (s : σ) : VarEvent → σ
  | .assign m q => E.assign s m q
  | .define m q b => E.define s m q b

inductive EventMeans : VarEvent → VarStmt → Prop
  | assign {m : VMods} {q n v : Str} {f : Flavor} : m.undefineV = false → IsAssignment q n f v →
      EventMeans (.assign m q) (.assign m n f v)
  | undefine {m : VMods} {q : Str} : m.undefineV = true → EventMeans (.assign m q) (.undefine m q)
  | define {m : VMods} {q n b : Str} {f : Flavor} : DefineHead q n f → EventMeans (.define m q b) (.define m n f b)

inductive EventsMean : List VarEvent → List VarStmt → Prop
  | nil : EventsMean [] []
  | cons {e : VarEvent} {s : VarStmt} {es : List VarEvent} {ss : List VarStmt} : EventMeans e s → EventsMean es ss →
      EventsMean (e :: es) (s :: ss)

theorem varText_events {posix : Bool} {c : Char} {ls : List Str} {ss : List VarStmt} (h : VarText posix c ls ss) :
    ∃ es, EventsMean es ss ∧ ∀ {σ : Type} (E : RdEnv σ), E.posix = posix → (∀ s, E.cmdPrefix s = c) → ∀ s rest,
      evalLoop (readerEnv E) (atLine s) [] false false (ls ++ rest) =
        evalLoop (readerEnv E) (atLine (es.foldl (VarEvent.run E) s)) [] false false rest := by
  induction h with
  | nil => exact ⟨[], .nil, fun _ _ _ _ _ => rfl⟩
  | blank h1 h2 h3 ih =>
    obtain ⟨es, k1, k2⟩ := ih
    refine ⟨es, k1, fun E hp hc s rest => ?_⟩
    rw [List.cons_append, atLine_blank _ _ _ (.inr ?_)]
    · exact k2 E hp hc s rest
    · rw [hp, read_stripped h1]; exact nextToken_nil_iff.2 h2
  | @assign l t q n v com m f ls ss h1 h2 h3 h4 h5 h6 ih =>
    obtain ⟨es, k1, k2⟩ := ih
    refine ⟨.assign m q :: es, .cons (.assign h4 h5) k1, fun E hp hc s rest => ?_⟩
    obtain ⟨g1, g2⟩ := line_step h1 h2
    rw [List.cons_append, atLine_assign _ _ _ _ _ g1 (by rw [hp]; exact g2) h3]
    exact k2 E hp hc _ rest
  | @undefine l t q com m ls ss h1 h2 h3 h4 h6 ih =>
    obtain ⟨es, k1, k2⟩ := ih
    refine ⟨.assign m q :: es, .cons (.undefine h4) k1, fun E hp hc s rest => ?_⟩
    obtain ⟨g1, g2⟩ := line_step h1 h2
    rw [List.cons_append, atLine_assign _ _ _ _ _ g1 (by rw [hp]; exact g2) h3]
    exact k2 E hp hc _ rest
  | @define l t q n e com m f body ls ss h1 h2 h3 h4 h5 h6 h7 h8 ih =>
    obtain ⟨es, k1, k2⟩ := ih
    refine ⟨.define m q _ :: es, .cons (.define h4) k1, fun E hp hc s rest => ?_⟩
    obtain ⟨g1, g2⟩ := line_step h1 h2
    have htake : takeDefine E.posix (E.cmdPrefix s) 1 (body ++ e :: (ls ++ rest)) =
        some (body.map (collapseContinuations posix), ls ++ rest) := by
      rw [hc, hp, C21_define_partial]
      refine ⟨body, e, rfl, h5, h7, ?_⟩
      apply List.map_congr_left
      intro b hb
      exact (C21_text _ _ _ (h6 b hb)).symm
    rw [List.cons_append, List.append_assoc, List.cons_append, atLine_define _ _ _ _ _ _ _ g1 (by rw [hp]; exact g2) h3 htake]
    exact k2 E hp hc _ rest

/-! ## Directives in any reader -/

theorem wordLine_parts {t w text : Str} (hw : w ≠ []) (hs : ∀ c ∈ w, isSpace c = false) (h : WordLine t w text) :
    tokenPrefix (nextToken t) = w ∧ nextToken (endOfToken (nextToken t)) = text := by
  obtain ⟨a, b, rfl, ha, hb, hbt, ht⟩ := h
  have e1 : nextToken (a ++ w ++ b ++ text) = w ++ (b ++ text) := by
    rw [List.append_assoc, List.append_assoc, nextToken_blank a ha]
    obtain ⟨c, w', rfl⟩ := List.exists_cons_of_ne_nil hw
    simp [nextToken, hs c (by simp)]
  have hh : ∀ c, (b ++ text).head? = some c → isSpace c = true := by
    intro c hc
    cases b with
    | nil => rw [hbt rfl] at hc; simp at hc
    | cons d b => simp at hc; exact hb c (by simp [hc])
  have e2 : endOfToken (w ++ (b ++ text)) = b ++ text := by
    unfold endOfToken
    rw [List.dropWhile_append_of_pos (by intro c hc; simp [hs c hc])]
    cases hbt' : b ++ text with
    | nil => rfl
    | cons d r => rw [List.dropWhile_cons, if_neg (by simp [hh d (by rw [hbt']; rfl)])]
  have e3 : tokenPrefix (w ++ (b ++ text)) = w := by
    unfold tokenPrefix
    rw [List.takeWhile_append_of_pos (by intro c hc; simp [hs c hc])]
    cases hbt' : b ++ text with
    | nil => simp
    | cons d r => rw [List.takeWhile_cons, if_neg (by simp [hh d (by rw [hbt']; rfl)])]; simp
  rw [e1, e2, e3]
  refine ⟨rfl, ?_⟩
  rw [nextToken_blank b hb]
  cases text with
  | nil => rfl
  | cons c r => simp at ht; simp [nextToken, ht]

theorem directive_event {σ : Type} (E : RdEnv σ) (s : σ) {l t w text : Str} {com : Option Str} (rest : List Str)
    (h1 : CommentRead (collapseContinuations E.posix l) t com) (h2 : ∀ m q, ¬ AssignLine t m q) (h3 : WordLine t w text)
    (hw : w ∈ ["export".toList, "unexport".toList, "vpath".toList]) :
    evalLoop (readerEnv E) (atLine s) [] false false (l :: rest) =
      evalLoop (readerEnv E) (atLine (E.directive s w text)) [] false false rest := by
  have hw0 : w ≠ [] ∧ (∀ c ∈ w, isSpace c = false) ∧ w ∈ directiveWords ∧ condWord w = none := by
    simp only [List.mem_cons, List.not_mem_nil, or_false] at hw
    rcases hw with rfl | rfl | rfl <;> decide
  obtain ⟨g1, g2⟩ := wordLine_parts hw0.1 hw0.2.1 h3
  have hev : evalText E.posix l = nextToken t := read_stripped h1
  have hne : nextToken t ≠ [] := by
    intro h; rw [h] at g1; exact hw0.1 (by rw [← g1]; rfl)
  have hl : l ≠ [] := by
    rintro rfl
    rw [evalText, C17_no_newline E.posix [] (by simp), removeComments_nil] at hev
    exact hne hev.symm
  have hp : parseVarAssignment (nextToken t) = none := by
    rw [assignLine_token]
    cases hp : parseVarAssignment t with
    | none => rfl
    | some r => exact absurd ((C90_modifiers t r.1 r.2).mp (by rw [hp])) (h2 _ _)
  rw [evalLoop, if_neg hl, if_neg (by rw [recipe_atLine]; simp)]
  have he : (readerEnv E).posix = E.posix := rfl
  have ha : (readerEnv E).assign (evalText E.posix l) = none := by rw [hev]; simp [readerEnv, hp]
  have hc : conditionalLine (readerEnv E) (atLine s) [] (evalText E.posix l) = .notCond := by
    rw [hev]; unfold conditionalLine; rw [g1, hw0.2.2.2]
  have ho : (readerEnv E).other (atLine s) l (evalText E.posix l) = atLine (E.directive s w text) := by
    rw [hev]
    simp [readerEnv, unlessFailed, atLine, otherLine, g1, g2, hw0.2.2.1, flush]
  simp only [he, ha, hc, ho, hev ▸ hne, if_false, Bool.false_eq_true]

end Remake
