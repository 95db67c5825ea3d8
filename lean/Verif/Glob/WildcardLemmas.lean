import Verif.Glob.Wildcard
import Verif.Glob.Main
/-! Lemmas about the function wildcard. -/
set_option linter.unusedVariables false
set_option linter.unusedSimpArgs false
namespace Remake
open Spec

theorem quoted_ne {find : Char → Bool} {e : Bool} {t w : Str} (h : Quoted find e t w) (ht : t ≠ []) : w ≠ [] := by
  cases h with
  | nil => exact absurd rfl ht
  | char => simp
  | quoted => simp
  | @mid k =>
    cases k with
    | zero => exact absurd rfl ht
    | succ k => simp [List.replicate_succ]
  | @atEnd k =>
    cases k with
    | zero => exact absurd rfl ht
    | succ k => simp [List.replicate_succ]

theorem wild_one {env : FsEnv} {e : Bool} {sp t w rest : Str} (hsp : Spaces sp) (ht : Begins t)
    (hq : Quoted isBlank e t w) (hf : Follows isBlank e rest) (hw : '(' ∉ w) :
    parseSeqGo env wildFlags none (fun _ => false) none (sp ++ t ++ rest) =
      consNames (elementNames env wildFlags none w) (parseSeqGo env wildFlags none (fun _ => false) none rest) := by
  have hw0 : w ≠ [] := quoted_ne hq (by obtain ⟨c, cs, rfl, -⟩ := ht; simp)
  obtain ⟨c, cs, rfl, hc⟩ := ht
  have hfm : findMap wildFlags (fun _ => false) = isBlank := by funext c; simp [findMap, wildFlags]
  have h1 : nextToken (sp ++ (c :: cs) ++ rest) = c :: (cs ++ rest) := by
    rw [List.append_assoc, nextToken_spaces hsp, List.cons_append, nextToken_begin hc]
  have h2 : seqWord (findMap wildFlags fun _ => false) (c :: (cs ++ rest)) = (w, rest) := by
    rw [hfm, ← List.cons_append]
    exact seqWord_quoted (by decide) hq hf
  rw [parseSeq_word h1 rfl h2]
  simp [wildFlags, groupOpen, hw, groupElement, hw0]

/-- The names of some words. -/
def wildNames (env : FsEnv) : List Str → Option (List Str)
  | [] => some []
  | w :: ws =>
    match elementNames env wildFlags none w, wildNames env ws with
    | some a, some b => some (a ++ b)
    | _, _ => none

theorem wild_listing {env : FsEnv} {ws : List Str} {text : Str} (h : Listing isBlank true ws text) (hw : ∀ w ∈ ws, '(' ∉ w) :
    ∀ sp, Spaces sp → parseSeqGo env wildFlags none (fun _ => false) none (sp ++ text) = (wildNames env ws).map (·, []) := by
  generalize he : true = e at h
  induction h with
  | @nil sp1 h1 =>
    intro sp hsp
    have : nextToken (sp ++ sp1) = [] := by
      rw [nextToken_spaces hsp]
      have := nextToken_spaces (rest := []) h1
      rw [List.append_nil] at this
      rw [this]; rfl
    rw [parseSeq_end this]
    rfl
  | @last sp1 t w h1 h2 h3 =>
    intro sp hsp
    have e1 : sp ++ (sp1 ++ t) = (sp ++ sp1) ++ t ++ [] := by simp
    rw [e1, wild_one ?_ h2 h3 (.inr ⟨he.symm, rfl⟩) (hw w (by simp)), parseSeq_end rfl]
    · unfold wildNames consNames wildNames
      cases elementNames env wildFlags none w <;> simp
    · intro c hc; rcases List.mem_append.1 hc with hc | hc
      · exact hsp c hc
      · exact h1 c hc
  | @cons sp1 t w r b ws h1 h2 h3 h4 hl ih =>
    intro sp hsp
    have e1 : sp ++ (sp1 ++ t ++ b :: r) = (sp ++ sp1) ++ t ++ (b :: r) := by simp
    rw [e1, wild_one ?_ h2 h3 (.inl ⟨rfl, b, r, rfl, h4⟩) (hw w (by simp))]
    · have h5 := ih (fun x hx => hw x (by simp [hx])) [b] (by
        intro c hc; simp at hc; subst hc; simp [isSpace, h4])
      rw [List.singleton_append] at h5
      rw [h5]
      conv => rhs; unfold wildNames
      unfold consNames
      cases elementNames env wildFlags none w <;> cases wildNames env ws <;> simp
    · intro c hc; rcases List.mem_append.1 hc with hc | hc
      · exact hsp c hc
      · exact h1 c hc

theorem dropLast_join : ∀ l : List Str, (l.flatMap (· ++ [' '])).dropLast = ([' '] : Str).intercalate l
  | [] => rfl
  | [w] => by simp [List.intercalate]
  | w :: v :: l => by
    have ih := dropLast_join (v :: l)
    have hne : (v :: l).flatMap (· ++ [' ']) ≠ [] := by simp
    rw [List.flatMap_cons, List.dropLast_append_of_ne_nil hne, ih]
    simp [List.intercalate, List.intersperse]

/-- The answer of `glob` that `parse_file_seq` sees. -/
def Spec.Answers (sys : GlobSys) (coll : Str → Str → Int) (answer : Str → GlobResult) : Prop :=
  ∀ w, match answer w with
    | .found l => Globs sys coll w l
    | .nomatch => Globs sys coll w []
    | .error => False

theorem wild_element {sys : GlobSys} {coll : Str → Str → Int} {env : FsEnv} (hg : Answers sys coll env.glob) {w : Str}
    (h1 : '(' ∉ w) (h2 : w.head? ≠ some '~') : ∃ l, elementNames env wildFlags none w = some l ∧ Globs sys coll w l := by
  have g7 : arName w = .no := by
    have := dropWhile_paren h1
    unfold arName
    rw [this]
  have := hg w
  unfold elementNames
  simp only [wildFlags, h2, g7, if_false, Bool.false_eq_true, Bool.not_true, Bool.false_and, Option.getD_none, List.nil_append,
    if_true]
  split at this
  · rename_i l hl
    exact ⟨l, by simp [hl], this⟩
  · rename_i hl
    exact ⟨[], by simp [hl], this⟩
  · exact absurd this id

theorem wild_names {sys : GlobSys} {coll : Str → Str → Int} {env : FsEnv} (hg : Answers sys coll env.glob) : ∀ {ws : List Str},
    (∀ w ∈ ws, '(' ∉ w) → (∀ w ∈ ws, w.head? ≠ some '~') →
    ∃ f : Str → List Str, wildNames env ws = some (ws.flatMap f) ∧ ∀ w ∈ ws, Globs sys coll w (f w) := by
  intro ws h1 h2
  let f : Str → List Str := fun w => (elementNames env wildFlags none w).getD []
  refine ⟨f, ?_, ?_⟩
  · induction ws with
    | nil => rfl
    | cons w ws ih =>
      obtain ⟨l, e1, -⟩ := wild_element hg (h1 w (by simp)) (h2 w (by simp))
      rw [wildNames, ih (fun v hv => h1 v (by simp [hv])) (fun v hv => h2 v (by simp [hv])), e1]
      simp [f, e1]
  · intro w hw
    obtain ⟨l, e1, e2⟩ := wild_element hg (h1 w hw) (h2 w hw)
    simp only [f, e1]
    exact e2

end Remake
