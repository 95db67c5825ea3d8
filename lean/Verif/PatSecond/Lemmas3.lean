import Verif.PatSecond.Lemmas2
import Verif.Expand.Lemmas5

/-! # Lengths, single words and the stem -/
set_option linter.unusedVariables false
set_option linter.unusedSimpArgs false
namespace Remake
open Spec

theorem maxFold_ge (ds : List Str) (m : Nat) :
    m ≤ ds.foldl (fun m d => if d.length > m then d.length else m) m ∧
      ∀ d ∈ ds, d.length ≤ ds.foldl (fun m d => if d.length > m then d.length else m) m := by
  induction ds generalizing m with
  | nil => simp
  | cons d ds ih =>
    rw [List.foldl_cons]
    obtain ⟨h1, h2⟩ := ih (if d.length > m then d.length else m)
    have : m ≤ (if d.length > m then d.length else m) ∧ d.length ≤ (if d.length > m then d.length else m) := by split <;> omega
    refine ⟨by omega, ?_⟩
    intro x hx
    rcases List.mem_cons.1 hx with rfl | hx
    · omega
    · exact h2 x hx

theorem maxDepLength_ge (extra : List Str) (rules : List (List Str)) :
    (∀ d ∈ extra, d.length ≤ maxDepLength extra rules) ∧ ∀ ds ∈ rules, ∀ d ∈ ds, d.length ≤ maxDepLength extra rules := by
  unfold maxDepLength
  have key : ∀ (rules : List (List Str)) (m : Nat),
      m ≤ rules.foldl (fun m ds => ds.foldl (fun m d => if d.length > m then d.length else m) m) m ∧
        ∀ ds ∈ rules, ∀ d ∈ ds, d.length ≤ rules.foldl (fun m ds => ds.foldl (fun m d => if d.length > m then d.length else m) m) m := by
    intro rules
    induction rules with
    | nil => simp
    | cons r rules ih =>
      intro m
      rw [List.foldl_cons]
      obtain ⟨h1, h2⟩ := ih (r.foldl (fun m d => if d.length > m then d.length else m) m)
      obtain ⟨h3, h4⟩ := maxFold_ge r m
      refine ⟨by omega, ?_⟩
      intro ds hds d hd
      rcases List.mem_cons.1 hds with rfl | hds
      · have := h4 d hd; omega
      · exact h2 ds hds d hd
  obtain ⟨h1, h2⟩ := key rules (extra.foldl (fun m d => if d.length > m then d.length else m) 0)
  refine ⟨?_, h2⟩
  intro d hd
  have := (maxFold_ge extra 0).2 d hd
  omega

theorem percent_split {a : Str} (ha : '%' ∉ a) (b : Str) :
    (a ++ '%' :: b).dropWhile (· ≠ '%') = '%' :: b ∧ (a ++ '%' :: b).takeWhile (· ≠ '%') = a := by
  induction a with
  | nil => simp
  | cons c a ih =>
    simp at ha
    have hc : c ≠ '%' := fun h' => ha.1 h'.symm
    obtain ⟨i1, i2⟩ := ih ha.2
    rw [List.cons_append, List.dropWhile_cons_of_pos (by simpa using hc), List.takeWhile_cons_of_pos (by simpa using hc), i1, i2]
    exact ⟨rfl, rfl⟩

theorem substStem_percent (dir core : Str) {a : Str} (ha : '%' ∉ a) (b : Str) : substStem dir core (a ++ '%' :: b) = dir ++ a ++ core ++ b := by
  unfold substStem
  rw [(percent_split ha b).1, (percent_split ha b).2]

theorem substStem_none (dir core : Str) {w : Str} (h : '%' ∉ w) : substStem dir core w = w := by
  unfold substStem
  have : w.dropWhile (· ≠ '%') = [] := by
    induction w with
    | nil => rfl
    | cons c w ih =>
      simp at h
      rw [List.dropWhile_cons_of_pos (by simpa using fun h' => h.1 h'.symm), ih h.2]
  rw [this]

theorem substStem_length (dir core w : Str) : (substStem dir core w).length ≤ dir.length + core.length + w.length := by
  by_cases h : '%' ∈ w
  · obtain ⟨a, b, rfl, ha⟩ := first_percent w h
    rw [substStem_percent dir core ha]
    simp; omega
  · rw [substStem_none dir core h]; omega

theorem quoted_same {special : Char → Bool} {e : Bool} {x : Str} (h : ∀ c ∈ x, special c = false ∧ c ≠ '\\') : Quoted special e x x := by
  induction x with
  | nil => exact .nil
  | cons c x ih =>
    obtain ⟨h1, h2⟩ := h c (by simp)
    exact .char (k := 0) h1 h2 (ih fun y hy => h y (by simp [hy]))

theorem oneword_plain (env : FsEnv) {x : Str} (hb : Begins x) (h : '\\' ∉ x) (hp : PlainWord x) :
    parseFileSeq env { oneword := true } none (fun _ => false) x = some ([lookupName x], []) := by
  obtain ⟨c, cs, rfl, hc⟩ := hb
  have hq : Quoted (findMap { oneword := true } fun _ => false) true (c :: cs) (c :: cs) :=
    quoted_same fun y hy => ⟨by simp [findMap], fun h' => h (h' ▸ hy)⟩
  have hs := seqWord_quoted (find := findMap { oneword := true } fun _ => false) (by simp [findMap]) hq (rest := []) (.inr ⟨rfl, rfl⟩)
  rw [List.append_nil] at hs
  rw [parseFileSeq, parseSeq_word (nextToken_begin hc) rfl hs]
  have h1 : '(' ∉ seqName (c :: cs) := mem_seqName (by decide) hp.1
  have he : elementNames env { oneword := true } none (seqName (c :: cs)) = elementNames env {} none (seqName (c :: cs)) := rfl
  simp [groupOpen, h1, groupElement, seqName_ne_nil, he, elementNames_plain_pfx hp none, parseSeq_end (p := []) rfl, consNames]

/-- The text with the stem in it. -/
theorem expand_stem (ext : List (VarSet × Bool) → Str → List Str → Option Str) (fuel : Nat) {st : XState} {stem : Str}
    (hl : ∃ i v, lookupLoc false st.chain ['*'] = some (i, v) ∧ v.recursive = false ∧ v.append = false ∧ v.value = stem) {a b : Str}
    (ha : '$' ∉ a) (hb : '$' ∉ b) : expand ext (fuel + 1) st (a ++ "$*".toList ++ b) = .ok (a ++ stem ++ b) st := by
  obtain ⟨i, v, hl, h1, h2, h3⟩ := hl
  have hca : ∀ a : Str, '$' ∉ a → Closed a := by
    intro a
    induction a with
    | nil => intro _; exact .nil
    | cons c a ih =>
      intro h; simp at h
      exact .char (fun h' => h.1 h'.symm) (ih h.2)
  simp only [expand]
  rw [List.append_assoc, lex_closed (hca a ha), show "$*".toList ++ b = '$' :: '*' :: b from rfl, lex_var (by decide) (by decide) (by decide),
    evalToks_append, lex_literal ha, lex_literal hb, evalToks_chars]
  have hr : referenceVariable (expand ext fuel) st ['*'] = .ok stem st := by
    simp only [referenceVariable, hl]
    by_cases hv : v.value = []
    · rw [if_pos ⟨hv, h2⟩, ← h3, hv]
    · rw [if_neg (by simp [hv]), h1, ← h3]; simp
  simp only [evalToks, hr, evalToks_chars, XRes.bind]
  simp

end Remake
