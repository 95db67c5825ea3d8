import Verif.Files.Merge
import Verif.Text.Lemmas4
/-! Static pattern rules. -/
set_option linter.unusedSimpArgs false
namespace Remake
open Spec

/-- A text without white space is one token. -/
theorem tokens_one {w : Str} (h0 : w ≠ []) (h : ∀ c ∈ w, isSpace c = false) : tokens w = [w] := by
  have h1 : nextToken w = w := by
    cases w with
    | nil => rfl
    | cons c cs => exact List.dropWhile_cons_of_neg (by simp [h c (by simp)])
  have h2 : tokenPrefix w = w := by
    unfold tokenPrefix
    clear h0 h1
    induction w with
    | nil => rfl
    | cons c cs ih =>
      rw [List.takeWhile_cons_of_pos (by simp [h c (by simp)]), ih fun x hx => h x (by simp [hx])]
  have h3 : endOfToken w = [] := by
    unfold endOfToken
    clear h0 h1 h2
    induction w with
    | nil => rfl
    | cons c cs ih =>
      rw [List.dropWhile_cons_of_pos (by simp [h c (by simp)]), ih fun x hx => h x (by simp [hx])]
  have hf : findNextToken w = some (w, []) := by
    unfold findNextToken
    rw [h1]
    cases w with
    | nil => exact absurd rfl h0
    | cons c cs => simp only; rw [h2, h3]
  have h4 : tokens [] = [] := by rw [tokens.eq_def]; rfl
  rw [tokens.eq_def]
  split
  · rename_i h5; rw [hf] at h5; cases h5
  · rename_i h5; rw [hf] at h5; cases h5; rw [h4]

theorem patsubst_one {w pre stem post rpre rpost : Str} (hw : w = pre ++ stem ++ post) (h0 : w ≠ [])
    (h : ∀ c ∈ w, isSpace c = false) (c d : Char) :
    patsubstExpandPat w (.found pre c post) (.found rpre d rpost) = rpre ++ stem ++ rpost := by
  unfold patsubstExpandPat
  rw [tokens_one h0 h]
  have hm : patMatch pre post w = true := patMatch_iff.2 ⟨stem, hw⟩
  have hs : (w.drop pre.length).take (w.length - (pre.length + post.length)) = stem := by
    rw [hw]; exact patMatch_stem pre stem post
  have hl : 0 < w.length := List.length_pos_iff.2 h0
  simp only [List.foldl_cons, List.foldl_nil, patsubstStep, hm, Bool.not_true, Bool.false_eq_true,
    if_false, hs]
  rw [if_pos (by simp; omega)]
  simp [killLast]

/-- The name a prerequisite of a static pattern rule stands for. -/
def stemPct (stem nm : Str) : Pct → Str
  | .lit _ => nm
  | .pat a b => a ++ stem ++ b

theorem stemName_eq {stem nm : Str} (h : ∀ c ∈ stem, isSpace c = false) (hnm : nm ≠ []) :
    stemName stem nm =
      if stemPct stem nm (findPercent nm).toPct = [] then none
      else some (stemPct stem nm (findPercent nm).toPct) := by
  unfold stemName
  cases hf : findPercent nm with
  | none t => simp [Unq.toPct, stemPct, hnm]
  | found a c b =>
    simp only [Unq.toPct, stemPct]
    by_cases hs : stem = []
    · subst hs; simp
    · rw [if_neg hs, patsubst_one (pre := []) (stem := stem) (post := []) (by simp) hs h]
      rfl

theorem targetStem_eq {pre stem post n : Str} {c : Char} (hn : n = pre ++ stem ++ post) (h0 : n ≠ [])
    (h : ∀ c ∈ n, isSpace c = false) : targetStem (some (.found pre c post)) n = some stem := by
  unfold targetStem
  rw [Option.map_some, patsubst_one hn h0 h]
  simp

theorem patternMatches_found (pre post w : Str) (c : Char) :
    patternMatches (.found pre c post) w = patMatch pre post w := by
  rw [Bool.eq_iff_iff, patternMatches_iff, patMatch_iff]
  rfl

theorem filterMap_congr_mem {α β : Type} {f g : α → Option β} : ∀ {l : List α},
    (∀ x ∈ l, f x = g x) → l.filterMap f = l.filterMap g := by
  intro l
  induction l with
  | nil => intro _; rfl
  | cons a l ih =>
    intro h
    rw [List.filterMap_cons, List.filterMap_cons, h a (by simp), ih fun x hx => h x (by simp [hx])]

theorem recordTarget_noMatch {r : FRule} {deps : List PreReq} {db db' : FileDb} {m n : Str}
    {w : List FWarn} {i : Nat} (h : recordTarget r deps db m = .ok (db', w, i)) :
    FWarn.noMatch n ∈ w ↔ n = m ∧ targetMatches r.pattern m = false := by
  have hsw : ∀ f, FWarn.noMatch n ∉ singleWarn m r.cmds f := by
    intro f
    unfold singleWarn
    split
    · split
      · simp
      · split <;> simp
    · simp
  rw [recordTarget_eq] at h
  simp only at h
  split at h
  · split at h
    · cases h
    · cases h
      rw [List.mem_append]
      simp only [hsw, or_false]
      cases targetMatches r.pattern m <;> simp
  · split at h
    · cases h
    · cases h
      cases targetMatches r.pattern m <;> simp

theorem recordTargets_noMatch {r : FRule} {deps : List PreReq} {n : Str} :
    ∀ (ns : List Str) {db db' : FileDb} {w : List FWarn} {hs : List (Str × Nat)},
      recordTargets r deps db ns = .ok (db', w, hs) →
      (FWarn.noMatch n ∈ w ↔ n ∈ ns ∧ targetMatches r.pattern n = false) := by
  intro ns
  induction ns with
  | nil => intro db db' w hs h; cases h; simp
  | cons m ns ih =>
    intro db db' w hs h
    unfold recordTargets at h
    cases h1 : recordTarget r deps db m with
    | fatal => rw [h1] at h; cases h
    | ok x =>
      obtain ⟨db1, w1, i⟩ := x
      rw [h1] at h
      simp only at h
      cases h2 : recordTargets r deps db1 ns with
      | fatal => rw [h2] at h; cases h
      | ok y =>
        obtain ⟨db2, w2, is⟩ := y
        rw [h2] at h
        cases h
        rw [List.mem_append, recordTarget_noMatch h1, ih h2, List.mem_cons]
        constructor
        · rintro (⟨rfl, h⟩ | ⟨h, h'⟩)
          · exact ⟨.inl rfl, h⟩
          · exact ⟨.inr h, h'⟩
        · rintro ⟨rfl | h, h'⟩
          · exact .inl ⟨rfl, h'⟩
          · exact .inr ⟨h, h'⟩

theorem recordGroup_noMatch {n : Str} (g : List Str) : ∀ (hs : List (Str × Nat)) (db : FileDb),
    FWarn.noMatch n ∉ (recordGroup g db hs).2 := by
  intro hs
  induction hs with
  | nil => intro db; simp [recordGroup]
  | cons x hs ih =>
    intro db
    obtain ⟨m, i⟩ := x
    unfold recordGroup
    simp only [List.mem_append, ih, or_false]
    split <;> simp

/-- The targets reported as not matching the pattern. -/
theorem recordFiles_noMatch {r : FRule} {db db' : FileDb} {w : List FWarn} {n : Str}
    (he : r.explicit) (h : recordFiles r db = .ok (db', w)) :
    FWarn.noMatch n ∈ w ↔ n ∈ r.targets.map plainName ∧ targetMatches r.pattern n = false := by
  unfold recordFiles at h
  split at h
  · cases h
  · split at h
    · rename_i h2
      simp [FRule.explicit, h2] at he
    · simp only at h
      generalize (if r.pattern.isSome then (db, r.deps) else enterPrereqs db r.deps) = e at h
      cases hr : recordTargets r e.2 e.1 (r.targets.map plainName) with
      | fatal => rw [hr] at h; cases h
      | ok x =>
        obtain ⟨db1, w1, hds⟩ := x
        rw [hr] at h
        simp only at h
        split at h
        · cases h
          rw [List.mem_append]
          simp only [recordGroup_noMatch, or_false]
          exact recordTargets_noMatch _ hr
        · cases h
          exact recordTargets_noMatch _ hr

end Remake
