import Verif.Text.Lemmas2
set_option linter.unusedVariables false
/-! Helper lemmas: subst, patterns, filter, sort. -/
namespace Remake
open Spec

/-! ### strstr and subst -/

theorem strstr_none {sub : Str} : ∀ {t : Str}, strstr sub t = none →
    ∀ i ≤ t.length, ¬ OccursAt sub t i
  | [], h, i, hi => by
    unfold strstr at h
    split at h
    · cases h
    · rename_i hs
      intro ho
      unfold OccursAt at ho
      simp at ho
      simp [ho] at hs
  | c :: cs, h, i, hi => by
    unfold strstr at h
    split at h
    · cases h
    · rename_i hp
      split at h
      · rename_i hn
        intro ho
        cases i with
        | zero => exact hp (List.isPrefixOf_iff_prefix.mpr (by simpa [OccursAt] using ho))
        | succ i => exact strstr_none hn i (by simpa using hi) (by simpa [OccursAt] using ho)
      · cases h

theorem strstr_first {sub : Str} : ∀ {t b p : Str}, strstr sub t = some (b, p) →
    ∀ i < b.length, ¬ OccursAt sub t i
  | [], b, p, h, i, hi => by
    unfold strstr at h
    split at h
    · simp at h; rw [h.1] at hi; simp at hi
    · cases h
  | c :: cs, b, p, h, i, hi => by
    unfold strstr at h
    split at h
    · simp at h; rw [h.1] at hi; simp at hi
    · rename_i hp
      split at h
      · cases h
      · rename_i b' p' hs
        simp at h
        obtain ⟨rfl, rfl⟩ := h
        intro ho
        cases i with
        | zero => exact hp (List.isPrefixOf_iff_prefix.mpr (by simpa [OccursAt] using ho))
        | succ i => exact strstr_first hs i (by simpa using hi) (by simpa [OccursAt] using ho)

theorem strstr_split {sub t b p : Str} (h : strstr sub t = some (b, p)) :
    t = b ++ sub ++ p.drop sub.length := by
  have h1 := strstr_eq h
  obtain ⟨r, rfl⟩ := strstr_prefix h
  rw [← h1]; simp

theorem substGo_eq_none {sub rep : Str} {bw : Bool} {prev t} (hs : sub ≠ [])
    (h : strstr sub t = none) : substGo sub rep bw prev t = t := by
  unfold substGo
  rw [dif_neg hs]
  split
  · rfl
  · rename_i hh; rw [h] at hh; cases hh

theorem substGo_nil {sub rep : Str} {bw : Bool} {prev} (hs : sub ≠ []) :
    substGo sub rep bw prev [] = [] :=
  substGo_eq_none hs (by unfold strstr; simp [hs])

theorem substGo_eq_some {sub rep : Str} {bw : Bool} {prev t b p} (hs : sub ≠ [])
    (h : strstr sub t = some (b, p)) : substGo sub rep bw prev t =
      b ++ (if bw && struckOut (prevChar prev b) (p.drop sub.length) then sub else rep) ++
        substGo sub rep bw sub.getLast? (p.drop sub.length) := by
  rw [substGo]
  rw [dif_neg hs]
  split
  · rename_i hh; rw [h] at hh; cases hh
  · rename_i b' p' hh
    rw [h] at hh
    simp only [Option.some.injEq, Prod.mk.injEq] at hh
    obtain ⟨rfl, rfl⟩ := hh
    simp only
    split
    · rename_i ha
      rw [ha, substGo_nil hs]; simp
    · rename_i ha; rw [ha]

theorem substGo_length {sub t b p : Str} (hs : sub ≠ []) (h : strstr sub t = some (b, p)) :
    (p.drop sub.length).length < t.length := by
  have := strstr_split h
  have h3 : 0 < sub.length := List.length_pos_iff.mpr hs
  rw [this]; simp; omega

theorem substGo_substituted {sub rep : Str} (hs : sub ≠ []) (t : Str) :
    ∀ prev, Substituted sub rep t (substGo sub rep false prev t) := by
  generalize hn : t.length = n
  induction n using Nat.strongRecOn generalizing t with
  | _ n ih =>
    intro prev
    match h : strstr sub t with
    | none =>
      rw [substGo_eq_none hs h]
      exact .none (strstr_none h)
    | some (b, p) =>
      rw [substGo_eq_some hs h]
      have hsp := strstr_split h
      have hf := strstr_first h
      have hl := substGo_length hs h
      rw [hsp] at hf
      conv => arg 3; rw [hsp]
      simp only [Bool.false_and]
      exact .here hf (ih _ (hn ▸ hl) _ rfl _)

theorem Substituted_unique {sub rep : Str} (hs : sub ≠ []) {t o : Str}
    (h : Substituted sub rep t o) : ∀ prev, o = substGo sub rep false prev t := by
  induction h with
  | none hno =>
    rename_i t
    intro prev
    match h : strstr sub t with
    | none => rw [substGo_eq_none hs h]
    | some (b, p) =>
      exfalso
      have hsp := strstr_split h
      refine hno b.length ?_ ?_
      · rw [hsp]; simp
      · unfold OccursAt; rw [hsp]; simp
  | here hno _ ih =>
    rename_i b rest out _
    intro prev
    match h : strstr sub (b ++ sub ++ rest) with
    | none =>
      exfalso
      exact strstr_none h b.length (by simp) (by unfold OccursAt; simp)
    | some (b', p) =>
      rw [substGo_eq_some hs h]
      have hsp := strstr_split h
      have hf := strstr_first h
      have hlen : b.length = b'.length := by
        rcases Nat.lt_trichotomy b.length b'.length with hlt | heq | hgt
        · exact absurd (by unfold OccursAt; simp) (hf b.length hlt)
        · exact heq
        · exfalso
          refine hno b'.length hgt ?_
          unfold OccursAt; rw [hsp]; simp
      have hb : b = b' := by
        have := congrArg (List.take b.length) hsp
        rw [List.append_assoc, List.append_assoc, List.take_left] at this
        rw [hlen] at this
        simpa using this
      subst hb
      have hr : rest = p.drop sub.length := by
        have := hsp
        simpa using this
      rw [← hr, ← ih]
      simp

/-! ### by-word substitution -/

/-- Whether a word boundary precedes the position. -/
def bndBefore : Option Char → Bool
  | none => true
  | some c => isSpace c

/-- Whether a word boundary follows. -/
def bndAfter : Str → Bool
  | [] => true
  | c :: _ => isSpace c

theorem struckOut_eq (prev : Option Char) (after : Str) :
    struckOut prev after = !(bndBefore prev && bndAfter after) := by
  cases prev <;> cases after <;> simp [struckOut, bndBefore, bndAfter]

/-- Character-level description of by-word substitution. -/
def wm (sub rep : Str) (prev : Option Char) (t : Str) : Str :=
  match t with
  | [] => []
  | c :: cs =>
    if h : sub ≠ [] ∧ bndBefore prev && sub.isPrefixOf (c :: cs) &&
        bndAfter ((c :: cs).drop sub.length) then
      rep ++ wm sub rep sub.getLast? ((c :: cs).drop sub.length)
    else c :: wm sub rep (some c) cs
termination_by t.length
decreasing_by
  · have := List.length_pos_iff.mpr h.1
    simp; omega
  · simp

theorem wm_copy {sub rep : Str} {prev c cs}
    (h : (bndBefore prev && sub.isPrefixOf (c :: cs) && bndAfter ((c :: cs).drop sub.length)) = false) :
    wm sub rep prev (c :: cs) = c :: wm sub rep (some c) cs := by
  rw [wm, dif_neg (by rintro ⟨_, h'⟩; rw [h] at h'; cases h')]

theorem wm_subst {sub rep : Str} (hs : sub ≠ []) {prev after} (hb : bndBefore prev = true)
    (ha : bndAfter after = true) :
    wm sub rep prev (sub ++ after) = rep ++ wm sub rep sub.getLast? after := by
  match hq : sub ++ after with
  | [] => simp at hq; exact absurd hq.1 hs
  | c :: cs =>
    rw [wm]
    have h1 : sub.isPrefixOf (c :: cs) = true := by
      rw [← hq]; exact List.isPrefixOf_iff_prefix.mpr (List.prefix_append _ _)
    have h2 : (c :: cs).drop sub.length = after := by rw [← hq]; simp
    rw [dif_pos ⟨hs, by rw [hb, h1, h2, ha]; rfl⟩, h2]

/-- Copying through a stretch where the previous character is never a boundary, or `sub`
does not occur. -/
theorem wm_copy_all {sub rep : Str} : ∀ {b : Str} {prev : Option Char} {p : Str},
    (∀ i < b.length, ¬ OccursAt sub (b ++ p) i) →
    wm sub rep prev (b ++ p) = b ++ wm sub rep (prevChar prev b) p
  | [], prev, p, _ => by simp [prevChar]
  | c :: cs, prev, p, h => by
    have h0 := h 0 (by simp)
    have hnp : sub.isPrefixOf (c :: (cs ++ p)) = false := by
      cases hh : sub.isPrefixOf (c :: (cs ++ p)) with
      | false => rfl
      | true => exact absurd (List.isPrefixOf_iff_prefix.mp hh) (by simpa [OccursAt] using h0)
    rw [List.cons_append, wm_copy (by rw [hnp]; simp)]
    rw [wm_copy_all (b := cs) (prev := some c) (p := p)
      (fun i hi => by
        have := h (i+1) (by simpa using hi)
        simpa [OccursAt] using this)]
    have : prevChar (some c) cs = prevChar prev (c :: cs) := by
      unfold prevChar
      cases cs with
      | nil => rfl
      | cons d ds => simp [List.getLast?_cons]
    rw [this]; rfl

/-- Copying word-interior characters. -/
theorem wm_copy_word {sub rep : Str} : ∀ {w : Str} {prev : Char} {p : Str},
    isSpace prev = false → (∀ c ∈ w, isSpace c = false) →
    wm sub rep (some prev) (w ++ p) = w ++ wm sub rep (prevChar (some prev) w) p
  | [], prev, p, _, _ => by simp [prevChar]
  | c :: cs, prev, p, h, hw => by
    rw [List.cons_append, wm_copy (by simp [bndBefore, h])]
    rw [wm_copy_word (hw c (by simp)) (fun d hd => hw d (by simp [hd]))]
    have : prevChar (some c) cs = prevChar (some prev) (c :: cs) := by
      unfold prevChar
      cases cs with
      | nil => rfl
      | cons d ds => simp [List.getLast?_cons]
    rw [this]; rfl

theorem prevChar_nonempty {prev : Option Char} {w : Str} (h : w ≠ []) :
    prevChar prev w = w.getLast? := by
  unfold prevChar
  rw [List.getLast?_eq_some_getLast h]

theorem substGo_wm {sub rep : Str} (hs : sub ≠ []) (hns : ∀ c ∈ sub, isSpace c = false) (t : Str) :
    ∀ prev, substGo sub rep true prev t = wm sub rep prev t := by
  generalize hn : t.length = n
  induction n using Nat.strongRecOn generalizing t with
  | _ n ih =>
    intro prev
    match h : strstr sub t with
    | none =>
      rw [substGo_eq_none hs h]
      have hno := strstr_none h
      have := wm_copy_all (sub := sub) (rep := rep) (b := t) (prev := prev) (p := [])
        (fun i hi => by simpa using hno i (by omega))
      simp only [List.append_nil] at this
      rw [this]; simp [wm]
    | some (b, p) =>
      rw [substGo_eq_some hs h, ih _ (hn ▸ substGo_length hs h) _ rfl]
      have hsp := strstr_split h
      have hf := strstr_first h
      conv => rhs; rw [hsp, List.append_assoc]
      rw [wm_copy_all (fun i hi => by rw [← List.append_assoc, ← hsp]; exact hf i hi)]
      rw [List.append_assoc]
      congr 1
      simp only [Bool.true_and]
      split
      · rename_i hst
        rw [struckOut_eq] at hst
        match hsub : sub with
        | [] => exact absurd rfl hs
        | c :: cs =>
          rw [List.cons_append, List.cons_append, wm_copy]
          · rw [wm_copy_word (hns c (by simp)) (fun d hd => hns d (by simp [hd]))]
            have : prevChar (some c) cs = (c :: cs).getLast? := by
              unfold prevChar
              cases cs with
              | nil => rfl
              | cons d ds => simp [List.getLast?_cons]
            rw [this]
          · have h2 : (c :: (cs ++ List.drop (c :: cs).length p)).drop (c :: cs).length
                = List.drop (c :: cs).length p := by
              rw [← List.cons_append]; simp
            rw [h2]
            cases hb : bndBefore (prevChar prev b) with
            | false => simp
            | true => rw [hb] at hst; simp at hst; simp [hst]
      · rename_i hst
        rw [struckOut_eq] at hst
        simp at hst
        rw [wm_subst hs hst.1 hst.2]

theorem wm_space {sub rep : Str} (hs : sub ≠ []) (hns : ∀ c ∈ sub, isSpace c = false) :
    ∀ {a : Str} {prev : Option Char} {p : Str}, (∀ c ∈ a, isSpace c = true) →
    wm sub rep prev (a ++ p) = a ++ wm sub rep (prevChar prev a) p
  | [], prev, p, _ => by simp [prevChar]
  | c :: cs, prev, p, h => by
    have hc := h c (by simp)
    rw [List.cons_append, wm_copy]
    · rw [wm_space hs hns (fun d hd => h d (by simp [hd]))]
      have : prevChar (some c) cs = prevChar prev (c :: cs) := by
        unfold prevChar
        cases cs with
        | nil => rfl
        | cons d ds => simp [List.getLast?_cons]
      rw [this]; rfl
    · have : sub.isPrefixOf (c :: (cs ++ p)) = false := by
        match sub, hs, hns with
        | x :: xs, _, hns =>
          have := hns x (by simp)
          cases hxc : (x == c) with
          | false => simp [List.isPrefixOf, hxc]
          | true => simp at hxc; subst hxc; rw [hc] at this; cases this
      rw [this]; simp

/-- At a space or at the end, the previous character does not matter. -/
theorem wm_prev_irrel {sub rep : Str} (hs : sub ≠ []) (hns : ∀ c ∈ sub, isSpace c = false)
    {r : Str} (hr : ∀ c, r.head? = some c → isSpace c = true) (p q : Option Char) :
    wm sub rep p r = wm sub rep q r := by
  match r, hr with
  | [], _ => simp [wm]
  | c :: cs, hr =>
    have hc : ∀ d ∈ [c], isSpace d = true := by simpa using hr c rfl
    have h1 := wm_space (rep := rep) hs hns (a := [c]) (prev := p) (p := cs) hc
    have h2 := wm_space (rep := rep) hs hns (a := [c]) (prev := q) (p := cs) hc
    simp only [List.singleton_append] at h1 h2
    rw [h1, h2]; rfl

theorem bndBefore_prevChar_space {a : Str} {prev} (hp : bndBefore prev = true)
    (ha : ∀ c ∈ a, isSpace c = true) : bndBefore (prevChar prev a) = true := by
  unfold prevChar
  cases h : a.getLast? with
  | none => simpa using hp
  | some c => simp [bndBefore]; exact ha c (List.mem_of_getLast? h)

theorem wm_wordMapped {sub rep : Str} (hs : sub ≠ []) (hns : ∀ c ∈ sub, isSpace c = false)
    {s out : Str} (h : WordMapped (fun w => if w = sub then rep else w) s out) :
    wm sub rep none s = out := by
  induction h with
  | done h =>
    rename_i s
    have := wm_space (rep := rep) hs hns (a := s) (prev := none) (p := []) h
    simp only [List.append_nil] at this
    rw [this]; simp [wm]
  | word ha hw hwns hr _ ih =>
    rename_i a w r out _
    rw [List.append_assoc, wm_space hs hns ha]
    rw [List.append_assoc]
    congr 1
    have hb := bndBefore_prevChar_space (prev := none) rfl ha
    have hra : bndAfter r = true := by
      cases r with
      | nil => rfl
      | cons c cs => exact hr c rfl
    by_cases hws : w = sub
    · subst hws
      rw [wm_subst hs hb hra, if_pos rfl, wm_prev_irrel hs hns hr _ none, ih]
    · rw [if_neg hws]
      match w, hw, hwns, hws with
      | c :: cs, _, hwns, hws =>
        rw [List.cons_append, wm_copy, wm_copy_word (hwns c (by simp)) (fun d hd => hwns d (by simp [hd])),
          wm_prev_irrel hs hns hr _ none, ih]
        · rfl
        · cases hp : sub.isPrefixOf (c :: (cs ++ r)) with
          | false => simp
          | true =>
            have hpre := List.isPrefixOf_iff_prefix.mp hp
            obtain ⟨y, hy⟩ := hpre
            rw [← List.cons_append] at hy
            have hdrop : (c :: (cs ++ r)).drop sub.length = y := by
              rw [← List.cons_append, ← hy]; simp
            rw [hdrop]
            have : bndAfter y = false := by
              rcases List.append_eq_append_iff.mp hy with ⟨x, hx, hxy⟩ | ⟨x, hx, hxy⟩
              · -- c :: cs = sub ++ x
                cases x with
                | nil => simp at hx; exact absurd hx hws
                | cons d ds =>
                  rw [hxy]; simp only [List.cons_append, bndAfter]
                  apply hwns; rw [hx]; simp
              · -- sub = c :: cs ++ x, r = x ++ y
                cases x with
                | nil => simp at hx; exact absurd hx.symm hws
                | cons d ds =>
                  exfalso
                  have h1 := hr d (by rw [hxy]; simp)
                  have h2 := hns d (by rw [hx]; simp)
                  rw [h2] at h1; cases h1
            rw [this]; simp

theorem WordMapped_exists (f : Str → Str) (s : Str) : ∃ out, WordMapped f s out := by
  generalize hn : s.length = n
  induction n using Nat.strongRecOn generalizing s with
  | _ n ih =>
    match h : findNextToken s with
    | none =>
      refine ⟨s, .done ?_⟩
      unfold findNextToken at h
      split at h
      · rename_i hh
        unfold nextToken at hh
        have := List.takeWhile_append_dropWhile (p := isSpace) (l := s)
        rw [hh] at this
        simp only [List.append_nil] at this
        intro c hc
        rw [← this] at hc
        exact mem_takeWhile_imp hc
      · cases h
    | some (t, r) =>
      obtain ⟨⟨a, ha, has⟩, h1, h2, h3, -⟩ := findNextToken_spec h
      obtain ⟨out, ho⟩ := ih r.length (hn ▸ findNextToken_lt h) r rfl
      subst ha
      exact ⟨_, .word has h1 h2 h3 ho⟩

end Remake
