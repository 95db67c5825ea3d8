import Verif.Rules.Spec
import Verif.Base.Lemmas
/-!
# Lemmas on matching and on the list of candidates
-/
set_option linter.unusedVariables false
set_option linter.unusedSimpArgs false
namespace Remake
open Remake.Spec

theorem anything_iff (t : PatTarget) : t.anything = true ↔ Anything t := by
  unfold PatTarget.anything PatTarget.text Anything
  simp only [List.length_append, List.length_cons, beq_iff_eq]
  constructor
  · intro h
    exact ⟨List.length_eq_zero_iff.1 (by omega), List.length_eq_zero_iff.1 (by omega)⟩
  · rintro ⟨h1, h2⟩; simp [h1, h2]

theorem text_slash (t : PatTarget) : t.text.contains '/' = true ↔ ('/' ∈ t.pre ∨ '/' ∈ t.suf) := by
  unfold PatTarget.text
  simp [show ('/' = '%') = False by decide]

/-! ## The directory part -/

/-- What `pathlen` means when it is not zero. -/
theorem pathLen_split {name : Str} (h : '/' ∈ name.dropLast) :
    Split name (name.take (name.dropLast.reverse.dropWhile (· ≠ '/')).length)
      (name.drop (name.dropLast.reverse.dropWhile (· ≠ '/')).length) := by
  have hne : name ≠ [] := by rintro rfl; simp at h
  have key : ∀ l : Str, '/' ∈ l → l = (l.reverse.dropWhile (· ≠ '/')).reverse ++ (l.reverse.takeWhile (· ≠ '/')).reverse := by
    intro l _
    have := List.takeWhile_append_dropWhile (p := (· ≠ '/')) (l := l.reverse)
    rw [← List.reverse_append, this, List.reverse_reverse]
  have hk := key _ h
  have hd : name = name.dropLast ++ [name.getLast hne] := (List.dropLast_concat_getLast hne).symm
  generalize hD : (name.dropLast.reverse.dropWhile (· ≠ '/')) = D at *
  generalize hT : (name.dropLast.reverse.takeWhile (· ≠ '/')) = T at *
  have hDne : D ≠ [] := by
    intro e
    rw [e] at hk
    simp only [List.reverse_nil, List.nil_append] at hk
    rw [hk] at h
    have : '/' ∈ T := by simpa using h
    rw [← hT] at this
    have := mem_takeWhile_imp this
    simp at this
  have hDh : D.head? = some '/' := by
    rw [← hD]
    have : (name.dropLast.reverse.dropWhile (· ≠ '/')) ≠ [] := by rw [hD]; exact hDne
    rw [List.head?_eq_some_head this]
    have := List.head_dropWhile_not (· ≠ '/') this
    simp only [decide_not, Bool.not_eq_eq_eq_not, Bool.not_true, decide_eq_false_iff_not, Decidable.not_not] at this
    simpa using this
  have hT' : '/' ∉ T := by
    intro hc
    rw [← hT] at hc
    have := mem_takeWhile_imp hc
    simp at this
  have hname : name = D.reverse ++ (T.reverse ++ [name.getLast hne]) := by
    rw [← List.append_assoc, ← hk]; exact hd
  have htake : name.take D.length = D.reverse := by
    conv => lhs; rw [hname]
    rw [List.take_left' (by simp)]
  have hdrop : name.drop D.length = T.reverse ++ [name.getLast hne] := by
    conv => lhs; rw [hname]
    rw [List.drop_left' (by simp)]
  refine ⟨(List.take_append_drop _ _).symm, ?_, ?_, ?_⟩
  · rw [htake, List.getLast?_reverse]; exact hDh
  · rw [hdrop]; simp
  · rw [hdrop]; simpa using hT'

theorem pathLen_zero {name : Str} (h : '/' ∉ name.dropLast) :
    (name.dropLast.reverse.dropWhile (· ≠ '/')).length = 0 := by
  rw [List.length_eq_zero_iff]
  apply Classical.byContradiction
  intro hne
  have h1 := List.head_dropWhile_not (· ≠ '/') hne
  have h2 : (List.dropWhile (· ≠ '/') name.dropLast.reverse).head hne ∈ name.dropLast.reverse :=
    (List.dropWhile_sublist _).subset (List.head_mem hne)
  simp at h1
  rw [List.mem_reverse] at h2
  apply h
  simpa [h1] using h2

theorem split_dir_unique {name d b d' b' : Str} (h : Split name d b) (h' : Split name d' b') :
    d = d' ∧ b = b' := by
  obtain ⟨e, hl, hb, hs⟩ := h
  obtain ⟨e', hl', hb', hs'⟩ := h'
  have key : ∀ (d b d' b' : Str), d ++ b = d' ++ b' → d'.getLast? = some '/' → b' ≠ [] →
      '/' ∉ b.dropLast → d.length < d'.length → False := by
    intro d b d' b' e hl hb hs hlt
    rw [List.append_eq_append_iff] at e
    rcases e with ⟨a, ha, hb2⟩ | ⟨c, hc, _⟩
    · have hane : a ≠ [] := by
        rintro rfl
        simp at ha; simp [ha] at hlt
      have : a.getLast? = some '/' := by
        rw [ha, List.getLast?_append] at hl
        rw [List.getLast?_eq_some_getLast hane] at hl ⊢
        simpa using hl
      have hm : '/' ∈ a := List.mem_of_getLast? this
      apply hs
      rw [hb2, List.dropLast_append_of_ne_nil hb]
      exact List.mem_append_left _ hm
    · rw [hc] at hlt; simp at hlt; omega
  have hlen : d.length = d'.length := by
    rcases Nat.lt_trichotomy d.length d'.length with hlt | he | hgt
    · exact (key d b d' b' (e ▸ e') hl' hb' hs hlt).elim
    · exact he
    · exact (key d' b' d b (e'.symm.trans e) hl hb hs' hgt).elim
  exact List.append_inj (e.symm.trans e') hlen

theorem split_pathLen {name d b : Str} (h : Split name d b) :
    (name.dropLast.reverse.dropWhile (· ≠ '/')).length = d.length ∧ '/' ∈ name.dropLast := by
  have hm : '/' ∈ name.dropLast := by
    rw [h.1, List.dropLast_append_of_ne_nil h.2.2.1]
    exact List.mem_append_left _ (List.mem_of_getLast? h.2.1)
  have := split_dir_unique h (pathLen_split hm)
  refine ⟨?_, hm⟩
  have h2 := congrArg List.length this.1
  rw [h2, List.length_take]
  have : (name.dropLast.reverse.dropWhile (· ≠ '/')).length ≤ name.length := by
    have := (List.dropWhile_sublist (· ≠ '/') (l := name.dropLast.reverse)).length_le
    simp at this ⊢; omega
  omega

/-- The directory and the core of a fit, from the numbers computed by the program. -/
def partsOf (name : Str) (pathlen : Nat) (t : PatTarget) (stemlen : Nat) (checked : Bool) : Str × Str :=
  let dir := if checked then pathlen else 0
  (name.take dir, (name.drop (dir + t.pre.length)).take (stemlen - dir))

theorem three_parts {l a c : Str} {n : Nat} (h1 : l.take a.length = a) (h2 : l.drop (a.length + n) = c) :
    l = a ++ (l.drop a.length).take n ++ c := by
  have e1 : l = a ++ l.drop a.length := by
    conv => lhs; rw [← List.take_append_drop a.length l, h1]
  have e2 : l.drop a.length = (l.drop a.length).take n ++ c := by
    rw [← h2, ← List.drop_drop, List.take_append_drop]
  rw [List.append_assoc, ← e2]; exact e1

/-- `matchTarget` decides `Fits`. -/
theorem matchTarget_sound {archive : Bool} {name : Str} {t : PatTarget} {n : Nat} {c : Bool}
    (h : matchTarget name (pathLen archive name) t = some (n, c)) :
    Fits (isMember archive name) t name (partsOf name (pathLen archive name) t n c).1
      (partsOf name (pathLen archive name) t n c).2 ∧
    n = (partsOf name (pathLen archive name) t n c).1.length +
      (partsOf name (pathLen archive name) t n c).2.length := by
  unfold matchTarget at h
  split at h
  · exact absurd h (by simp)
  rename_i hlen
  simp only at h
  generalize hp : pathLen archive name = p at h ⊢
  have htl : t.text.length = t.pre.length + 1 + t.suf.length := by simp [PatTarget.text]; omega
  by_cases hc : (decide (p ≠ 0) && !t.text.contains '/') = true
  · rw [hc] at h
    simp only [if_true] at h
    split at h
    · exact absurd h (by simp)
    rename_i h1
    split at h
    · exact absurd h (by simp)
    rename_i h2
    split at h
    · exact absurd h (by simp)
    rename_i h3
    simp only [Option.some.injEq, Prod.mk.injEq] at h
    obtain ⟨rfl, rfl⟩ := h
    simp only [Bool.and_eq_true, decide_eq_true_eq, Bool.not_eq_true'] at hc
    have hslash : '/' ∉ t.pre ∧ '/' ∉ t.suf := by
      have := (text_slash t)
      rw [hc.2] at this
      simp at this; exact this
    unfold pathLen at hp
    split at hp
    · exact absurd hp.symm hc.1
    rename_i hm
    have hmem : isMember archive name = false := by simpa [isMember] using hm
    have hd : '/' ∈ name.dropLast := by
      apply Classical.byContradiction
      intro hn
      have := pathLen_zero hn
      omega
    have hs := pathLen_split hd
    rw [hp] at hs
    simp only [Decidable.not_not] at h2 h3
    have hb : name.drop p = t.pre ++ ((name.drop p).drop t.pre.length).take (name.length - t.text.length + 1 - p) ++ t.suf := by
      apply three_parts h2
      rw [List.drop_drop, ← Nat.add_assoc, h3]
    rw [List.drop_drop] at hb
    have hlb := congrArg List.length hb
    simp only [List.length_append, List.length_drop] at hlb
    have hpl : p ≤ name.length := by
      have := congrArg List.length hs.1
      simp at this; omega
    refine ⟨?_, ?_⟩
    · simp only [partsOf, if_true]
      exact .inDir _ _ _ hmem hslash.1 hslash.2 hs hb
    · simp only [partsOf, if_true, List.length_take, List.length_drop]
      omega
  · simp only [Bool.not_eq_true] at hc
    rw [hc] at h
    simp only [Bool.false_eq_true, if_false, Nat.not_lt_zero, List.drop_zero, Nat.zero_add, Nat.sub_zero] at h
    split at h
    · exact absurd h (by simp)
    rename_i h2
    split at h
    · exact absurd h (by simp)
    rename_i h3
    simp only [Option.some.injEq, Prod.mk.injEq] at h
    obtain ⟨rfl, rfl⟩ := h
    simp only [Decidable.not_not] at h2 h3
    have hb := three_parts h2 h3
    have hlb := congrArg List.length hb
    simp only [List.length_append, List.length_take, List.length_drop] at hlb
    refine ⟨?_, ?_⟩
    · simp only [partsOf, Bool.false_eq_true, if_false, List.take_zero, Nat.zero_add, Nat.sub_zero]
      refine .whole _ hb ?_ ?_
      · intro e
        have := congrArg List.length e
        simp only [List.length_take, List.length_drop, List.length_nil] at this
        omega
      · simp only [Bool.and_eq_false_iff, decide_eq_false_iff_not, Decidable.not_not, Bool.not_eq_false'] at hc
        rcases hc with hc | hc
        · unfold pathLen at hp
          split at hp
          · rename_i hm; exact Or.inl (by simpa [isMember] using hm)
          · refine Or.inr (Or.inl ?_)
            intro hd
            have hs := pathLen_split hd
            rw [hp, hc] at hs
            simp [Split] at hs
        · exact Or.inr (Or.inr ((text_slash t).1 hc))
    · simp only [partsOf, Bool.false_eq_true, if_false, List.take_zero, List.length_nil,
        List.length_take, List.length_drop]
      omega

theorem matchTarget_complete {archive : Bool} {name dir core : Str} {t : PatTarget}
    (h : Fits (isMember archive name) t name dir core) :
    ∃ c, matchTarget name (pathLen archive name) t = some (dir.length + core.length, c) ∧
      partsOf name (pathLen archive name) t (dir.length + core.length) c = (dir, core) := by
  have htl : t.text.length = t.pre.length + 1 + t.suf.length := by simp [PatTarget.text]; omega
  cases h with
  | whole _ e hne hw =>
    have hl := congrArg List.length e
    simp only [List.length_append] at hl
    have hpos : core.length ≠ 0 := by simpa using hne
    have hc : (decide (pathLen archive name ≠ 0) && !t.text.contains '/') = false := by
      rcases hw with hw | hw | hw
      · have : pathLen archive name = 0 := by
          unfold pathLen
          unfold isMember at hw
          rw [if_pos (by simpa using hw)]
        simp [this]
      · have : pathLen archive name = 0 := by
          unfold pathLen
          split
          · rfl
          · exact pathLen_zero hw
        simp [this]
      · rw [(text_slash t).2 hw]; simp
    refine ⟨false, ?_, ?_⟩
    · unfold matchTarget
      rw [if_neg (by omega)]
      simp only [hc, Bool.false_eq_true, if_false, Nat.not_lt_zero, List.drop_zero, Nat.zero_add, Nat.sub_zero]
      have e1 : name.take t.pre.length = t.pre := by
        rw [e, List.append_assoc, List.take_left' rfl]
      have e2 : name.drop (t.pre.length + (name.length - t.text.length + 1)) = t.suf := by
        have : t.pre.length + (name.length - t.text.length + 1) = (t.pre ++ core).length := by simp; omega
        rw [this]
        conv => lhs; rw [e]
        rw [List.drop_left' rfl]
      simp only [e1, e2, ne_eq, not_true, if_false, List.length_nil, Nat.zero_add]
      congr 2; omega
    · simp only [partsOf, Bool.false_eq_true, if_false, List.take_zero, Nat.zero_add, Nat.sub_zero, List.length_nil]
      rw [e, List.append_assoc, List.drop_left' rfl, List.take_left' rfl]
  | inDir _ base _ hm hp1 hp2 hs hb =>
    have hpl := split_pathLen hs
    have hpath : pathLen archive name = dir.length := by
      unfold pathLen
      unfold isMember at hm
      rw [if_neg (by simpa using hm)]
      exact hpl.1
    have hdne : dir ≠ [] := by
      rintro rfl
      have := hs.2.1
      simp at this
    have hdl : dir.length ≠ 0 := by simpa using hdne
    have hc : (decide (pathLen archive name ≠ 0) && !t.text.contains '/') = true := by
      rw [hpath]
      have : t.text.contains '/' = false := by
        have := text_slash t
        cases hh : t.text.contains '/' with
        | false => rfl
        | true => rw [hh] at this; simp [hp1, hp2] at this
      rw [this]; simp [hdne]
    rw [hpath] at hc
    have e : name = dir ++ (t.pre ++ core ++ t.suf) := by rw [← hb]; exact hs.1
    have hl := congrArg List.length e
    simp only [List.length_append] at hl
    refine ⟨true, ?_, ?_⟩
    · unfold matchTarget
      rw [if_neg (by omega)]
      simp only [hpath, hc, if_true]
      rw [if_neg (by omega)]
      have e1 : (name.drop dir.length).take t.pre.length = t.pre := by
        rw [e, List.drop_left' rfl, List.append_assoc, List.take_left' rfl]
      have e2 : name.drop (dir.length + t.pre.length + (name.length - t.text.length + 1 - dir.length)) = t.suf := by
        have : dir.length + t.pre.length + (name.length - t.text.length + 1 - dir.length) = (dir ++ t.pre ++ core).length := by
          simp; omega
        rw [this]
        conv => lhs; rw [show name = (dir ++ t.pre ++ core) ++ t.suf by rw [e]; simp]
        rw [List.drop_left' rfl]
      simp only [e1, e2, ne_eq, not_true, if_false]
      congr 2; omega
    · simp only [partsOf, if_true, hpath]
      rw [e, List.take_left' rfl]
      rw [← List.drop_drop, List.drop_left' rfl, List.append_assoc, List.drop_left' rfl, List.take_left' (by omega)]

/-- Directory and core are determined by the name and the pattern. -/
theorem fits_unique {archive : Bool} {name d c d' c' : Str} {t : PatTarget}
    (h : Fits (isMember archive name) t name d c) (h' : Fits (isMember archive name) t name d' c') :
    d = d' ∧ c = c' := by
  obtain ⟨b, h1, h2⟩ := matchTarget_complete h
  obtain ⟨b', h1', h2'⟩ := matchTarget_complete h'
  rw [h1] at h1'
  simp only [Option.some.injEq, Prod.mk.injEq] at h1'
  obtain ⟨e, rfl⟩ := h1'
  rw [← e, h2] at h2'
  simpa using h2'

end Remake
