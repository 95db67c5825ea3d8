import Verif.PatSecond.Spec
import Verif.Snap.Lemmas

/-! # Lemmas about second expansion in pattern rules -/
set_option linter.unusedVariables false
set_option linter.unusedSimpArgs false
namespace Remake
open Spec

theorem Parens.ne {o c : Char} (h : Parens o c) : o ≠ nul ∧ c ≠ nul ∧ o ≠ c := by
  rcases h with ⟨rfl, rfl⟩ | ⟨rfl, rfl⟩ <;> decide

theorem skipParens_matched {o c : Char} (hp : Parens o c) {a : Str} (h : ParenText o c a) (n : Nat) (r : Str) :
    skipParens o c n (a ++ r) = (skipParens o c n r).map fun x => (a ++ x.1, x.2) := by
  obtain ⟨h1, h2, h3⟩ := Parens.ne hp
  induction h generalizing n r with
  | nil => simp
  | @char d t hd1 hd2 hd3 _ ih =>
    rw [List.cons_append, skipParens.eq_def]
    have : d ≠ nul := hd3
    simp only [this, hd1, hd2, if_false]
    rw [ih]
    cases skipParens o c n r <;> simp
  | @group a t _ _ ih1 ih2 =>
    rw [show o :: a ++ c :: t ++ r = o :: (a ++ (c :: (t ++ r))) by simp, skipParens.eq_def]
    simp only [h1, if_false, if_true]
    rw [ih1, skipParens.eq_def]
    simp only [h2, if_false, Ne.symm h3, if_true]
    rw [ih2]
    cases skipParens o c n r <;> simp

theorem skipParens_ref {o c : Char} (hp : Parens o c) {a : Str} (h : ParenText o c a) (r : Str) :
    skipParens o c 0 (a ++ c :: r) = some (a ++ [c], r) := by
  obtain ⟨h1, h2, h3⟩ := Parens.ne hp
  rw [skipParens_matched hp h, skipParens.eq_def]
  simp [h2, Ne.symm h3]

theorem nextWordGo_pieces {w : Str} (h : Pieces w) (r : Str) :
    nextWordGo (w ++ r) = (nextWordGo r).map fun x => (w ++ x.1, x.2) := by
  induction h with
  | nil => simp
  | @char c t h1 h2 h3 h4 h5 _ ih =>
    rw [List.cons_append, nextWordGo.eq_def]
    have : c ≠ nul := h1
    simp only [this, h2, h3, h4, h5, or_self, if_false]
    rw [ih]
    cases nextWordGo r <;> simp
  | @one c t h1 h2 h3 _ ih =>
    rw [List.cons_append, List.cons_append, nextWordGo.eq_def]
    have e : ¬('$' = nul ∨ '$' = ' ' ∨ '$' = '\t') := by decide
    have e2 : ¬ ('$' = '|') := by decide
    simp only [e, e2, h2, h3, or_self, if_false, if_true]
    rw [ih]
    cases nextWordGo r <;> simp
  | @ref o c a t hp ha _ ih =>
    rw [show '$' :: o :: a ++ c :: t ++ r = '$' :: o :: (a ++ (c :: (t ++ r))) by simp, nextWordGo.eq_def]
    have e : ¬('$' = nul ∨ '$' = ' ' ∨ '$' = '\t') := by decide
    have e2 : ¬ ('$' = '|') := by decide
    have e3 : o = '(' ∨ o = '{' := by rcases hp with ⟨h, _⟩ | ⟨h, _⟩ <;> simp [h]
    have e4 : (if o = '(' then ')' else '}') = c := by rcases hp with ⟨rfl, rfl⟩ | ⟨rfl, rfl⟩ <;> rfl
    have hs : skipParens o (if o = '(' then ')' else '}') 0 (a ++ c :: (t ++ r)) = some (a ++ [c], t ++ r) := by
      rw [e4]; exact skipParens_ref hp ha (t ++ r)
    simp only [e, e2, e3, if_false, if_true]
    split
    · rename_i h; rw [hs] at h; cases h
    · rename_i x q h
      rw [hs] at h; cases h
      rw [ih]
      cases nextWordGo r <;> simp

theorem parenText_no_nul {o c : Char} (hp : Parens o c) {a : Str} (h : ParenText o c a) : nul ∉ a := by
  obtain ⟨h1, h2, h3⟩ := Parens.ne hp
  induction h with
  | nil => simp
  | char a1 a2 a3 _ ih => simp only [List.mem_cons, not_or]; exact ⟨fun h => a3 h.symm, ih⟩
  | group _ _ ih1 ih2 => simp [ih1, ih2, Ne.symm h1, Ne.symm h2]

theorem pieces_no_nul {w : Str} (h : Pieces w) : nul ∉ w := by
  induction h with
  | nil => simp
  | char h1 _ _ _ _ _ ih => simp [ih]; exact fun h => h1 h.symm
  | one h1 _ _ _ ih =>
    simp only [List.mem_cons, not_or]
    exact ⟨by decide, fun h => h1 h.symm, ih⟩
  | ref hp ha _ ih =>
    obtain ⟨h1, h2, h3⟩ := Parens.ne hp
    simp only [List.cons_append, List.mem_cons, List.mem_append, not_or]
    exact ⟨by decide, Ne.symm h1, parenText_no_nul hp ha, Ne.symm h2, ih⟩

theorem cString_id {s : Str} (h : nul ∉ s) : cString s = s := by
  unfold cString
  induction s with
  | nil => rfl
  | cons c s ih =>
    simp at h
    rw [List.takeWhile_cons_of_pos (by simpa using fun h' => h.1 h'.symm), ih h.2]

theorem fillWord_spec {d : Bool} {w t : Str} (h : Filled d w t) : fillWord d w = t := by
  unfold fillWord
  rcases h with ⟨h1, rfl⟩ | ⟨a, b, rfl, ha, rfl⟩
  · have : ∀ w : Str, '%' ∉ w → w.dropWhile (· ≠ '%') = [] := by
      intro w hw
      induction w with
      | nil => rfl
      | cons c w ih =>
        simp at hw
        rw [List.dropWhile_cons_of_pos (by simpa using fun h' => hw.1 h'.symm), ih hw.2]
    rw [this _ h1]
  · have h2 : ∀ a : Str, '%' ∉ a → (a ++ '%' :: b).dropWhile (· ≠ '%') = '%' :: b ∧ (a ++ '%' :: b).takeWhile (· ≠ '%') = a := by
      intro a ha
      induction a with
      | nil => simp
      | cons c a ih =>
        simp at ha
        have hc : c ≠ '%' := fun h' => ha.1 h'.symm
        obtain ⟨i1, i2⟩ := ih ha.2
        rw [List.cons_append, List.dropWhile_cons_of_pos (by simpa using hc), List.takeWhile_cons_of_pos (by simpa using hc), i1, i2]
        exact ⟨rfl, rfl⟩
    obtain ⟨i1, i2⟩ := h2 a ha
    rw [i1, i2]
    cases d <;> rfl

theorem filled_length {d : Bool} {w t : Str} (h : Filled d w t) : t.length ≤ w.length + 4 := by
  rcases h with ⟨_, rfl⟩ | ⟨a, b, rfl, _, rfl⟩
  · omega
  · cases d <;> simp <;> omega

theorem filled_no_nul {d : Bool} {w t : Str} (h : Filled d w t) (hw : nul ∉ w) : nul ∉ t := by
  rcases h with ⟨_, rfl⟩ | ⟨a, b, rfl, _, rfl⟩
  · exact hw
  · simp only [List.mem_append, List.mem_cons, not_or] at hw ⊢
    refine ⟨⟨hw.1, ?_⟩, hw.2.2⟩
    cases d <;> decide

theorem first_percent (w : Str) (h : '%' ∈ w) : ∃ a b, w = a ++ '%' :: b ∧ '%' ∉ a := by
  induction w with
  | nil => cases h
  | cons c w ih =>
    by_cases hc : c = '%'
    · exact ⟨[], w, by rw [hc]; rfl, by simp⟩
    · obtain ⟨a, b, h1, h2⟩ := ih (by simpa [Ne.symm hc] using h)
      exact ⟨c :: a, b, by rw [h1]; rfl, by simp [h2, Ne.symm hc]⟩

theorem filled_exists (d : Bool) (w : Str) : Filled d w (fillWord d w) := by
  by_cases h : '%' ∈ w
  · obtain ⟨a, b, rfl, ha⟩ := first_percent w h
    have : Filled d (a ++ '%' :: b) (a ++ (if d then "$(*F)".toList else "$*".toList) ++ b) := .inr ⟨a, b, rfl, ha, rfl⟩
    rw [fillWord_spec this]; exact this
  · have : Filled d w w := .inl ⟨h, rfl⟩
    rw [fillWord_spec this]; exact this

/-! ## Names -/

theorem elementNames_plain_pfx {env : FsEnv} {w : Str} (h : PlainWord w) (pfx : Option Str) :
    elementNames env {} pfx (seqName w) = some [pfx.getD [] ++ lookupName w] := by
  obtain ⟨h1, h2, h3, h4, h5⟩ := h
  have g1 : '(' ∉ seqName w := mem_seqName (by decide) h1
  have g2 : '~' ∉ seqName w := mem_seqName (by decide) h2
  have g3 : '?' ∉ seqName w := mem_seqName (by decide) h3
  have g4 : '*' ∉ seqName w := mem_seqName (by decide) h4
  have g5 : '[' ∉ seqName w := mem_seqName (by decide) h5
  rw [← seqName_eq_lookup]
  generalize seqName w = n at *
  have g6 : n.head? ≠ some '~' := fun h => g2 (List.mem_of_mem_head? h)
  have g7 : arName n = .no := by
    have := dropWhile_paren g1
    unfold arName
    rw [this]
  have g8 : n.any (fun c => c == '?' || c == '*' || c == '[') = false := by
    rw [List.any_eq_false]
    intro x hx
    have h1 : x ≠ '?' := by rintro rfl; exact g3 hx
    have h2 : x ≠ '*' := by rintro rfl; exact g4 hx
    have h3 : x ≠ '[' := by rintro rfl; exact g5 hx
    simp [h1, h2, h3]
  unfold elementNames
  simp only [g6, g7, g8, if_false, Bool.false_eq_true, Bool.not_false, Bool.and_self, if_true, List.map_cons, List.map_nil]

theorem collect_plain_pfx {env : FsEnv} {pfx : Option Str} {ws : List Str} (h : ∀ w ∈ ws, PlainWord w) :
    collect env pfx ws = some (ws.map fun w => pfx.getD [] ++ lookupName w) := by
  induction ws with
  | nil => rfl
  | cons w ws ih =>
    rw [collect, elementNames_plain_pfx (h w (by simp)), ih fun x hx => h x (by simp [hx])]
    simp

theorem wordNames_spec (env : FsEnv) {g : Str → Str} (hg : ∀ w, Stripped w (g w)) (pfx : Option Str) {oo oo' : Bool} {t : Str}
    {ps : List (Str × Bool)} (h : WordLists g (pfx.getD []) oo t ps oo') : wordNames env pfx oo t = some (ps, oo') := by
  have hgl : g = lookupName := funext fun w => stripped_unique (hg w)
  subst hgl
  have pend : ∀ (stop : Char → Bool) (hb : stop '\\' = false) (ns : List Str) (t : Str), Listing (findMap {} stop) true ns t →
      (∀ w ∈ ns, PlainWord w) → parseFileSeq env {} pfx stop t = some (ns.map (fun w => pfx.getD [] ++ lookupName w), []) := by
    intro stop hb ns t hl hn
    have := parse_listing (env := env) (pfx := pfx) (stop := stop) hb hl (rest := []) (.inr ⟨rfl, rfl⟩) (fun w hw => (hn w hw).1) []
      (by intro c hc; cases hc)
    rw [List.nil_append, List.append_nil] at this
    rw [parseFileSeq, this, collect_plain_pfx hn]; rfl
  have efalse : (fun c => !false && c == '|') = (fun c : Char => c == '|') := by funext c; simp
  have etrue : (fun c => !true && c == '|') = (fun _ : Char => false) := by funext c; simp
  cases h with
  | @normal t ns hl hn =>
    unfold wordNames
    rw [efalse, pend _ (by decide) ns t hl hn]
    simp [Function.comp_def]
  | @order t ns hl hn =>
    unfold wordNames
    rw [etrue, pend (fun _ => false) rfl ns t hl hn]
    simp [Function.comp_def]
  | @both t1 t2 ns os h1 h2 hn ho =>
    have e1 : parseFileSeq env {} pfx (· == '|') (t1 ++ '|' :: t2) = some (ns.map (fun w => pfx.getD [] ++ lookupName w), '|' :: t2) := by
      have := parse_listing (env := env) (pfx := pfx) (stop := (· == '|')) (by decide) h1
        (rest := '|' :: t2) (.inl ⟨rfl, '|', t2, rfl, by decide, by decide⟩) (fun w hw => (hn w hw).1) [] (by intro c hc; cases hc)
      rw [List.nil_append] at this
      rw [parseFileSeq, this, collect_plain_pfx hn]; rfl
    unfold wordNames
    rw [efalse, e1]
    simp only
    by_cases ht : t2 = []
    · subst ht
      have e := pend (fun _ => false) rfl os [] h2 ho
      rw [parseFileSeq, parseSeq_end rfl] at e
      have : os = [] := by
        have := (Prod.mk.inj (Option.some.inj e)).1
        cases os with
        | nil => rfl
        | cons o os => cases this
      subst this
      simp [Function.comp_def]
    · rw [if_neg ht, pend (fun _ => false) rfl os t2 h2 ho]
      simp [Function.comp_def]

end Remake
