import Verif.Glob.Match
import Verif.Glob.MatchSpec
/-! Lemmas for C123. -/
set_option linter.unusedVariables false
set_option linter.unusedSimpArgs false
namespace Remake
open Spec
open Classical in
instance instDecInSet (neg : Bool) (items : List SetItem) (x : Char) : Decidable (inSet neg items x) := by
  unfold inSet; infer_instance

theorem skipMatched_plain (ne : Bool) (rest : Str) : ∀ (p : Str) (c : Char), c ≠ ']' → (∀ x ∈ p, x ∉ "]\\[".toList) →
    skipMatched ne (some c) (p ++ ']' :: rest) = .at rest
  | [], c, hc, hp => by
    rw [skipMatched.eq_def]
    simp only [Option.some.injEq, hc, if_false, reduceCtorEq, List.nil_append]
    rw [if_neg (by simp), if_neg (by simp), skipMatched.eq_def, if_pos rfl]
  | x :: p, c, hc, hp => by
    have hx := hp x (by simp)
    simp at hx
    rw [skipMatched.eq_def]
    simp only [Option.some.injEq, hc, if_false, reduceCtorEq, List.cons_append]
    rw [if_neg (by simp [hx]), if_neg (by simp [hx])]
    exact skipMatched_plain ne rest p x hx.1 fun y hy => hp y (by simp [hy])

theorem items_plain (items : List SetItem) (h : ∀ i ∈ items, i.plain) : ∀ x ∈ items.flatMap SetItem.text, x ∉ "]\\[".toList := by
  intro x hx
  obtain ⟨i, hi, hx⟩ := List.mem_flatMap.mp hx
  have := h i hi
  cases i with
  | ch c =>
    simp [SetItem.text] at hx
    subst hx
    simp [SetItem.plain, plainInSet] at this ⊢
    exact ⟨this.1, this.2.1, this.2.2.2⟩
  | range a b =>
    simp [SetItem.plain, plainInSet] at this
    simp [SetItem.text] at hx
    rcases hx with rfl | rfl | rfl
    · simp; exact ⟨this.1.1, this.1.2.1, this.1.2.2.2⟩
    · decide
    · simp; exact ⟨this.2.1.1, this.2.1.2.1, this.2.1.2.2.2⟩

theorem bracketNext_close (rest : Str) : bracketNext (']' :: rest) = .miss rest := by simp [bracketNext]

/-- One turn of the loop over a bracket deals with one item. -/
theorem bracketStep_item (ne : Bool) (fn : Char) (i : SetItem) (hi : i.plain) (t : Str) (ht : ∀ x ∈ t, x ∉ "]\\[".toList)
    (hd : t.head? ≠ some '-') (rest : Str) (c : Char) (u : Str) (hcu : i.text = c :: u) :
    (i.has fn → ∃ c' p, bracketStep ne fn c (u ++ t ++ ']' :: rest) = .hit c' (p ++ ']' :: rest) ∧ c' ≠ ']' ∧ ∀ x ∈ p, x ∉ "]\\[".toList) ∧
    (¬ i.has fn → bracketStep ne fn c (u ++ t ++ ']' :: rest) = bracketNext (t ++ ']' :: rest)) := by
  have hstep : ∀ q, plainInSet c → bracketStep ne fn c q = bracketChar ne fn c q := by
    intro q hc
    simp [plainInSet] at hc
    unfold bracketStep
    rw [if_neg (by simp [hc]), if_neg (by simp [hc])]
  have hnd : (t ++ ']' :: rest).head? ≠ some '-' := by
    cases t with
    | nil => simp
    | cons x t => simpa using hd
  cases i with
  | ch d =>
    simp [SetItem.text] at hcu
    obtain ⟨rfl, rfl⟩ := hcu
    rw [hstep _ hi]
    have hp := hi
    simp [SetItem.plain, plainInSet] at hp
    refine ⟨fun h => ?_, fun h => ?_⟩
    · have : fn = d := h
      subst this
      exact ⟨fn, t, by unfold bracketChar; simp, hp.1, ht⟩
    · have : d ≠ fn := fun e => h e.symm
      unfold bracketChar
      rw [if_neg this, if_neg (by simp only [List.nil_append]; exact fun h => hnd h.1)]
      simp
  | range a b =>
    simp [SetItem.text] at hcu
    obtain ⟨rfl, rfl⟩ := hcu
    obtain ⟨h1, h2, h3, h4⟩ := hi
    rw [hstep _ h1]
    have g1 := h1
    have g2 := h2
    simp [plainInSet] at g1 g2
    have hu : ∀ x ∈ ('-' :: b :: t), x ∉ "]\\[".toList := by
      intro x hx
      simp only [List.mem_cons] at hx
      rcases hx with rfl | rfl | hx
      · decide
      · simp; exact ⟨g2.1, g2.2.1, g2.2.2.2⟩
      · exact ht x hx
    have hle : coldLe a fn = decide (a ≤ fn) := by simp [coldLe]; omega
    unfold bracketChar
    by_cases hae : a = fn
    · refine ⟨fun _ => ⟨a, '-' :: b :: t, by rw [if_pos hae]; simp, g1.1, hu⟩, fun h => ?_⟩
      exact absurd ⟨by rw [hae]; exact Nat.le_refl _, hae ▸ h4⟩ h
    · rw [if_neg hae]
      have hc : ('-' :: b :: t ++ ']' :: rest).head? = some '-' ∧ ('-' :: b :: t ++ ']' :: rest).tail.head? ≠ some ']' := by
        simp [g2]
      have heq : (['-', b] ++ t ++ ']' :: rest) = '-' :: b :: (t ++ ']' :: rest) := by simp
      rw [heq]
      simp only [List.head?_cons, List.tail_cons, Option.some.injEq, ne_eq, g2.1, not_false_eq_true, and_self, if_true]
      rw [if_neg (by simp [g2]), bracketRange, hle]
      by_cases h : a ≤ fn ∧ fn ≤ b
      · refine ⟨fun _ => ⟨'-', t, ?_, by decide, ht⟩, fun hn => absurd h hn⟩
        rw [if_pos (by simp [h])]
      · refine ⟨fun hh => absurd hh h, fun _ => ?_⟩
        rw [if_neg (by simp only [Bool.and_eq_true, decide_eq_true_eq]; exact h)]

/-- The loop over a bracket finds a character among the items. -/
theorem bracketLoop_items (ne : Bool) (fn : Char) (rest : Str) : ∀ (items : List SetItem) (c : Char) (u : Str), (∀ i ∈ items, i.plain) →
    items.flatMap SetItem.text = c :: u →
    ((∃ i ∈ items, i.has fn) → ∃ c' p, bracketLoop ne fn c (u ++ ']' :: rest) = .hit c' (p ++ ']' :: rest) ∧ c' ≠ ']' ∧
      ∀ x ∈ p, x ∉ "]\\[".toList) ∧
    (¬ (∃ i ∈ items, i.has fn) → bracketLoop ne fn c (u ++ ']' :: rest) = .miss rest)
  | [], c, u, h, he => by simp at he
  | i :: items, c, u, h, he => by
    obtain ⟨c0, u0, hi⟩ : ∃ c0 u0, i.text = c0 :: u0 := by cases i <;> exact ⟨_, _, rfl⟩
    have hfirst : ∀ c' u', items.flatMap SetItem.text = c' :: u' → c' ≠ '-' ∧ c' ≠ ']' := by
      intro c' u' e
      cases items with
      | nil => simp at e
      | cons j items =>
        have hj := h j (by simp)
        cases j with
        | ch d =>
          simp [SetItem.text] at e
          rw [← e.1]
          simp [SetItem.plain, plainInSet] at hj
          exact ⟨hj.2.2.1, hj.1⟩
        | range a b =>
          simp [SetItem.text] at e
          rw [← e.1]
          simp [SetItem.plain, plainInSet] at hj
          exact ⟨hj.1.2.2.1, hj.1.1⟩
    have ht := items_plain items fun j hj => h j (by simp [hj])
    have hd : (items.flatMap SetItem.text).head? ≠ some '-' := by
      cases e : items.flatMap SetItem.text with
      | nil => simp
      | cons c' u' => simp [(hfirst c' u' e).1]
    obtain ⟨s1, s2⟩ := bracketStep_item ne fn i (h i (by simp)) _ ht hd rest c0 u0 hi
    rw [List.flatMap_cons, hi] at he
    simp only [List.cons_append, List.cons.injEq] at he
    obtain ⟨rfl, rfl⟩ := he
    by_cases hin : i.has fn
    · obtain ⟨c', p, q1, q2, q3⟩ := s1 hin
      refine ⟨fun _ => ⟨c', p, ?_, q2, q3⟩, fun hn => absurd ⟨i, by simp, hin⟩ hn⟩
      rw [bracketLoop.eq_def, q1]
    · have s2 := s2 hin
      have hex : (∃ j ∈ i :: items, j.has fn) ↔ ∃ j ∈ items, j.has fn := by
        constructor
        · rintro ⟨j, hj, hh⟩
          rcases List.mem_cons.mp hj with rfl | hj
          · exact absurd hh hin
          · exact ⟨j, hj, hh⟩
        · rintro ⟨j, hj, hh⟩
          exact ⟨j, by simp [hj], hh⟩
      rw [hex]
      cases e : items.flatMap SetItem.text with
      | nil =>
        rw [e] at s2
        have hnone : ¬ ∃ j ∈ items, j.has fn := by
          rintro ⟨j, hj, -⟩
          have : j.text ≠ [] := by cases j <;> simp [SetItem.text]
          obtain ⟨x, hx⟩ := List.exists_mem_of_ne_nil _ this
          have : x ∈ items.flatMap SetItem.text := List.mem_flatMap.mpr ⟨j, hj, hx⟩
          rw [e] at this
          simp at this
        refine ⟨fun hh => absurd hh hnone, fun _ => ?_⟩
        rw [bracketLoop.eq_def, s2]
        simp [bracketNext]
      | cons c' u' =>
        have ih := bracketLoop_items ne fn rest items c' u' (fun j hj => h j (by simp [hj])) e
        rw [e] at s2
        have hl : bracketLoop ne fn c0 (u0 ++ (c' :: u') ++ ']' :: rest) = bracketLoop ne fn c' (u' ++ ']' :: rest) := by
          have hb : bracketNext (c' :: u' ++ ']' :: rest) = .next c' (u' ++ ']' :: rest) := by
            simp [bracketNext, (hfirst c' u' e).2]
          rw [bracketLoop.eq_def, s2, hb]
        rw [hl]
        exact ih

/-- A bracket. -/
theorem bracket_set (fl : FnFlags) (fn : Char) (neg : Bool) (items : List SetItem) (rest : Str)
    (h : (GItem.set neg items).plain fl.noescape) :
    bracket fl fn ((if neg then ['!'] else []) ++ items.flatMap SetItem.text ++ ']' :: rest) =
      if inSet neg items fn then .at rest else .noMatch := by
  obtain ⟨h1, h2, h3⟩ := h
  obtain ⟨c, u, he⟩ : ∃ c u, items.flatMap SetItem.text = c :: u := by
    cases items with
    | nil => simp at h1
    | cons i items => cases i <;> exact ⟨_, _, rfl⟩
  have hn : bracketNot fl ((if neg then ['!'] else []) ++ items.flatMap SetItem.text ++ ']' :: rest) = neg := by
    cases neg with
    | true => simp [bracketNot]
    | false =>
      have := h3 rfl
      rw [he] at this ⊢
      simp at this
      simp [bracketNot, this]
  rw [bracket, hn]
  have ht : (if neg = true then ((if neg then ['!'] else []) ++ items.flatMap SetItem.text ++ ']' :: rest).tail
      else ((if neg then ['!'] else []) ++ items.flatMap SetItem.text ++ ']' :: rest)) = c :: (u ++ ']' :: rest) := by
    rw [he]
    cases neg <;> simp
  rw [ht, bracketBody]
  obtain ⟨q1, q2⟩ := bracketLoop_items fl.noescape fn rest items c u h2 he
  by_cases hin : ∃ i ∈ items, i.has fn
  · obtain ⟨c', p, e1, e2, e3⟩ := q1 hin
    rw [e1]
    simp only [skipMatched_plain fl.noescape rest p c' e2 e3]
    cases neg with
    | true => have hi : ¬ inSet true items fn := fun h => absurd (h.1 hin) (by decide)
              simp [hi]
    | false => have hi : inSet false items fn := ⟨fun _ => rfl, fun _ => hin⟩
               simp [hi]
  · rw [q2 hin]
    cases neg with
    | true => have hi : inSet true items fn := ⟨fun h => absurd h hin, fun h => absurd h (by decide)⟩
              simp [hi]
    | false => have hi : ¬ inSet false items fn := fun h => hin (h.2 rfl)
               simp [hi]

end Remake
