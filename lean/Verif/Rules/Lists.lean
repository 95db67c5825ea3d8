import Verif.Rules.Spec
/-!
# Lemmas on the list of rules
-/
set_option linter.unusedVariables false
set_option linter.unusedSimpArgs false
namespace Remake
open Remake.Spec

/-- A rule with one target. -/
def single (r : PatRule) : Prop := r.targets.length = 1

theorem sameRule_single {new old : PatRule} (h : single new) (h' : single old) :
    sameRule new old = decide (headOf old = headOf new) := by
  unfold single at h h'
  match hn : new.targets, ho : old.targets, h, h' with
  | [t], [u], _, _ =>
    unfold sameRule headOf
    rw [hn, ho]
    rw [Bool.eq_iff_iff]
    simp only [List.any_cons, List.any_nil, List.all_cons, List.all_nil, Bool.and_true, Bool.or_false,
      Bool.and_eq_true, beq_iff_eq, List.map_cons, List.map_nil, decide_eq_true_eq, Prod.mk.injEq,
      List.cons.injEq, and_true]
    constructor
    · rintro ⟨a, b⟩; exact ⟨a.symm, b.symm⟩
    · rintro ⟨a, b⟩; exact ⟨a.symm, b.symm⟩

theorem erase_first {α β} [DecidableEq β] (f : α → β) (b : β) : ∀ l : List α, (l.map f).Nodup →
    (match l.findIdx? (fun a => decide (f a = b)) with
      | some i => l.eraseIdx i
      | none => l) = l.filter (fun a => !decide (f a = b)) := by
  intro l
  induction l with
  | nil => simp
  | cons a l ih =>
    intro h
    rw [List.map_cons, List.nodup_cons] at h
    rw [List.findIdx?_cons]
    by_cases hb : f a = b
    · simp only [hb, decide_true, if_true]
      rw [List.filter_cons]
      simp only [hb, decide_true, Bool.not_true, Bool.false_eq_true, if_false, List.eraseIdx_cons_zero]
      symm
      rw [List.filter_eq_self]
      intro x hx
      simp only [Bool.not_eq_true', decide_eq_false_iff_not]
      intro he
      apply h.1
      rw [hb, ← he]
      exact List.mem_map_of_mem hx
    · have ih' := ih h.2
      simp only [hb, decide_false, Bool.false_eq_true, if_false]
      rw [List.filter_cons]
      simp only [hb, decide_false, Bool.not_false, if_true]
      cases hf : l.findIdx? (fun a => decide (f a = b)) with
      | none => rw [hf] at ih'; simp only [Option.map_none] at ih' ⊢; rw [← ih']
      | some i => rw [hf] at ih'; simp only [Option.map_some, List.eraseIdx_cons_succ] at ih' ⊢; rw [← ih']

theorem findIdx?_congr' {α} {p q : α → Bool} : ∀ l : List α, (∀ a ∈ l, p a = q a) → l.findIdx? p = l.findIdx? q := by
  intro l
  induction l with
  | nil => intro _; rfl
  | cons a l ih =>
    intro h
    rw [List.findIdx?_cons, List.findIdx?_cons, h a List.mem_cons_self, ih (fun x hx => h x (List.mem_cons_of_mem _ hx))]

theorem newRule_override {rules : List PatRule} {new : PatRule} (h : single new) (hr : ∀ r ∈ rules, single r)
    (hn : (rules.map headOf).Nodup) :
    newPatternRule true rules new = rules.filter (fun r => !decide (headOf r = headOf new)) ++ [new] := by
  unfold newPatternRule
  rw [findIdx?_congr' rules (q := fun r => decide (headOf r = headOf new)) (fun a ha => sameRule_single h (hr a ha))]
  have := erase_first headOf (headOf new) rules hn
  cases hf : rules.findIdx? (fun r => decide (headOf r = headOf new)) with
  | none => rw [hf] at this; simp only; rw [← this]
  | some i => rw [hf] at this; simp only [if_true]; rw [← this]

theorem newRule_keep {rules : List PatRule} {new : PatRule} (h : single new) (hr : ∀ r ∈ rules, single r) :
    newPatternRule false rules new =
      if headOf new ∈ rules.map headOf then rules else rules ++ [new] := by
  unfold newPatternRule
  rw [findIdx?_congr' rules (q := fun r => decide (headOf r = headOf new)) (fun a ha => sameRule_single h (hr a ha))]
  cases hf : rules.findIdx? (fun r => decide (headOf r = headOf new)) with
  | none =>
    rw [List.findIdx?_eq_none_iff] at hf
    rw [if_neg]
    intro hm
    obtain ⟨r, hr1, hr2⟩ := List.mem_map.1 hm
    have := hf r hr1
    simp [hr2] at this
  | some i =>
    simp only [Bool.false_eq_true, if_false]
    rw [if_pos]
    rw [List.findIdx?_eq_some_iff_getElem] at hf
    obtain ⟨hl, hp, _⟩ := hf
    simp only [decide_eq_true_eq] at hp
    rw [← hp]
    exact List.mem_map_of_mem (List.getElem_mem hl)

/-- The makefile's rules: the last definition of each head, in the order of the last definitions. -/
theorem user_rules (user : List PatRule) (hs : ∀ r ∈ user, single r) :
    ((user.foldl (newPatternRule true) []).map headOf).Nodup ∧
    (user.foldl (newPatternRule true) []).Sublist user ∧
    ∀ h, (user.foldl (newPatternRule true) []).find? (fun r => decide (headOf r = h)) =
      user.reverse.find? (fun r => decide (headOf r = h)) := by
  have key : ∀ u : List PatRule, (∀ r ∈ u.reverse, single r) →
      (((u.reverse).foldl (newPatternRule true) []).map headOf).Nodup ∧
      ((u.reverse).foldl (newPatternRule true) []).Sublist u.reverse ∧
      ∀ h, ((u.reverse).foldl (newPatternRule true) []).find? (fun r => decide (headOf r = h)) =
        u.find? (fun r => decide (headOf r = h)) := by
    intro u
    induction u with
    | nil => intro _; simp
    | cons a u ih =>
      intro hs
      have hs' : ∀ r ∈ u.reverse, single r := fun r hr => hs r (by rw [List.reverse_cons]; exact List.mem_append_left _ hr)
      obtain ⟨h1, h2, h3⟩ := ih hs'
      have ha : single a := hs a (by simp)
      rw [List.reverse_cons, List.foldl_append]
      simp only [List.foldl_cons, List.foldl_nil]
      generalize hL : (u.reverse).foldl (newPatternRule true) [] = L at *
      rw [newRule_override ha (fun r hr => hs' r (h2.subset hr)) h1]
      refine ⟨?_, ?_, ?_⟩
      · rw [List.map_append, List.nodup_append]
        refine ⟨h1.sublist ((List.filter_sublist).map _), by simp, ?_⟩
        intro x hx y hy
        simp only [List.map_cons, List.map_nil, List.mem_singleton] at hy
        subst hy
        obtain ⟨r, hr, rfl⟩ := List.mem_map.1 hx
        have := (List.mem_filter.1 hr).2
        simpa using this
      · exact ((List.filter_sublist).trans h2).append (List.Sublist.refl _)
      · intro h
        rw [List.find?_append, List.find?_filter, List.find?_cons]
        by_cases hh : headOf a = h
        · have hnone : L.find? (fun r => decide ((!decide (headOf r = headOf a)) = true ∧ decide (headOf r = h) = true)) = none := by
            rw [List.find?_eq_none]
            intro x _
            subst hh
            simp
          rw [hnone]
          simp [hh]
        · simp only [hh, decide_false, List.find?_cons, List.find?_nil, Option.or_none]
          rw [← h3 h]
          congr 1
          funext r
          by_cases hr : headOf r = h
          · have : headOf r ≠ headOf a := by intro e; exact hh (e ▸ hr)
            simp [hr, this]
            intro e
            exact this (hr.trans e)
          · simp [hr]
  have := key user.reverse (by simpa using hs)
  simpa using this

/-- Rules that do not override: the first definition of each head. -/
theorem other_rules (rules builtin : List PatRule) (hs : ∀ r ∈ rules, single r) (hb : ∀ r ∈ builtin, single r)
    (hn : (rules.map headOf).Nodup) :
    ((builtin.foldl (newPatternRule false) rules).map headOf).Nodup ∧
    (∃ added, builtin.foldl (newPatternRule false) rules = rules ++ added ∧ added.Sublist builtin) ∧
    ∀ h, (builtin.foldl (newPatternRule false) rules).find? (fun r => decide (headOf r = h)) =
      (rules.find? (fun r => decide (headOf r = h))).or (builtin.find? (fun r => decide (headOf r = h))) := by
  induction builtin generalizing rules with
  | nil => exact ⟨hn, ⟨[], by simp, by simp⟩, by simp⟩
  | cons a l ih =>
    have ha : single a := hb a List.mem_cons_self
    rw [List.foldl_cons, newRule_keep ha hs]
    split
    · rename_i hm
      obtain ⟨h1, ⟨ad, h2, h2'⟩, h3⟩ := ih rules hs (fun r hr => hb r (List.mem_cons_of_mem _ hr)) hn
      refine ⟨h1, ⟨ad, h2, h2'.trans (List.sublist_cons_self _ _)⟩, ?_⟩
      intro h
      rw [h3 h, List.find?_cons]
      by_cases hh : headOf a = h
      · obtain ⟨r, hr, hr'⟩ := List.mem_map.1 hm
        have : (rules.find? (fun r => decide (headOf r = h))).isSome = true := by
          rw [List.find?_isSome]
          exact ⟨r, hr, by simp [hr', hh]⟩
        obtain ⟨x, hx⟩ := Option.isSome_iff_exists.1 this
        rw [hx]; simp
      · simp [hh]
    · rename_i hm
      obtain ⟨h1, ⟨ad, h2, h2'⟩, h3⟩ := ih (rules ++ [a]) (by
          intro r hr
          rcases List.mem_append.1 hr with hr | hr
          · exact hs r hr
          · simp only [List.mem_singleton] at hr; subst hr; exact ha)
        (fun r hr => hb r (List.mem_cons_of_mem _ hr)) (by
          rw [List.map_append, List.nodup_append]
          refine ⟨hn, by simp, ?_⟩
          intro x hx y hy e
          simp only [List.map_cons, List.map_nil, List.mem_singleton] at hy
          subst hy; subst e
          exact hm hx)
      refine ⟨h1, ⟨a :: ad, by rw [h2]; simp, h2'.cons_cons _⟩, ?_⟩
      intro h
      rw [h3 h, List.find?_append, List.find?_cons]
      rw [List.find?_cons (as := l)]
      by_cases hh : headOf a = h
      · simp [hh, Option.or_assoc]
      · simp [hh]

/-! ## Suffix rules -/

theorem foldl_keep_prefix : ∀ (l rules : List PatRule),
    ∃ added, l.foldl (newPatternRule false) rules = rules ++ added ∧ ∀ r ∈ added, r ∈ l := by
  intro l
  induction l with
  | nil => intro rules; exact ⟨[], by simp, by simp⟩
  | cons a l ih =>
    intro rules
    rw [List.foldl_cons]
    have hc : newPatternRule false rules a = rules ∨ newPatternRule false rules a = rules ++ [a] := by
      unfold newPatternRule
      split
      · exact Or.inl (by simp)
      · exact Or.inr rfl
    rcases hc with hc | hc <;> rw [hc]
    · obtain ⟨ad, h1, h2⟩ := ih rules
      exact ⟨ad, h1, fun r hr => List.mem_cons_of_mem _ (h2 r hr)⟩
    · obtain ⟨ad, h1, h2⟩ := ih (rules ++ [a])
      refine ⟨a :: ad, by rw [h1]; simp, ?_⟩
      intro r hr
      rcases List.mem_cons.1 hr with rfl | hr
      · exact List.mem_cons_self
      · exact List.mem_cons_of_mem _ (h2 r hr)

/-- Each rule offered is in the list afterwards, or an identical one was there before it. -/
theorem foldl_keep_mem : ∀ (l rules : List PatRule) (r : PatRule), r ∈ l →
    r ∈ l.foldl (newPatternRule false) rules ∨ (∃ q ∈ rules, sameRule r q = true) ∨
      (∃ q ∈ l, q ≠ r ∧ sameRule r q = true) := by
  intro l
  induction l with
  | nil => intro _ r h; simp at h
  | cons a l ih =>
    intro rules r hr
    rw [List.foldl_cons]
    have grow : ∀ q ∈ newPatternRule false rules a, q ∈ rules ∨ q = a := by
      intro q hq
      unfold newPatternRule at hq
      split at hq
      · simp at hq; exact Or.inl hq
      · simpa using hq
    rcases List.mem_cons.1 hr with rfl | hr
    · by_cases hf : ∃ q ∈ rules, sameRule r q = true
      · exact Or.inr (Or.inl hf)
      · left
        have : newPatternRule false rules r = rules ++ [r] := by
          unfold newPatternRule
          have : rules.findIdx? (sameRule r) = none := by
            rw [List.findIdx?_eq_none_iff]
            intro q hq
            cases hs : sameRule r q with
            | false => rfl
            | true => exact absurd ⟨q, hq, hs⟩ hf
          rw [this]
        rw [this]
        obtain ⟨ad, h1, _⟩ := foldl_keep_prefix l (rules ++ [r])
        rw [h1]; simp
    · rcases ih (newPatternRule false rules a) r hr with h | ⟨q, hq, hs⟩ | ⟨q, hq, hne, hs⟩
      · exact Or.inl h
      · rcases grow q hq with hq | rfl
        · exact Or.inr (Or.inl ⟨q, hq, hs⟩)
        · by_cases he : q = r
          · subst he
            -- the same rule was offered before
            by_cases hf : ∃ q' ∈ rules, sameRule q q' = true
            · exact Or.inr (Or.inl hf)
            · left
              have : newPatternRule false rules q = rules ++ [q] := by
                unfold newPatternRule
                have : rules.findIdx? (sameRule q) = none := by
                  rw [List.findIdx?_eq_none_iff]
                  intro q' hq'
                  cases hs : sameRule q q' with
                  | false => rfl
                  | true => exact absurd ⟨q', hq', hs⟩ hf
                rw [this]
              rw [this]
              obtain ⟨ad, h1, _⟩ := foldl_keep_prefix l (rules ++ [q])
              rw [h1]; simp
          · exact Or.inr (Or.inr ⟨q, List.mem_cons_self, he, hs⟩)
      · exact Or.inr (Or.inr ⟨q, List.mem_cons_of_mem _ hq, hne, hs⟩)

theorem fromSuffix_iff (posix : Bool) (file : Str → Option SuffixTarget) (suffixes : List Str) (r : PatRule) :
    r ∈ suffixes.flatMap (suffixRules posix file suffixes) ↔ FromSuffix posix file suffixes r := by
  constructor
  · intro h
    obtain ⟨s, hs, hr⟩ := List.mem_flatMap.1 h
    unfold suffixRules at hr
    rcases List.mem_cons.1 hr with rfl | hr
    · exact .known s hs
    · rcases List.mem_append.1 hr with hr | hr
      · split at hr
        · rename_i c hc
          simp only [List.mem_singleton] at hr
          subst hr
          rw [Option.bind_eq_some_iff] at hc
          obtain ⟨f, hf, hc⟩ := hc
          exact .one s f c hs hf hc
        · simp at hr
      · obtain ⟨s2, hs2, hr⟩ := List.mem_flatMap.1 hr
        unfold pairRules at hr
        split at hr
        · simp at hr
        · rename_i hne
          split at hr
          · simp at hr
          · rename_i f hf
            split at hr
            · simp at hr
            · rename_i c hc
              split at hr
              · simp at hr
              · rename_i hp
                simp only [Bool.and_eq_true] at hp
                rcases List.mem_append.1 hr with hr | hr
                · split at hr
                  · rename_i ha
                    simp only [List.mem_singleton] at hr
                    subst hr; subst ha
                    exact .archive s f c hs hs2 hne hf hc hp
                  · simp at hr
                · simp only [List.mem_singleton] at hr
                  subst hr
                  exact .two s s2 f c hs hs2 hne hf hc hp
  · intro h
    cases h with
    | known s hs =>
      refine List.mem_flatMap.2 ⟨s, hs, ?_⟩
      exact List.mem_cons_self
    | one s f c hs hf hc =>
      refine List.mem_flatMap.2 ⟨s, hs, ?_⟩
      unfold suffixRules
      refine List.mem_cons_of_mem _ (List.mem_append_left _ ?_)
      rw [hf]
      simp only [Option.bind_some, hc, List.mem_singleton]
      rfl
    | two s s2 f c hs hs2 hne hf hc hp =>
      refine List.mem_flatMap.2 ⟨s, hs, ?_⟩
      unfold suffixRules
      refine List.mem_cons_of_mem _ (List.mem_append_right _ (List.mem_flatMap.2 ⟨s2, hs2, ?_⟩))
      unfold pairRules
      rw [if_neg hne]
      simp only [hf, hc]
      rw [if_neg (by simpa using hp)]
      exact List.mem_append_right _ (List.mem_singleton.2 rfl)
    | archive s f c hs hs2 hne hf hc hp =>
      refine List.mem_flatMap.2 ⟨s, hs, ?_⟩
      unfold suffixRules
      refine List.mem_cons_of_mem _ (List.mem_append_right _ (List.mem_flatMap.2 ⟨['.', 'a'], hs2, ?_⟩))
      unfold pairRules
      rw [if_neg hne]
      simp only [hf, hc]
      rw [if_neg (by simpa using hp)]
      exact List.mem_append_left _ (List.mem_singleton.2 rfl)

/-- The suffixes never call for two different rules with the same patterns. -/
theorem fromSuffix_unique {posix : Bool} {file : Str → Option SuffixTarget} {suffixes : List Str} {r q : PatRule}
    (hr : FromSuffix posix file suffixes r) (hq : FromSuffix posix file suffixes q) (h : sameRule r q = true) :
    q = r := by
  have sr : single r := by cases hr <;> rfl
  have sq : single q := by cases hq <;> rfl
  rw [sameRule_single sr sq] at h
  simp only [decide_eq_true_eq, headOf, Prod.mk.injEq] at h
  have h5 : ∀ s : Str, ¬ ('%' :: s = '(' :: '%' :: ['.', 'o', ')']) := by intro s; simp
  cases hr with
  | known s hs =>
    cases hq with
    | known s' hs' => simp [PatTarget.text] at h; simp [h]
    | one s' f c _ _ _ => simp at h
    | two s' s2 f c _ _ _ _ _ _ => simp at h
    | archive s' f c _ _ _ _ _ _ => simp at h
  | one s f c hs hf hc =>
    cases hq with
    | known s' hs' => simp at h
    | one s' f' c' _ hf' hc' =>
      simp [PatTarget.text] at h
      subst h
      rw [hf] at hf'
      simp only [Option.some.injEq] at hf'
      subst hf'
      rw [hc] at hc'
      simp only [Option.some.injEq] at hc'
      subst hc'
      rfl
    | two s' s2 f' c' _ _ _ hf' hc' _ =>
      simp [PatTarget.text] at h
      obtain ⟨rfl, rfl⟩ := h
      rw [List.append_nil, hf] at hf'
      simp only [Option.some.injEq] at hf'
      subst hf'
      rw [hc] at hc'
      simp only [Option.some.injEq] at hc'
      subst hc'
      rfl
    | archive s' f c _ _ _ _ _ _ => simp [PatTarget.text] at h
  | two s s2 f c hs hs2 hne hf hc hp =>
    cases hq with
    | known s' hs' => simp at h
    | one s' f' c' _ hf' hc' =>
      simp [PatTarget.text] at h
      obtain ⟨rfl, rfl⟩ := h
      rw [List.append_nil, hf'] at hf
      simp only [Option.some.injEq] at hf
      subst hf
      rw [hc] at hc'
      simp only [Option.some.injEq] at hc'
      subst hc'
      rfl
    | two s' s2' f' c' _ _ _ hf' hc' _ =>
      simp [PatTarget.text] at h
      obtain ⟨rfl, rfl⟩ := h
      rw [hf] at hf'
      simp only [Option.some.injEq] at hf'
      subst hf'
      rw [hc] at hc'
      simp only [Option.some.injEq] at hc'
      subst hc'
      rfl
    | archive s' f c _ _ _ _ _ _ => simp [PatTarget.text] at h
  | archive s f c hs hs2 hne hf hc hp =>
    cases hq with
    | known s' hs' => simp at h
    | one s' f' c' _ hf' hc' => simp [PatTarget.text] at h
    | two s' s2' f' c' _ _ _ hf' hc' _ => simp [PatTarget.text] at h
    | archive s' f' c' _ _ _ hf' hc' _ =>
      simp [PatTarget.text] at h
      subst h
      rw [hf] at hf'
      simp only [Option.some.injEq] at hf'
      subst hf'
      rw [hc] at hc'
      simp only [Option.some.injEq] at hc'
      subst hc'
      rfl

end Remake
