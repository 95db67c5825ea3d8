import Verif.Glob.MatchLemmas
/-! Lemmas for C123: the loop of `fnmatch`. -/
set_option linter.unusedVariables false
set_option linter.unusedSimpArgs false
namespace Remake
open Spec

theorem matches_star_iff (sl per bar : Bool) (ps : List GItem) (s : Str) :
    Matches sl per bar (.star :: ps) s ↔ ¬ (bar = true ∧ s.head? = some '.') ∧
      ∃ u v, s = u ++ v ∧ ¬ (sl = true ∧ '/' ∈ u) ∧ Matches sl per (bar && u.isEmpty) ps v := by
  constructor
  · intro h
    cases h with
    | star _ u _ v h1 h2 h => exact ⟨h2, u, _, rfl, h1, h⟩
  · rintro ⟨h1, u, v, rfl, h2, h⟩
    exact .star bar u ps v h2 h1 h

theorem matches_star_star (sl per bar : Bool) (ps : List GItem) (s : Str) :
    Matches sl per bar (.star :: .star :: ps) s ↔ Matches sl per bar (.star :: ps) s := by
  rw [matches_star_iff, matches_star_iff]
  constructor
  · rintro ⟨h1, u, v, rfl, h2, h⟩
    rw [matches_star_iff] at h
    obtain ⟨h3, u2, v2, rfl, h4, h⟩ := h
    refine ⟨h1, u ++ u2, v2, by simp, ?_, ?_⟩
    · rintro ⟨a, b⟩
      rcases List.mem_append.mp b with b | b
      · exact h2 ⟨a, b⟩
      · exact h4 ⟨a, b⟩
    · have : (bar && (u ++ u2).isEmpty) = (bar && u.isEmpty && u2.isEmpty) := by cases bar <;> cases u <;> rfl
      rw [this]; exact h
  · rintro ⟨h1, h⟩
    refine ⟨h1, [], s, rfl, by simp, ?_⟩
    rw [matches_star_iff]
    simp only [List.isEmpty_nil, Bool.and_true]
    exact ⟨h1, h⟩

theorem matches_star_any (sl per bar : Bool) (ps : List GItem) (x : Char) (s : Str) (hr : sl = false ∨ '/' ∉ x :: s)
    (hb : ¬ (bar = true ∧ x = '.')) :
    Matches sl per bar (.star :: .any :: ps) (x :: s) ↔ Matches sl per false (.star :: ps) s := by
  have hns : ∀ y ∈ x :: s, (sl && per && y == '/') = false := by
    intro y hy
    rcases hr with h | h
    · simp [h]
    · have : y ≠ '/' := fun e => h (e ▸ hy)
      simp [this]
  have hslu : ∀ u : Str, (∀ y ∈ u, y ∈ x :: s) → ¬ (sl = true ∧ '/' ∈ u) := by
    rintro u hu ⟨a, b⟩
    rcases hr with h | h
    · rw [h] at a; cases a
    · exact h (hu _ b)
  rw [matches_star_iff, matches_star_iff]
  constructor
  · rintro ⟨h1, u, v, e, h2, h⟩
    refine ⟨by simp, ?_⟩
    cases h with
    | any _ y _ v g1 g2 g =>
      rw [hns y (by rw [e]; simp)] at g
      cases u with
      | nil =>
        simp at e
        exact ⟨[], v, by simp [e.2], by simp, g⟩
      | cons x' u =>
        simp at e
        refine ⟨u ++ [y], v, by simp [e.2], hslu _ ?_, g⟩
        intro z hz
        rw [e.2]
        simp at hz ⊢
        grind
  · rintro ⟨-, u, v, rfl, h2, h⟩
    obtain ⟨w, y, hw⟩ : ∃ w y, x :: u = w ++ [y] := by
      rcases List.eq_nil_or_concat (x :: u) with h | ⟨w, y, h⟩
      · cases h
      · exact ⟨w, y, by simpa using h⟩
    have hm : ∀ z ∈ w ++ [y], z ∈ x :: (u ++ v) := by
      intro z hz
      rw [← hw] at hz
      simp at hz ⊢
      grind
    refine ⟨by simpa using hb, w, y :: v, ?_, hslu _ fun z hz => hm z (by simp [hz]), ?_⟩
    · rw [← List.cons_append, hw]
      simp
    · refine .any _ _ _ _ ?_ ?_ ?_
      · rintro ⟨a, b⟩
        exact hslu [y] (by intro z hz; exact hm z (by simp at hz; simp [hz])) ⟨a, by simp [b]⟩
      · rintro ⟨a, b⟩
        cases w with
        | nil => simp at hw a; exact hb ⟨a, by rw [hw.1, b]⟩
        | cons z w => simp at a
      · rw [hns y (hm y (by simp))]
        exact h

/-- A loop over the rest of the name. -/
theorem tryFrom_iff (stop : Char → Bool) (f : Bool → Str → Option Bool) : ∀ (n : Str) (lead : Bool), (∀ x ∈ n, stop x = false) →
    (∀ l u v, n = u ++ v → v ≠ [] → ∃ b, f l v = some b) →
    ∃ b, tryFrom stop f lead n = some b ∧ (b = true ↔ ∃ u v, n = u ++ v ∧ v ≠ [] ∧ f (lead && u.isEmpty) v = some true)
  | [], lead, hs, ht => by
    refine ⟨false, rfl, ?_⟩
    simp
  | x :: n, lead, hs, ht => by
    rw [tryFrom, hs x (by simp)]
    obtain ⟨b, hb⟩ := ht lead [] (x :: n) rfl (by simp)
    simp only [hb]
    cases b with
    | true => exact ⟨true, rfl, fun _ => ⟨[], x :: n, rfl, by simp, by simpa using hb⟩, fun _ => rfl⟩
    | false =>
      obtain ⟨b', h1, h2⟩ := tryFrom_iff stop f n false (fun y hy => hs y (by simp [hy]))
        fun l u v e hv => ht l (x :: u) v (by rw [e]; rfl) hv
      refine ⟨b', h1, h2.trans ?_⟩
      constructor
      · rintro ⟨u, v, e, hv, hf⟩
        exact ⟨x :: u, v, by rw [e]; rfl, hv, by simpa using hf⟩
      · rintro ⟨u, v, e, hv, hf⟩
        cases u with
        | nil =>
          simp at e hf
          rw [← e, hb] at hf
          cases hf
        | cons y u =>
          simp at e
          exact ⟨u, v, e.2, hv, by simpa using hf⟩

/-- The part is neither `?` nor `*`. -/
def Spec.GItem.fixed : GItem → Prop
  | .lit _ _ => True
  | .set _ _ => True
  | _ => False

theorem patText_cons (p : GItem) (ps : List GItem) : patText (p :: ps) = p.text ++ patText ps := by simp [patText]

/-- The wildcards after a `*`. -/
theorem starLoop_spec (fl : FnFlags) (per nlp : Bool) : ∀ (ps : List GItem) (lead : Bool) (n : Str), (∀ p ∈ ps, p.plain fl.noescape) →
    (fl.pathname = false ∨ '/' ∉ n) → ¬ ((nlp && lead) = true ∧ n.head? = some '.') →
    (starLoop fl lead (patText ps) n = none ∧ ¬ Matches fl.pathname per (nlp && lead) (.star :: ps) n) ∨
    ∃ lead' ps' n', starLoop fl lead (patText ps) n = some (lead', patText ps', n') ∧
      (∀ p ∈ ps', p ∈ ps) ∧ ps'.length ≤ ps.length ∧ (∀ p qs, ps' = p :: qs → p.fixed) ∧ (∀ x ∈ n', x ∈ n) ∧
      ¬ ((nlp && lead') = true ∧ n'.head? = some '.') ∧
      (Matches fl.pathname per (nlp && lead) (.star :: ps) n ↔ Matches fl.pathname per (nlp && lead') (.star :: ps') n')
  | [], lead, n, hp, hr, hd => by
    right
    exact ⟨lead, [], n, by simp [patText, starLoop], by simp, by simp, by simp, fun _ h => h, hd, Iff.rfl⟩
  | .lit esc c :: ps, lead, n, hp, hr, hd => by
    right
    refine ⟨lead, .lit esc c :: ps, n, ?_, fun _ h => h, Nat.le_refl _, ?_, fun _ h => h, hd, Iff.rfl⟩
    · have h := hp (.lit esc c) (by simp)
      rw [patText_cons]
      cases esc with
      | true => simp [GItem.text, starLoop]
      | false =>
        simp [GItem.plain] at h
        simp [GItem.text, starLoop, h]
    · intro p qs e
      cases e
      trivial
  | .set neg items :: ps, lead, n, hp, hr, hd => by
    right
    refine ⟨lead, .set neg items :: ps, n, ?_, fun _ h => h, Nat.le_refl _, ?_, fun _ h => h, hd, Iff.rfl⟩
    · rw [patText_cons]
      simp [GItem.text, starLoop]
    · intro p qs e
      cases e
      trivial
  | .star :: ps, lead, n, hp, hr, hd => by
    have hstep : starLoop fl lead (patText (.star :: ps)) n = starLoop fl lead (patText ps) n := by
      rw [patText_cons]
      simp only [GItem.text, List.cons_append, List.nil_append, starLoop]
      rw [if_pos (by simp), if_neg, if_neg (by decide)]
      rintro ⟨a, b⟩
      rcases hr with h | h
      · rw [h] at b; cases b
      · cases n with
        | nil => simp at a
        | cons x n => simp at a h; exact h.1 a.symm
    rw [hstep]
    rw [matches_star_star]
    rcases starLoop_spec fl per nlp ps lead n (fun p h => hp p (by simp [h])) hr hd with h | ⟨l, ps', n', h1, h2, h3, h4⟩
    · exact Or.inl h
    · exact Or.inr ⟨l, ps', n', h1, fun p h => by simp [h2 p h], by simp; omega, h4⟩
  | .any :: ps, lead, [], hp, hr, hd => by
    left
    refine ⟨by simp [patText_cons, GItem.text, starLoop], ?_⟩
    rw [matches_star_iff]
    rintro ⟨-, u, v, e, -, h⟩
    cases h
    simp at e
  | .any :: ps, lead, x :: n, hp, hr, hd => by
    have hstep : starLoop fl lead (patText (.any :: ps)) (x :: n) = starLoop fl false (patText ps) n := by
      rw [patText_cons]
      simp only [GItem.text, List.cons_append, List.nil_append, starLoop]
      rw [if_pos (by simp), if_neg]
      · simp
      · rintro ⟨a, b⟩
        rcases hr with h | h
        · rw [h] at b; cases b
        · simp at a h; exact h.1 a.symm
    rw [hstep, matches_star_any _ _ _ _ _ _ hr (by simpa using hd)]
    have hnf : (nlp && false) = false := by simp
    rcases starLoop_spec fl per nlp ps false n (fun p h => hp p (by simp [h]))
      (hr.imp_right fun h hm => h (by simp [hm])) (by simp) with h | ⟨l, ps', n', h1, h2, h3, h4, h5, h6, h7⟩
    · rw [hnf] at h
      exact Or.inl h
    · rw [hnf] at h7
      exact Or.inr ⟨l, ps', n', h1, fun p h => by simp [h2 p h], by simp; omega, h4, fun y hy => by simp [h5 y hy], h6, h7⟩

theorem fnmatchFrom_star (fl : FnFlags) (per nlp lead : Bool) (p n : Str) : fnmatchFrom fl per nlp lead ('*' :: p) n =
    if nlp && lead && n.head? == some '.' then some false
    else
      match starLoop fl lead p n with
      | none => some false
      | some (_, [], n) => some !(n.any fun x => fl.pathname && x == '/')
      | some (lead, c :: p, n) =>
        if c = '[' then
          tryFrom (fun x => fl.pathname && x == '/') (fun lead n => fnmatchFrom fl per (nlp && lead) true (c :: p) n) lead n
        else if fl.pathname && c == '/' then
          match n.dropWhile (· ≠ '/') with
          | [] => some false
          | _ :: n => fnmatchFrom fl per per true p n
        else
          tryFrom (fun x => fl.pathname && x == '/') (fun lead n =>
            if n.head? = (if c = '\\' ∧ fl.noescape = false then p.head? else some c) then
              fnmatchFrom fl per (nlp && lead) true (c :: p) n else some false) lead n := by
  rw [fnmatchFrom.eq_def]
  simp only [show ¬ ('*' = '?') by decide, show ¬ ('*' = '\\') by decide, if_false, false_and, if_true]
  split
  · rfl
  · split <;> rename_i hs <;> simp only [hs] <;> rfl

theorem fnmatchFrom_bracket (fl : FnFlags) (per nlp lead : Bool) (p : Str) (x : Char) (n : Str) :
    fnmatchFrom fl per nlp lead ('[' :: p) (x :: n) =
    if (fl.pathname && x == '/') || (nlp && lead && some x == some '.') then some false
    else
      match bracket fl x p with
      | .noMatch => some false
      | .undef => none
      | .at p => fnmatchFrom fl per nlp (fl.pathname && x == '/') p n := by
  rw [fnmatchFrom.eq_def]
  simp only [show ¬ ('[' = '?') by decide, show ¬ ('[' = '\\') by decide, show ¬ ('[' = '*') by decide, if_false, false_and, if_true,
    List.head?_cons]
  by_cases h : ((fl.pathname && x == '/') || (nlp && lead && some x == some '.')) = true
  · exact (if_pos h).trans (if_pos h).symm
  · refine (if_neg h).trans (Eq.trans ?_ (if_neg h).symm)
    split <;> rename_i hs <;> simp only [hs]

/-- `fnmatch` decides whether the name matches. -/
theorem fnmatchFrom_spec (fl : FnFlags) (per : Bool) : ∀ (k : Nat) (ps : List GItem), ps.length ≤ k → (∀ p ∈ ps, p.plain fl.noescape) →
    ∀ (nlp lead : Bool) (n : Str), (fl.pathname = false ∨ '/' ∉ n) →
    ∃ b, fnmatchFrom fl per nlp lead (patText ps) n = some b ∧ (b = true ↔ Matches fl.pathname per (nlp && lead) ps n) := by
  intro k
  induction k with
  | zero =>
    intro ps hk hp nlp lead n hr
    cases ps with
    | cons => simp at hk
    | nil =>
      refine ⟨n.isEmpty, by rw [show patText [] = [] from rfl, fnmatchFrom.eq_def], ?_⟩
      cases n with
      | nil => exact ⟨fun _ => .nil _, fun _ => rfl⟩
      | cons x n => exact ⟨fun h => by simp at h, fun h => by cases h⟩
  | succ k ih =>
    intro ps hk hp nlp lead n hr
    cases ps with
    | nil =>
      refine ⟨n.isEmpty, by rw [show patText [] = [] from rfl, fnmatchFrom.eq_def], ?_⟩
      cases n with
      | nil => exact ⟨fun _ => .nil _, fun _ => rfl⟩
      | cons x n => exact ⟨fun h => by simp at h, fun h => by cases h⟩
    | cons q ps =>
      have hk' : ps.length ≤ k := by simp at hk; omega
      have hps : ∀ p ∈ ps, p.plain fl.noescape := fun p h => hp p (by simp [h])
      have hq := hp q (by simp)
      have hsl : ∀ x ∈ n, (fl.pathname && x == '/') = false := by
        intro x hx
        rcases hr with h | h
        · simp [h]
        · have : x ≠ '/' := fun e => h (e ▸ hx)
          simp [this]
      have hsl3 : ∀ x ∈ n, (fl.pathname && per && x == '/') = false := by
        intro x hx
        have := hsl x hx
        revert this
        cases fl.pathname <;> cases per <;> simp
      have hno : ∀ x ∈ n, ¬ (fl.pathname = true ∧ x = '/') := by
        rintro x hx ⟨a, b⟩
        have := hsl x hx
        rw [a, b] at this
        simp at this
      have hr' : ∀ x n', n = x :: n' → fl.pathname = false ∨ '/' ∉ n' := fun x n' e =>
        hr.imp_right fun h hm => h (by rw [e]; simp [hm])
      cases q with
      | lit esc c =>
        -- one character
        have hone : fnmatchFrom fl per nlp lead (patText (.lit esc c :: ps)) n =
            match (generalizing := false) n with
            | [] => some false
            | x :: n => if x = c then fnmatchFrom fl per nlp (fl.pathname && x == '/') (patText ps) n else some false := by
          rw [patText_cons, fnmatchFrom.eq_def]
          cases esc with
          | true =>
            have hne : fl.noescape = false := hq
            simp only [GItem.text, List.cons_append, List.nil_append, show ¬ ('\\' = '?') by decide, if_false, hne, and_self, if_true]
            cases n <;> rfl
          | false =>
            simp [GItem.plain] at hq
            obtain ⟨⟨a1, a2, a3⟩, a4⟩ := hq
            simp only [GItem.text, List.cons_append, List.nil_append]
            rw [if_neg a2, if_neg (by rintro ⟨b1, b2⟩; rw [a4 b1] at b2; cases b2), if_neg a1, if_neg a3]
            cases n <;> rfl
        rw [hone]
        cases n with
        | nil => exact ⟨false, rfl, fun h => (by cases h), fun h => by cases h⟩
        | cons x n =>
          simp only
          by_cases hx : x = c
          · rw [if_pos hx, hsl x (by simp)]
            obtain ⟨b, h1, h2⟩ := ih ps hk' hps nlp false n (hr' x n rfl)
            refine ⟨b, h1, h2.trans ?_⟩
            subst hx
            constructor
            · intro h
              refine .lit _ _ _ _ _ ?_
              rw [hsl3 x (by simp)]
              simpa using h
            · intro h
              cases h with
              | lit _ _ _ _ _ h =>
                rw [hsl3 x (by simp)] at h
                simpa using h
          · rw [if_neg hx]
            refine ⟨false, rfl, fun h => (by cases h), fun h => ?_⟩
            cases h
            exact absurd rfl hx
      | any =>
        rw [patText_cons, fnmatchFrom.eq_def]
        simp only [GItem.text, List.cons_append, List.nil_append, if_true]
        cases n with
        | nil => exact ⟨false, rfl, fun h => (by cases h), fun h => by cases h⟩
        | cons x n =>
          simp only [hsl x (by simp), Bool.false_or, List.head?_cons]
          by_cases hx : (nlp && lead && some x == some '.') = true
          · rw [if_pos hx]
            refine ⟨false, rfl, fun h => (by cases h), fun h => ?_⟩
            cases h with
            | any _ _ _ _ g1 g2 g => exfalso; apply g2; simpa using hx
          · rw [if_neg hx]
            obtain ⟨b, h1, h2⟩ := ih ps hk' hps nlp false n (hr' x n rfl)
            refine ⟨b, h1, h2.trans ?_⟩
            constructor
            · intro h
              refine .any _ _ _ _ (hno x (by simp)) (by simpa using hx) ?_
              rw [hsl3 x (by simp)]
              simpa using h
            · intro h
              cases h with
              | any _ _ _ _ g1 g2 g =>
                rw [hsl3 x (by simp)] at g
                simpa using g
      | set neg items =>
        have htext : patText (.set neg items :: ps) =
            '[' :: ((if neg then ['!'] else []) ++ items.flatMap SetItem.text ++ ']' :: patText ps) := by
          rw [patText_cons]
          simp [GItem.text]
        have hone : fnmatchFrom fl per nlp lead (patText (.set neg items :: ps)) n =
            match (generalizing := false) n with
            | [] => some false
            | x :: n =>
              if (fl.pathname && x == '/') || (nlp && lead && some x == some '.') then some false
              else if inSet neg items x then fnmatchFrom fl per nlp (fl.pathname && x == '/') (patText ps) n else some false := by
          rw [htext]
          cases n with
          | nil =>
            rw [fnmatchFrom.eq_def]
            simp
          | cons x n =>
            rw [fnmatchFrom_bracket, bracket_set fl x neg items (patText ps) hq]
            by_cases hi : inSet neg items x
            · simp only [hi, if_true]
            · simp only [hi, if_false]
        rw [hone]
        cases n with
        | nil => exact ⟨false, rfl, fun h => (by cases h), fun h => by cases h⟩
        | cons x n =>
          simp only [hsl x (by simp), Bool.false_or]
          by_cases hx : (nlp && lead && some x == some '.') = true
          · rw [if_pos hx]
            refine ⟨false, rfl, fun h => (by cases h), fun h => ?_⟩
            cases h with
            | set _ _ _ _ _ _ g1 g2 g3 g => exfalso; apply g2; simpa using hx
          · rw [if_neg hx]
            by_cases hi : inSet neg items x
            · rw [if_pos hi]
              obtain ⟨b, h1, h2⟩ := ih ps hk' hps nlp false n (hr' x n rfl)
              refine ⟨b, h1, h2.trans ?_⟩
              constructor
              · intro h
                refine .set _ _ _ _ _ _ (hno x (by simp)) (by simpa using hx) hi ?_
                rw [hsl3 x (by simp)]
                simpa using h
              · intro h
                cases h with
                | set _ _ _ _ _ _ g1 g2 g3 g =>
                  rw [hsl3 x (by simp)] at g
                  simpa using g
            · rw [if_neg hi]
              refine ⟨false, rfl, fun h => (by cases h), fun h => ?_⟩
              cases h with
              | set _ _ _ _ _ _ g1 g2 g3 g => exact absurd g3 hi
      | star =>
        have htext : patText (.star :: ps) = '*' :: patText ps := by rw [patText_cons]; rfl
        rw [htext, fnmatchFrom_star]
        by_cases hd : (nlp && lead && n.head? == some '.') = true
        · rw [if_pos hd]
          refine ⟨false, rfl, fun h => (by cases h), fun h => ?_⟩
          rw [matches_star_iff] at h
          exfalso
          apply h.1
          simpa using hd
        · rw [if_neg hd]
          have hd' : ¬ ((nlp && lead) = true ∧ n.head? = some '.') := by simpa using hd
          rcases starLoop_spec fl per nlp ps lead n hps hr hd' with ⟨h1, h2⟩ | ⟨l, ps', n', h1, h2, h3, h4, h5, h6, h7⟩
          · rw [h1]
            exact ⟨false, rfl, fun h => (by cases h), fun h => absurd h h2⟩
          · have hslp : ∀ x ∈ n', (fl.pathname && x == '/') = false := fun x hx => hsl x (h5 x hx)
            have hslu : ∀ u : Str, (∀ x ∈ u, x ∈ n') → ¬ (fl.pathname = true ∧ '/' ∈ u) := by
              rintro u hu ⟨a, b⟩
              exact hno '/' (h5 _ (hu _ b)) ⟨a, rfl⟩
            rw [h1]
            cases ps' with
            | nil =>
              refine ⟨true, ?_, fun _ => ?_, fun _ => rfl⟩
              · have : (n'.any fun x => fl.pathname && x == '/') = false := by
                  rw [List.any_eq_false]
                  intro x hx
                  simp [hslp x hx]
                simp only [patText, List.flatMap_nil]
                rw [this]
                rfl
              · rw [h7, matches_star_iff]
                exact ⟨h6, n', [], by simp, hslu n' fun _ h => h, .nil _⟩
            | cons q' qs =>
              have hfix := h4 q' qs rfl
              have hall : ∀ p ∈ q' :: qs, p.plain fl.noescape := fun p hh => hps p (h2 p hh)
              have hlen : (q' :: qs).length ≤ k := by omega
              have hIH := fun (nl : Bool) (v : Str) (hv : ∀ x ∈ v, x ∈ n') =>
                ih (q' :: qs) hlen hall nl true v (hr.imp_right fun hh hm => hh (h5 _ (hv _ hm)))
              -- the places where the rest of the pattern matches
              have hplaces : Matches fl.pathname per (nlp && lead) (.star :: ps) n ↔
                  ∃ u v, n' = u ++ v ∧ v ≠ [] ∧ Matches fl.pathname per (nlp && (l && u.isEmpty)) (q' :: qs) v := by
                rw [h7, matches_star_iff]
                constructor
                · rintro ⟨-, u, v, e, -, hm⟩
                  refine ⟨u, v, e, ?_, ?_⟩
                  · rintro rfl
                    cases q' <;> first | cases hm | cases hfix
                  · rw [← Bool.and_assoc]; exact hm
                · rintro ⟨u, v, e, -, hm⟩
                  refine ⟨h6, u, v, e, hslu u fun x hx => by rw [e]; simp [hx], ?_⟩
                  rw [Bool.and_assoc]; exact hm
              cases q' with
              | any => cases hfix
              | star => cases hfix
              | set neg items =>
                have htx : patText (.set neg items :: qs) =
                    '[' :: ((if neg then ['!'] else []) ++ items.flatMap SetItem.text ++ ']' :: patText qs) := by
                  rw [patText_cons]; simp [GItem.text]
                simp only [htx, if_true]
                rw [← htx]
                obtain ⟨b, t1, t2⟩ := tryFrom_iff (fun x => fl.pathname && x == '/')
                  (fun lead n => fnmatchFrom fl per (nlp && lead) true (patText (.set neg items :: qs)) n) n' l hslp
                  fun l' u v e hv => by
                    obtain ⟨b, hb, -⟩ := hIH (nlp && l') v fun x hx => by rw [e]; simp [hx]
                    exact ⟨b, hb⟩
                refine ⟨b, t1, t2.trans ?_⟩
                rw [hplaces]
                constructor
                · rintro ⟨u, v, e, hv, hf⟩
                  obtain ⟨b', hb, hb2⟩ := hIH (nlp && (l && u.isEmpty)) v fun x hx => by rw [e]; simp [hx]
                  rw [hb] at hf
                  cases hf
                  exact ⟨u, v, e, hv, by simpa using hb2.1 rfl⟩
                · rintro ⟨u, v, e, hv, hm⟩
                  obtain ⟨b', hb, hb2⟩ := hIH (nlp && (l && u.isEmpty)) v fun x hx => by rw [e]; simp [hx]
                  have := hb2.2 (by simpa using hm)
                  subst this
                  exact ⟨u, v, e, hv, hb⟩
              | lit esc c =>
                obtain ⟨c0, t0, htx, hc0, hd0⟩ : ∃ c0 t0, patText (.lit esc c :: qs) = c0 :: t0 ∧ c0 ≠ '[' ∧
                    (if c0 = '\\' ∧ fl.noescape = false then t0.head? else some c0) = some c := by
                  have hpl := hall (.lit esc c) (by simp)
                  rw [patText_cons]
                  cases esc with
                  | true =>
                    have hne : fl.noescape = false := hpl
                    exact ⟨'\\', c :: patText qs, rfl, by decide, by simp [hne]⟩
                  | false =>
                    simp [GItem.plain] at hpl
                    refine ⟨c, patText qs, rfl, hpl.1.2.2, ?_⟩
                    rw [if_neg]
                    rintro ⟨b1, b2⟩
                    rw [hpl.2 b1] at b2
                    cases b2
                have hhead : ∀ b v, Matches fl.pathname per b (.lit esc c :: qs) v → v.head? = some c := by
                  intro b v hm
                  cases hm
                  rfl
                simp only [htx, if_neg hc0]
                by_cases hs0 : (fl.pathname && c0 == '/') = true
                · rw [if_pos hs0]
                  simp at hs0
                  have hnone : '/' ∉ n' := fun hm => hno '/' (h5 _ hm) ⟨hs0.1, rfl⟩
                  have hdw : n'.dropWhile (· ≠ '/') = [] := by
                    have : ∀ m : Str, '/' ∉ m → m.dropWhile (· ≠ '/') = [] := by
                      intro m
                      induction m with
                      | nil => intro _; rfl
                      | cons y m ihm =>
                        intro hm
                        simp at hm
                        rw [List.dropWhile_cons_of_pos (by simpa using fun e : y = '/' => hm.1 e.symm)]
                        exact ihm hm.2
                    exact this n' hnone
                  rw [hdw]
                  refine ⟨false, rfl, fun h => (by cases h), fun h => ?_⟩
                  rw [hplaces] at h
                  obtain ⟨u, v, e, -, hm⟩ := h
                  have hc : c = '/' := by
                    rw [hs0.2] at hd0
                    simpa using hd0.symm
                  have := hhead _ _ hm
                  exfalso
                  apply hnone
                  rw [e]
                  cases v with
                  | nil => simp at this
                  | cons y v => simp at this; simp [this, hc]
                · rw [if_neg hs0, hd0, ← htx]
                  obtain ⟨b, t1, t2⟩ := tryFrom_iff (fun x => fl.pathname && x == '/')
                    (fun lead n => if n.head? = some c then fnmatchFrom fl per (nlp && lead) true (patText (.lit esc c :: qs)) n
                      else some false) n' l hslp
                    fun l' u v e hv => by
                      obtain ⟨b, hb, -⟩ := hIH (nlp && l') v fun x hx => by rw [e]; simp [hx]
                      split
                      · exact ⟨b, hb⟩
                      · exact ⟨false, rfl⟩
                  refine ⟨b, t1, t2.trans ?_⟩
                  rw [hplaces]
                  constructor
                  · rintro ⟨u, v, e, hv, hf⟩
                    obtain ⟨b', hb, hb2⟩ := hIH (nlp && (l && u.isEmpty)) v fun x hx => by rw [e]; simp [hx]
                    split at hf
                    · rw [hb] at hf
                      cases hf
                      exact ⟨u, v, e, hv, by simpa using hb2.1 rfl⟩
                    · cases hf
                  · rintro ⟨u, v, e, hv, hm⟩
                    obtain ⟨b', hb, hb2⟩ := hIH (nlp && (l && u.isEmpty)) v fun x hx => by rw [e]; simp [hx]
                    have := hb2.2 (by simpa using hm)
                    subst this
                    refine ⟨u, v, e, hv, ?_⟩
                    rw [if_pos (hhead _ _ hm)]
                    exact hb

end Remake
