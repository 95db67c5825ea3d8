import Verif.Rules.Lemmas
/-!
# The list of rules to try
-/
set_option linter.unusedVariables false
set_option linter.unusedSimpArgs false
namespace Remake
open Remake.Spec

theorem mem_ruleTries {name : Str} {p : Nat} {rec : Bool} {r : PatRule} {ri : Nat} {x : TryRule} :
    ∀ (ts : List PatTarget) (ti : Nat), x ∈ (ruleTries name p rec r ri ti ts).1 ↔
      ∃ k u n c, ts[k]? = some u ∧ ¬ (rec = true ∧ u.anything = true ∧ r.terminal = false) ∧
        matchTarget name p u = some (n, c) ∧ ¬ (r.deps = [] ∧ r.cmds = none) ∧
        x = { rule := ri, target := ti + k, stemlen := n, checked := c, order := 0 } := by
  intro ts
  induction ts with
  | nil => intro ti; simp [ruleTries]
  | cons t ts ih =>
    intro ti
    rw [ruleTries]
    have hcons : (∃ k u n c, (t :: ts)[k]? = some u ∧ ¬ (rec = true ∧ u.anything = true ∧ r.terminal = false) ∧
        matchTarget name p u = some (n, c) ∧ ¬ (r.deps = [] ∧ r.cmds = none) ∧
        x = { rule := ri, target := ti + k, stemlen := n, checked := c, order := 0 }) ↔
      ((∃ n c, ¬ (rec = true ∧ t.anything = true ∧ r.terminal = false) ∧
        matchTarget name p t = some (n, c) ∧ ¬ (r.deps = [] ∧ r.cmds = none) ∧
        x = { rule := ri, target := ti, stemlen := n, checked := c, order := 0 }) ∨
       (∃ k u n c, ts[k]? = some u ∧ ¬ (rec = true ∧ u.anything = true ∧ r.terminal = false) ∧
        matchTarget name p u = some (n, c) ∧ ¬ (r.deps = [] ∧ r.cmds = none) ∧
        x = { rule := ri, target := ti + 1 + k, stemlen := n, checked := c, order := 0 })) := by
      constructor
      · rintro ⟨k, u, n, c, hk, h⟩
        cases k with
        | zero =>
          simp only [List.getElem?_cons_zero, Option.some.injEq] at hk
          subst hk
          exact Or.inl ⟨n, c, h⟩
        | succ k =>
          refine Or.inr ⟨k, u, n, c, by simpa using hk, ?_⟩
          rw [show ti + 1 + k = ti + (k + 1) by omega]; exact h
      · rintro (⟨n, c, h⟩ | ⟨k, u, n, c, hk, h⟩)
        · exact ⟨0, t, n, c, rfl, h⟩
        · refine ⟨k + 1, u, n, c, by simpa using hk, ?_⟩
          rw [show ti + (k + 1) = ti + 1 + k by omega]; exact h
    rw [hcons, ← ih (ti + 1)]
    simp only
    by_cases h1 : (rec && t.anything && !r.terminal) = true
    · rw [if_pos h1]
      simp only [Bool.and_eq_true, Bool.not_eq_true'] at h1
      constructor
      · exact Or.inr
      · rintro (⟨n, c, hn, _⟩ | h)
        · exact absurd ⟨h1.1.1, h1.1.2, h1.2⟩ hn
        · exact h
    · rw [if_neg h1]
      have h1' : ¬ (rec = true ∧ t.anything = true ∧ r.terminal = false) := by
        rintro ⟨a, b, c⟩; simp [a, b, c] at h1
      cases hm : matchTarget name p t with
      | none =>
        simp only
        constructor
        · exact Or.inr
        · rintro (⟨n, c, _, h, _⟩ | h)
          · exact absurd h (by simp)
          · exact h
      | some nc =>
        obtain ⟨n, c⟩ := nc
        simp only
        by_cases h2 : (r.deps.isEmpty && r.cmds.isNone) = true
        · rw [if_pos h2]
          have h2' : r.deps = [] ∧ r.cmds = none := by simpa using h2
          constructor
          · exact Or.inr
          · rintro (⟨_, _, _, _, h, _⟩ | h)
            · exact absurd h2' h
            · exact h
        · rw [if_neg h2]
          have h2' : ¬ (r.deps = [] ∧ r.cmds = none) := by
            intro h; apply h2; simp [h.1, h.2]
          simp only [List.mem_cons]
          constructor
          · rintro (rfl | h)
            · exact Or.inl ⟨n, c, h1', rfl, h2', rfl⟩
            · exact Or.inr h
          · rintro (⟨n', c', _, h, _, rfl⟩ | h)
            · simp only [Option.some.injEq, Prod.mk.injEq] at h
              obtain ⟨rfl, rfl⟩ := h
              exact Or.inl rfl
            · exact Or.inr h

theorem ruleTries_spec {name : Str} {p : Nat} {rec : Bool} {r : PatRule} {ri : Nat} :
    ∀ (ts : List PatTarget) (ti : Nat), (ruleTries name p rec r ri ti ts).2 = true ↔
      ∃ u ∈ ts, u.anything = false ∧ ∃ n c, matchTarget name p u = some (n, c) := by
  intro ts
  induction ts with
  | nil => intro ti; simp [ruleTries]
  | cons t ts ih =>
    intro ti
    rw [ruleTries]
    simp only [List.mem_cons, exists_eq_or_imp]
    rw [← ih (ti + 1)]
    by_cases h1 : (rec && t.anything && !r.terminal) = true
    · rw [if_pos h1]
      simp only [Bool.and_eq_true, Bool.not_eq_true'] at h1
      simp [h1.1.2]
    · rw [if_neg h1]
      cases hm : matchTarget name p t with
      | none => simp
      | some nc =>
        obtain ⟨n, c⟩ := nc
        simp only
        split <;> simp <;> (cases t.anything <;> simp)

/-- Earlier rule, or the same rule and an earlier target. -/
def TryRule.older (a b : TryRule) : Prop := a.rule < b.rule ∨ a.rule = b.rule ∧ a.target < b.target

theorem ruleTries_pairwise {name : Str} {p : Nat} {rec : Bool} {r : PatRule} {ri : Nat} :
    ∀ (ts : List PatTarget) (ti : Nat), ((ruleTries name p rec r ri ti ts).1).Pairwise TryRule.older := by
  intro ts
  induction ts with
  | nil => intro ti; simp [ruleTries]
  | cons t ts ih =>
    intro ti
    rw [ruleTries]
    simp only
    have := ih (ti + 1)
    split
    · exact this
    · split
      · exact this
      · split
        · exact this
        · refine List.Pairwise.cons ?_ this
          intro x hx
          obtain ⟨k, u, n, c, _, _, _, _, rfl⟩ := (mem_ruleTries _ _).1 hx
          right
          simp only [true_and]
          omega

theorem mem_allTries {name : Str} {p : Nat} {rec : Bool} {inUse : List Nat} {x : TryRule} :
    ∀ (rs : List PatRule) (ri : Nat), x ∈ (allTries name p rec inUse ri rs).1 ↔
      ∃ k r, rs[k]? = some r ∧ ¬ (r.deps ≠ [] ∧ r.cmds = none) ∧ ri + k ∉ inUse ∧
        x ∈ (ruleTries name p rec r (ri + k) 0 r.targets).1 := by
  intro rs
  induction rs with
  | nil => intro ri; simp [allTries]
  | cons r rs ih =>
    intro ri
    have hcons : (∃ k r', (r :: rs)[k]? = some r' ∧ ¬ (r'.deps ≠ [] ∧ r'.cmds = none) ∧ ri + k ∉ inUse ∧
        x ∈ (ruleTries name p rec r' (ri + k) 0 r'.targets).1) ↔
      ((¬ (r.deps ≠ [] ∧ r.cmds = none) ∧ ri ∉ inUse ∧ x ∈ (ruleTries name p rec r ri 0 r.targets).1) ∨
       (∃ k r', rs[k]? = some r' ∧ ¬ (r'.deps ≠ [] ∧ r'.cmds = none) ∧ ri + 1 + k ∉ inUse ∧
        x ∈ (ruleTries name p rec r' (ri + 1 + k) 0 r'.targets).1)) := by
      constructor
      · rintro ⟨k, u, hk, h⟩
        cases k with
        | zero =>
          simp only [List.getElem?_cons_zero, Option.some.injEq] at hk
          subst hk
          exact Or.inl h
        | succ k =>
          refine Or.inr ⟨k, u, by simpa using hk, ?_⟩
          rw [show ri + 1 + k = ri + (k + 1) by omega]; exact h
      · rintro (h | ⟨k, u, hk, h⟩)
        · exact ⟨0, r, rfl, h⟩
        · refine ⟨k + 1, u, by simpa using hk, ?_⟩
          rw [show ri + (k + 1) = ri + 1 + k by omega]; exact h
    rw [hcons, ← ih (ri + 1), allTries]
    simp only
    by_cases h1 : (!r.deps.isEmpty && r.cmds.isNone) = true
    · rw [if_pos h1]
      have h1' : r.deps ≠ [] ∧ r.cmds = none := by simpa using h1
      constructor
      · exact Or.inr
      · rintro (h | h)
        · exact absurd h1' h.1
        · exact h
    · rw [if_neg h1]
      have h1' : ¬ (r.deps ≠ [] ∧ r.cmds = none) := by
        intro h; apply h1; simp [h.1, h.2]
      by_cases h2 : inUse.contains ri = true
      · rw [if_pos h2]
        have h2' : ri ∈ inUse := by simpa using h2
        constructor
        · exact Or.inr
        · rintro (h | h)
          · exact absurd h2' h.2.1
          · exact h
      · rw [if_neg h2]
        have h2' : ri ∉ inUse := by simpa using h2
        simp only [List.mem_append]
        constructor
        · rintro (h | h)
          · exact Or.inl ⟨h1', h2', h⟩
          · exact Or.inr h
        · rintro (h | h)
          · exact Or.inl h.2.2
          · exact Or.inr h

theorem allTries_spec {name : Str} {p : Nat} {rec : Bool} {inUse : List Nat} :
    ∀ (rs : List PatRule) (ri : Nat), (allTries name p rec inUse ri rs).2 = true ↔
      ∃ k r, rs[k]? = some r ∧ ¬ (r.deps ≠ [] ∧ r.cmds = none) ∧ ri + k ∉ inUse ∧
        ∃ u ∈ r.targets, u.anything = false ∧ ∃ n c, matchTarget name p u = some (n, c) := by
  intro rs
  induction rs with
  | nil => intro ri; simp [allTries]
  | cons r rs ih =>
    intro ri
    have hcons : (∃ k r', (r :: rs)[k]? = some r' ∧ ¬ (r'.deps ≠ [] ∧ r'.cmds = none) ∧ ri + k ∉ inUse ∧
        ∃ u ∈ r'.targets, u.anything = false ∧ ∃ n c, matchTarget name p u = some (n, c)) ↔
      ((¬ (r.deps ≠ [] ∧ r.cmds = none) ∧ ri ∉ inUse ∧ ∃ u ∈ r.targets, u.anything = false ∧ ∃ n c, matchTarget name p u = some (n, c)) ∨
       (∃ k r', rs[k]? = some r' ∧ ¬ (r'.deps ≠ [] ∧ r'.cmds = none) ∧ ri + 1 + k ∉ inUse ∧
        ∃ u ∈ r'.targets, u.anything = false ∧ ∃ n c, matchTarget name p u = some (n, c))) := by
      constructor
      · rintro ⟨k, u, hk, h⟩
        cases k with
        | zero =>
          simp only [List.getElem?_cons_zero, Option.some.injEq] at hk
          subst hk
          exact Or.inl h
        | succ k =>
          refine Or.inr ⟨k, u, by simpa using hk, ?_⟩
          rw [show ri + 1 + k = ri + (k + 1) by omega]; exact h
      · rintro (h | ⟨k, u, hk, h⟩)
        · exact ⟨0, r, rfl, h⟩
        · refine ⟨k + 1, u, by simpa using hk, ?_⟩
          rw [show ri + (k + 1) = ri + 1 + k by omega]; exact h
    rw [hcons, ← ih (ri + 1), allTries]
    simp only
    by_cases h1 : (!r.deps.isEmpty && r.cmds.isNone) = true
    · rw [if_pos h1]
      have h1' : r.deps ≠ [] ∧ r.cmds = none := by simpa using h1
      constructor
      · exact Or.inr
      · rintro (h | h)
        · exact absurd h1' h.1
        · exact h
    · rw [if_neg h1]
      have h1' : ¬ (r.deps ≠ [] ∧ r.cmds = none) := by
        intro h; apply h1; simp [h.1, h.2]
      by_cases h2 : inUse.contains ri = true
      · rw [if_pos h2]
        have h2' : ri ∈ inUse := by simpa using h2
        constructor
        · exact Or.inr
        · rintro (h | h)
          · exact absurd h2' h.2.1
          · exact h
      · rw [if_neg h2]
        have h2' : ri ∉ inUse := by simpa using h2
        simp only [Bool.or_eq_true, ruleTries_spec]
        constructor
        · rintro (h | h)
          · exact Or.inl ⟨h1', h2', h⟩
          · exact Or.inr h
        · rintro (h | h)
          · exact Or.inl h.2.2
          · exact Or.inr h

theorem allTries_pairwise {name : Str} {p : Nat} {rec : Bool} {inUse : List Nat} :
    ∀ (rs : List PatRule) (ri : Nat), ((allTries name p rec inUse ri rs).1).Pairwise TryRule.older := by
  intro rs
  induction rs with
  | nil => intro ri; simp [allTries]
  | cons r rs ih =>
    intro ri
    rw [allTries]
    simp only
    have := ih (ri + 1)
    split
    · exact this
    · split
      · exact this
      · simp only
        rw [List.pairwise_append]
        refine ⟨ruleTries_pairwise _ _, this, ?_⟩
        intro a ha b hb
        obtain ⟨_, _, _, _, _, _, _, _, rfl⟩ := (mem_ruleTries _ _).1 ha
        obtain ⟨k, r', _, _, _, hb⟩ := (mem_allTries _ _).1 hb
        obtain ⟨_, _, _, _, _, _, _, _, rfl⟩ := (mem_ruleTries _ _).1 hb
        left
        simp only
        omega

/-! ## Numbering and sorting -/

theorem mem_numberTries {x : TryRule} : ∀ (ts : List TryRule) (n : Nat),
    x ∈ numberTries n ts ↔ ∃ (k : Nat) (t : TryRule), ts[k]? = some t ∧ x = { t with order := n + k } := by
  intro ts
  induction ts with
  | nil => intro n; simp [numberTries]
  | cons t ts ih =>
    intro n
    rw [numberTries, List.mem_cons, ih (n + 1)]
    constructor
    · rintro (rfl | ⟨k, u, hk, rfl⟩)
      · exact ⟨0, t, rfl, rfl⟩
      · exact ⟨k + 1, u, by simpa using hk, by rw [show n + (k + 1) = n + 1 + k by omega]⟩
    · rintro ⟨k, u, hk, rfl⟩
      cases k with
      | zero =>
        simp only [List.getElem?_cons_zero, Option.some.injEq] at hk
        subst hk
        exact Or.inl rfl
      | succ k => exact Or.inr ⟨k, u, by simpa using hk, by rw [show n + (k + 1) = n + 1 + k by omega]⟩

/-- `order` follows the definition order. -/
theorem number_older {ts : List TryRule} {n : Nat} (h : ts.Pairwise TryRule.older) {x y : TryRule}
    (hx : x ∈ numberTries n ts) (hy : y ∈ numberTries n ts) : x.order < y.order ↔ x.older y := by
  obtain ⟨k, t, hk, rfl⟩ := (mem_numberTries ts n).1 hx
  obtain ⟨k', t', hk', rfl⟩ := (mem_numberTries ts n).1 hy
  rw [List.pairwise_iff_getElem] at h
  obtain ⟨hl, rfl⟩ := List.getElem?_eq_some_iff.1 hk
  obtain ⟨hl', rfl⟩ := List.getElem?_eq_some_iff.1 hk'
  simp only [TryRule.older]
  constructor
  · intro hlt
    exact h k k' hl hl' (by omega)
  · intro ho
    rcases Nat.lt_trichotomy k k' with hlt | heq | hgt
    · omega
    · subst heq; omega
    · have := h k' k hl' hl hgt
      simp only [TryRule.older] at this
      omega

theorem mem_insertTry {x t : TryRule} : ∀ ts, x ∈ insertTry t ts ↔ x = t ∨ x ∈ ts := by
  intro ts
  induction ts with
  | nil => simp [insertTry]
  | cons u us ih =>
    rw [insertTry]
    split
    · simp
    · simp only [List.mem_cons, ih]
      constructor
      · rintro (h | h | h)
        · exact Or.inr (Or.inl h)
        · exact Or.inl h
        · exact Or.inr (Or.inr h)
      · rintro (h | h | h)
        · exact Or.inr (Or.inl h)
        · exact Or.inl h
        · exact Or.inr (Or.inr h)

theorem mem_sortTries {x : TryRule} : ∀ ts, x ∈ sortTries ts ↔ x ∈ ts := by
  intro ts
  induction ts with
  | nil => simp [sortTries]
  | cons u us ih => rw [sortTries, mem_insertTry, ih]; simp

theorem TryRule.le_total' (a b : TryRule) : a.le b = false → b.le a = true := by
  unfold TryRule.le
  simp only [Bool.or_eq_false_iff, Bool.and_eq_false_iff, decide_eq_false_iff_not, Bool.or_eq_true,
    Bool.and_eq_true, decide_eq_true_eq]
  omega

theorem TryRule.le_trans' {a b c : TryRule} : a.le b = true → b.le c = true → a.le c = true := by
  unfold TryRule.le
  simp only [Bool.or_eq_true, Bool.and_eq_true, decide_eq_true_eq]
  omega

theorem insertTry_sorted {t : TryRule} : ∀ ts, ts.Pairwise (fun a b => a.le b = true) →
    (insertTry t ts).Pairwise (fun a b => a.le b = true) := by
  intro ts
  induction ts with
  | nil => intro _; simp [insertTry]
  | cons u us ih =>
    intro h
    rw [List.pairwise_cons] at h
    rw [insertTry]
    split
    · rename_i hle
      rw [List.pairwise_cons]
      refine ⟨?_, List.pairwise_cons.2 h⟩
      intro x hx
      rcases List.mem_cons.1 hx with rfl | hx
      · exact hle
      · exact TryRule.le_trans' hle (h.1 x hx)
    · rename_i hle
      rw [List.pairwise_cons]
      refine ⟨?_, ih h.2⟩
      intro x hx
      rcases (mem_insertTry us).1 hx with rfl | hx
      · exact TryRule.le_total' _ _ (by simpa using hle)
      · exact h.1 x hx

theorem sortTries_sorted : ∀ ts, (sortTries ts).Pairwise (fun a b => a.le b = true) := by
  intro ts
  induction ts with
  | nil => simp [sortTries]
  | cons t ts ih => rw [sortTries]; exact insertTry_sorted _ ih

theorem rejectAnything_eq (rules : List PatRule) (b : Bool) (t : TryRule) :
    (rejectAnything rules b t).rule = t.rule ∧ (rejectAnything rules b t).target = t.target ∧
    (rejectAnything rules b t).stemlen = t.stemlen ∧ (rejectAnything rules b t).checked = t.checked ∧
    (rejectAnything rules b t).order = t.order := by
  unfold rejectAnything
  split
  · simp
  · split <;> simp

/-! ## The list that is tried -/

/-- Every entry, dead or not, is for a rule not in use whose pattern fits. -/
theorem tryList_entry {rules : List PatRule} {inUse : List Nat} {rec archive : Bool} {name : Str}
    {x : TryRule} (h : x ∈ tryList rules inUse rec name (pathLen archive name)) :
    ∃ r t dir core, rules[x.rule]? = some r ∧ x.rule ∉ inUse ∧ r.cmds ≠ none ∧
      r.targets[x.target]? = some t ∧ Fits (isMember archive name) t name dir core ∧
      (rec = true → Anything t → r.terminal = true) ∧
      x.stemlen = dir.length + core.length ∧
      stemParts rules name (pathLen archive name) x = (dir, core) ∧
      (x.dead = false ↔ (r.terminal = true ∨ (∀ t ∈ r.targets, ¬ Anything t) ∨
        ¬ SpecificFits rules inUse (isMember archive name) name)) := by
  unfold tryList at h
  generalize hall : allTries name (pathLen archive name) rec inUse 0 rules = al at h
  obtain ⟨ts, spec⟩ := al
  have hts : ts = (allTries name (pathLen archive name) rec inUse 0 rules).1 := by rw [hall]
  have hsp : spec = (allTries name (pathLen archive name) rec inUse 0 rules).2 := by rw [hall]
  simp only [List.mem_map, mem_sortTries] at h
  obtain ⟨y, hy, rfl⟩ := h
  obtain ⟨k, z, hz, rfl⟩ := (mem_numberTries ts 0).1 hy
  have hzm : z ∈ ts := List.mem_of_getElem? hz
  rw [hts, mem_allTries] at hzm
  obtain ⟨i, r, hr, hcmd, hfree, hzm⟩ := hzm
  rw [Nat.zero_add] at hfree hzm
  obtain ⟨j, t, n, c, ht, hany, hmatch, hcmd2, rfl⟩ := (mem_ruleTries _ _).1 hzm
  have hf := matchTarget_sound hmatch
  obtain ⟨e1, e2, e3, e4, e5⟩ := rejectAnything_eq rules spec
    { rule := i, target := 0 + j, stemlen := n, checked := c, order := 0 + k }
  rw [e1, e2, e3]
  simp only [Nat.zero_add] at *
  refine ⟨r, t, _, _, hr, hfree, ?_, ht, hf.1, ?_, hf.2, ?_, ?_⟩
  · intro hn
    cases hd : r.deps with
    | nil => exact hcmd2 ⟨hd, hn⟩
    | cons a b => exact hcmd ⟨by simp [hd], hn⟩
  · intro hr2 ha
    cases hterm : r.terminal with
    | true => rfl
    | false => exact absurd ⟨hr2, (anything_iff t).2 ha, hterm⟩ hany
  · unfold stemParts partsOf
    rw [e1, e2, e3, e4]
    simp [hr, ht]
  · have hspec : spec = true ↔ SpecificFits rules inUse (isMember archive name) name := by
      rw [hsp, allTries_spec]
      constructor
      · rintro ⟨k, r', hk, hc, hu, u, hu2, hau, n', c', hm⟩
        refine ⟨k, r', u, _, _, hk, by simpa using hu, hu2, ?_, ?_, (matchTarget_sound hm).1⟩
        · intro ha; rw [(anything_iff u).2 ha] at hau; exact absurd hau (by simp)
        · cases hd : r'.deps with
          | nil => exact Or.inl rfl
          | cons a b => exact Or.inr (fun hn => hc ⟨by simp [hd], hn⟩)
      · rintro ⟨k, r', u, d, co, hk, hu, hu2, hau, hc, hm⟩
        obtain ⟨c', hm', _⟩ := matchTarget_complete hm
        refine ⟨k, r', hk, ?_, by simpa using hu, u, hu2, ?_, _, _, hm'⟩
        · rintro ⟨h1, h2⟩
          rcases hc with hc | hc
          · exact h1 hc
          · exact hc h2
        · cases hh : u.anything with
          | false => rfl
          | true => exact absurd ((anything_iff u).1 hh) hau
    have hany' : r.targets.any (·.anything) = true ↔ ¬ ∀ t ∈ r.targets, ¬ Anything t := by
      rw [List.any_eq_true]
      constructor
      · rintro ⟨u, hu, ha⟩ hn
        exact hn u hu ((anything_iff u).1 ha)
      · intro hn
        apply Classical.byContradiction
        intro hne
        apply hn
        intro u hu ha
        exact hne ⟨u, hu, (anything_iff u).2 ha⟩
    unfold rejectAnything
    simp only [hr]
    by_cases hcond : (spec && !r.terminal && r.targets.any (·.anything)) = true
    · rw [if_pos hcond]
      simp only [Bool.and_eq_true, Bool.not_eq_true'] at hcond
      simp only [hcond.1.2, Bool.false_eq_true, false_or, Bool.true_eq_false, false_iff]
      rintro (h | h)
      · exact hany'.1 hcond.2 h
      · exact h (hspec.1 hcond.1.1)
    · rw [if_neg hcond]
      simp only [true_iff]
      by_cases h1 : r.terminal = true
      · exact Or.inl h1
      · right
        by_cases h2 : ∀ t ∈ r.targets, ¬ Anything t
        · exact Or.inl h2
        · right
          intro h3
          apply hcond
          rw [hspec.2 h3, hany'.2 h2]
          simp at h1
          simp [h1]

/-- Every candidate is in the list, and alive. -/
theorem tryList_complete {rules : List PatRule} {inUse : List Nat} {rec archive : Bool} {name : Str}
    {i j : Nat} {r : PatRule} {dir core : Str}
    (h : Candidate rules inUse rec (isMember archive name) name i j r dir core) :
    ∃ x ∈ tryList rules inUse rec name (pathLen archive name), x.dead = false ∧ x.rule = i ∧
      x.target = j ∧ x.stemlen = dir.length + core.length ∧
      stemParts rules name (pathLen archive name) x = (dir, core) := by
  obtain ⟨t, ht, hfit, hany⟩ := h.fits
  obtain ⟨c, hm, hparts⟩ := matchTarget_complete hfit
  have hz : ({ rule := i, target := j, stemlen := dir.length + core.length, checked := c, order := 0 } : TryRule) ∈
      (allTries name (pathLen archive name) rec inUse 0 rules).1 := by
    rw [mem_allTries]
    refine ⟨i, r, h.rule, fun hh => h.recipe hh.2, by simpa using h.free, ?_⟩
    rw [mem_ruleTries]
    refine ⟨j, t, _, c, ht, ?_, hm, fun hh => h.recipe hh.2, by simp⟩
    rintro ⟨h1, h2, h3⟩
    have := hany h1 ((anything_iff t).1 h2)
    rw [h3] at this; exact absurd this (by simp)
  obtain ⟨k, hk⟩ := List.getElem?_of_mem hz
  have hy := (mem_numberTries (x := { rule := i, target := j, stemlen := dir.length + core.length, checked := c, order := 0 + k })
    (allTries name (pathLen archive name) rec inUse 0 rules).1 0).2 ⟨k, _, hk, rfl⟩
  have hx : rejectAnything rules (allTries name (pathLen archive name) rec inUse 0 rules).2
      { rule := i, target := j, stemlen := dir.length + core.length, checked := c, order := 0 + k } ∈
      tryList rules inUse rec name (pathLen archive name) := by
    unfold tryList
    exact List.mem_map.2 ⟨_, (mem_sortTries _).2 hy, rfl⟩
  obtain ⟨e1, e2, e3, e4, e5⟩ := rejectAnything_eq rules (allTries name (pathLen archive name) rec inUse 0 rules).2
    { rule := i, target := j, stemlen := dir.length + core.length, checked := c, order := 0 + k }
  obtain ⟨r', t', d', c', hr', _, _, ht', hfit', _, hlen, hst, hdead⟩ := tryList_entry hx
  rw [e1] at hr'
  simp only [h.rule, Option.some.injEq] at hr'
  subst hr'
  rw [e2] at ht'
  simp only [ht, Option.some.injEq] at ht'
  subst ht'
  obtain ⟨rfl, rfl⟩ := fits_unique hfit hfit'
  exact ⟨_, hx, hdead.2 h.specific, e1, e2, e3, hst⟩

/-- The order in which rules are tried. -/
theorem tryList_sorted {rules : List PatRule} {inUse : List Nat} {rec archive : Bool} {name : Str} :
    (tryList rules inUse rec name (pathLen archive name)).Pairwise (fun a b =>
      ¬ Before b.stemlen b.rule b.target a.stemlen a.rule a.target) := by
  unfold tryList
  simp only
  rw [List.pairwise_map]
  have hp := allTries_pairwise (name := name) (p := pathLen archive name) (rec := rec) (inUse := inUse) rules 0
  refine List.Pairwise.imp_of_mem ?_ (sortTries_sorted _)
  intro a b ha hb hle
  rw [mem_sortTries] at ha hb
  obtain ⟨e1, e2, e3, _, _⟩ := rejectAnything_eq rules (allTries name (pathLen archive name) rec inUse 0 rules).2 a
  obtain ⟨f1, f2, f3, _, _⟩ := rejectAnything_eq rules (allTries name (pathLen archive name) rec inUse 0 rules).2 b
  rw [e1, e2, e3, f1, f2, f3]
  have := number_older hp hb ha
  unfold TryRule.older at this
  unfold TryRule.le at hle
  simp only [Bool.or_eq_true, Bool.and_eq_true, decide_eq_true_eq] at hle
  unfold Before
  omega

end Remake
