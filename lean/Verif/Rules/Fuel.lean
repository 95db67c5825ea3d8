import Verif.Rules.Search
/-!
# The search ends
-/
set_option linter.unusedVariables false
set_option linter.unusedSimpArgs false
namespace Remake
open Remake.Spec

theorem tryNames_total {env : SearchEnv} {ex : List Str} {im : Bool}
    {rec : Str → SearchState → Option (Option FoundRule × SearchState)} (h : ∀ nm s, rec nm s ≠ none) :
    ∀ ds pat s, tryNames env rec im ex ds pat s ≠ none := by
  intro ds
  induction ds with
  | nil => intro pat s; simp [tryNames]
  | cons d ds ih =>
    intro pat s
    rw [tryNames]
    split
    · simp
    · split
      · exact ih _ _
      · split
        · cases hr : rec d.name s with
          | none => exact absurd hr (h _ _)
          | some q =>
            obtain ⟨f, s1⟩ := q
            cases f with
            | none => simp
            | some f => exact ih _ _
        · simp

theorem runPass_total {env : SearchEnv} {rules : List PatRule} {ex : List Str} {im : Bool} {name : Str} {p : Nat}
    {rec : Nat → Str → SearchState → Option (Option FoundRule × SearchState)} :
    ∀ ts, (∀ t ∈ ts, ∀ nm s, rec t.rule nm s ≠ none) → ∀ pat s,
      runPass env rules rec im ex name p ts pat s ≠ none := by
  intro ts
  induction ts with
  | nil => intro _ pat s; simp [runPass]
  | cons t ts ih =>
    intro h pat s
    have ih' := ih (fun u hu => h u (List.mem_cons_of_mem _ hu))
    have skip : ∀ (t1 : TryRule) pat1 s1,
        (match runPass env rules rec im ex name p ts pat1 s1 with
          | none => none
          | some (c, pat, ts', s) => some (c, pat, t1 :: ts', s)) ≠ none := by
      intro t1 pat1 s1
      cases hr : runPass env rules rec im ex name p ts pat1 s1 with
      | none => exact absurd hr (ih' _ _)
      | some q => simp
    rw [runPass]
    simp only
    cases hr : rules[t.rule]? with
    | none => exact skip _ _ _
    | some r =>
      simp only
      split
      · exact skip _ _ _
      · split
        · exact skip _ _ _
        · split
          · exact skip _ _ _
          · split
            · simp
            · generalize stemParts rules name p t = sp
              obtain ⟨dir, core⟩ := sp
              simp only
              cases htn : tryNames env (rec t.rule) im ex (wanted env dir core r) [] s with
              | none => exact absurd htn (tryNames_total (h t List.mem_cons_self) _ _ _)
              | some q =>
                obtain ⟨res, pat1, s1⟩ := q
                cases res with
                | ok => simp
                | failed => exact skip _ _ _
                | rejected => exact skip _ _ _

theorem runPass_rules {env : SearchEnv} {rules : List PatRule} {ex : List Str} {im : Bool} {name : Str} {p : Nat}
    {rec : Nat → Str → SearchState → Option (Option FoundRule × SearchState)} :
    ∀ ts pat s c pat' ts' s', runPass env rules rec im ex name p ts pat s = some (c, pat', ts', s') →
      ts'.map TryRule.key = ts.map TryRule.key := by
  intro ts
  induction ts with
  | nil =>
    intro pat s c pat' ts' s' h
    simp only [runPass, Option.some.injEq, Prod.mk.injEq] at h
    obtain ⟨rfl, rfl, rfl, rfl⟩ := h
    rfl
  | cons t ts ih =>
    intro pat s c pat' ts' s' h
    have skip : ∀ (t1 : TryRule) pat1 s1, t1.key = t.key →
        (match runPass env rules rec im ex name p ts pat1 s1 with
          | none => none
          | some (c, pat, ts', s) => some (c, pat, t1 :: ts', s)) = some (c, pat', ts', s') →
        ts'.map TryRule.key = (t :: ts).map TryRule.key := by
      intro t1 pat1 s1 hk h
      cases hr : runPass env rules rec im ex name p ts pat1 s1 with
      | none => rw [hr] at h; exact absurd h (by simp)
      | some q =>
        obtain ⟨c1, pat2, ts2, s2⟩ := q
        rw [hr] at h
        simp only [Option.some.injEq, Prod.mk.injEq] at h
        obtain ⟨rfl, rfl, rfl, rfl⟩ := h
        simp only [List.map_cons, hk, ih _ _ _ _ _ _ hr]
    rw [runPass] at h
    simp only at h
    cases hr : rules[t.rule]? with
    | none => rw [hr] at h; exact skip _ _ _ rfl h
    | some r =>
      rw [hr] at h
      simp only at h
      split at h
      · exact skip _ _ _ rfl h
      · split at h
        · exact skip _ _ _ rfl h
        · split at h
          · exact skip _ _ _ rfl h
          · split at h
            · simp only [Option.some.injEq, Prod.mk.injEq] at h
              obtain ⟨rfl, rfl, rfl, rfl⟩ := h
              rfl
            · generalize stemParts rules name p t = sp at h
              obtain ⟨dir, core⟩ := sp
              simp only at h
              cases htn : tryNames env (rec t.rule) im ex (wanted env dir core r) [] s with
              | none => rw [htn] at h; exact absurd h (by simp)
              | some q =>
                obtain ⟨res, pat1, s1⟩ := q
                rw [htn] at h
                cases res with
                | ok =>
                  simp only [Option.some.injEq, Prod.mk.injEq] at h
                  obtain ⟨rfl, rfl, rfl, rfl⟩ := h
                  rfl
                | failed => exact skip _ _ _ rfl h
                | rejected => exact skip { t with dead := true } _ _ rfl h

/-- How many rules are not in use. -/
def freeRules (rules : List PatRule) (inUse : List Nat) : Nat :=
  ((List.range rules.length).filter (fun i => !inUse.contains i)).length

theorem freeRules_lt {rules : List PatRule} {inUse : List Nat} {i : Nat} (h1 : i < rules.length)
    (h2 : i ∉ inUse) : freeRules rules (i :: inUse) < freeRules rules inUse := by
  unfold freeRules
  have key : ∀ l : List Nat, (l.filter (fun j => !(i :: inUse).contains j)).length ≤ (l.filter (fun j => !inUse.contains j)).length ∧
      (i ∈ l → (l.filter (fun j => !(i :: inUse).contains j)).length < (l.filter (fun j => !inUse.contains j)).length) := by
    intro l
    induction l with
    | nil => simp
    | cons a l ih =>
      simp only [List.filter_cons]
      by_cases ha : a = i
      · subst ha
        have e1 : (!(a :: inUse).contains a) = false := by simp
        have e2 : (!inUse.contains a) = true := by simpa using h2
        rw [e1, e2]
        simp only [Bool.false_eq_true, if_false, if_true, List.length_cons]
        have := ih.1
        exact ⟨by omega, fun _ => by omega⟩
      · have e : (!(i :: inUse).contains a) = (!inUse.contains a) := by
          simp [ha]
        rw [e]
        have h3 : i ∈ a :: l → i ∈ l := by
          intro h
          rcases List.mem_cons.1 h with h | h
          · exact absurd h.symm ha
          · exact h
        split
        · simp only [List.length_cons]
          exact ⟨by have := ih.1; omega, fun h => by have := ih.2 (h3 h); omega⟩
        · exact ⟨ih.1, fun h => ih.2 (h3 h)⟩
  exact (key _).2 (List.mem_range.2 h1)

theorem search_total {env : SearchEnv} {rules : List PatRule} :
    ∀ (n : Nat) (inUse : List Nat) (rec archive : Bool) (ex : List Str) (full : Str) (s : SearchState),
      freeRules rules inUse < n → search env rules n inUse rec archive ex full s ≠ none := by
  intro n
  induction n with
  | zero => intro _ _ _ _ _ _ h; omega
  | succ n ih =>
    intro inUse rec archive ex full s hn
    rw [search]
    simp only
    generalize searchName archive full = name
    have hrec : ∀ ts : List TryRule, ts.map TryRule.key = (tryList rules inUse rec name (pathLen archive name)).map TryRule.key →
        ∀ t ∈ ts, ∀ nm s, search env rules n (t.rule :: inUse) true false [] nm s ≠ none := by
      intro ts hts t ht nm s1
      have : t.key ∈ ts.map TryRule.key := List.mem_map_of_mem ht
      rw [hts] at this
      obtain ⟨u, hu, hk⟩ := List.mem_map.1 this
      have hr := (stemParts_key rules name 0 u t hk).2.1
      obtain ⟨r, _, _, _, h1, h2, _⟩ := tryList_entry hu
      rw [hr] at h1 h2
      have h1' := (List.getElem?_eq_some_iff.1 h1).1
      apply ih
      have := freeRules_lt h1' h2
      omega
    cases hp1 : runPass env rules (fun i nm s => search env rules n (i :: inUse) true false [] nm s) false ex name
        (pathLen archive name) (tryList rules inUse rec name (pathLen archive name)) [] s with
    | none => exact absurd hp1 (runPass_total _ (hrec _ rfl) _ _)
    | some q =>
      obtain ⟨c1, pat1, ts1, s1⟩ := q
      cases c1 with
      | some t => simp
      | none =>
        simp only
        have hk := runPass_rules _ _ _ _ _ _ _ hp1
        cases hp2 : runPass env rules (fun i nm s => search env rules n (i :: inUse) true false [] nm s) true ex name
            (pathLen archive name) ts1 [] s1 with
        | none => exact absurd hp2 (runPass_total _ (hrec _ hk) _ _)
        | some q =>
          obtain ⟨c2, pat2, ts2, s2⟩ := q
          cases c2 <;> simp

/-! ## More depth changes nothing -/

theorem tryNames_mono {env : SearchEnv} {ex : List Str} {im : Bool}
    {rec rec' : Str → SearchState → Option (Option FoundRule × SearchState)}
    (h : ∀ nm s x, rec nm s = some x → rec' nm s = some x) :
    ∀ ds pat s x, tryNames env rec im ex ds pat s = some x → tryNames env rec' im ex ds pat s = some x := by
  intro ds
  induction ds with
  | nil => intro pat s x hx; simpa [tryNames] using hx
  | cons d ds ih =>
    intro pat s x hx
    rw [tryNames] at hx ⊢
    split at hx
    · rename_i h1; rw [if_pos h1]; exact hx
    · rename_i h1
      rw [if_neg h1]
      split at hx
      · rename_i h2; rw [if_pos h2]; exact ih _ _ _ hx
      · rename_i h2
        rw [if_neg h2]
        split at hx
        · rename_i h3
          rw [if_pos h3]
          cases hr : rec d.name s with
          | none => rw [hr] at hx; exact absurd hx (by simp)
          | some q =>
            rw [hr] at hx
            rw [h _ _ _ hr]
            obtain ⟨f, s1⟩ := q
            cases f with
            | none => exact hx
            | some f => exact ih _ _ _ hx
        · rename_i h3
          rw [if_neg h3]; exact hx

theorem runPass_mono {env : SearchEnv} {rules : List PatRule} {ex : List Str} {im : Bool} {name : Str} {p : Nat}
    {rec rec' : Nat → Str → SearchState → Option (Option FoundRule × SearchState)}
    (h : ∀ i nm s x, rec i nm s = some x → rec' i nm s = some x) :
    ∀ ts pat s x, runPass env rules rec im ex name p ts pat s = some x →
      runPass env rules rec' im ex name p ts pat s = some x := by
  intro ts
  induction ts with
  | nil => intro pat s x hx; simpa [runPass] using hx
  | cons t ts ih =>
    intro pat s x hx
    have skip : ∀ (t1 : TryRule) pat1 s1,
        (match runPass env rules rec im ex name p ts pat1 s1 with
          | none => none
          | some (c, pat, ts', s) => some (c, pat, t1 :: ts', s)) = some x →
        (match runPass env rules rec' im ex name p ts pat1 s1 with
          | none => none
          | some (c, pat, ts', s) => some (c, pat, t1 :: ts', s)) = some x := by
      intro t1 pat1 s1 hh
      cases hr : runPass env rules rec im ex name p ts pat1 s1 with
      | none => rw [hr] at hh; exact absurd hh (by simp)
      | some q => rw [hr] at hh; rw [ih _ _ _ hr]; exact hh
    rw [runPass] at hx ⊢
    simp only at hx ⊢
    cases hr : rules[t.rule]? with
    | none => rw [hr] at hx; exact skip _ _ _ hx
    | some r =>
      rw [hr] at hx
      simp only at hx ⊢
      by_cases h1 : t.dead = true
      · rw [if_pos h1] at hx ⊢; exact skip _ _ _ hx
      rw [if_neg h1] at hx ⊢
      by_cases h2 : (im && r.terminal) = true
      · rw [if_pos h2] at hx ⊢; exact skip _ _ _ hx
      rw [if_neg h2] at hx ⊢
      by_cases h3 : env.pathMax < t.stemlen
      · rw [if_pos h3] at hx ⊢; exact skip _ _ _ hx
      rw [if_neg h3] at hx ⊢
      by_cases h4 : r.deps.isEmpty = true
      · rw [if_pos h4] at hx ⊢; exact hx
      rw [if_neg h4] at hx ⊢
      generalize stemParts rules name p t = sp at hx ⊢
      obtain ⟨dir, core⟩ := sp
      simp only at hx ⊢
      cases htn : tryNames env (rec t.rule) im ex (wanted env dir core r) [] s with
      | none => rw [htn] at hx; exact absurd hx (by simp)
      | some q =>
        rw [htn] at hx
        rw [tryNames_mono (h t.rule) _ _ _ _ htn]
        obtain ⟨res, pat1, s1⟩ := q
        cases res with
        | ok => exact hx
        | failed => exact skip _ _ _ hx
        | rejected => exact skip _ _ _ hx

theorem search_mono {env : SearchEnv} {rules : List PatRule} :
    ∀ (n : Nat) (inUse : List Nat) (rec archive : Bool) (ex : List Str) (full : Str) (s : SearchState) x,
      search env rules n inUse rec archive ex full s = some x →
      search env rules (n + 1) inUse rec archive ex full s = some x := by
  intro n
  induction n with
  | zero => intro _ _ _ _ _ _ _ h; simp [search] at h
  | succ n ih =>
    intro inUse rec archive ex full s x h
    rw [search] at h ⊢
    simp only at h ⊢
    generalize searchName archive full = name at h ⊢
    have hm : ∀ i nm s x, (fun i nm s => search env rules n (i :: inUse) true false [] nm s) i nm s = some x →
        (fun i nm s => search env rules (n + 1) (i :: inUse) true false [] nm s) i nm s = some x := by
      intro i nm s1 y hy
      exact ih _ _ _ _ _ _ _ hy
    cases hp1 : runPass env rules (fun i nm s => search env rules n (i :: inUse) true false [] nm s) false ex name
        (pathLen archive name) (tryList rules inUse rec name (pathLen archive name)) [] s with
    | none => rw [hp1] at h; exact absurd h (by simp)
    | some q =>
      rw [hp1] at h
      rw [runPass_mono hm _ _ _ _ hp1]
      obtain ⟨c1, pat1, ts1, s1⟩ := q
      cases c1 with
      | some t => exact h
      | none =>
        simp only at h ⊢
        cases hp2 : runPass env rules (fun i nm s => search env rules n (i :: inUse) true false [] nm s) true ex name
            (pathLen archive name) ts1 [] s1 with
        | none => rw [hp2] at h; exact absurd h (by simp)
        | some q =>
          rw [hp2] at h
          rw [runPass_mono hm _ _ _ _ hp2]
          obtain ⟨c2, pat2, ts2, s2⟩ := q
          cases c2 <;> exact h

end Remake
