import Verif.Rules.Lemmas2
/-!
# Lemmas on the search
-/
set_option linter.unusedVariables false
set_option linter.unusedSimpArgs false
namespace Remake
open Remake.Spec

/-! ## The state -/

/-- Nothing is forgotten. -/
def StateLe (s s' : SearchState) : Prop :=
  (∀ n ∈ s.known, n ∈ s'.known) ∧ (∀ n ∈ s.impossible, n ∈ s'.impossible) ∧ (∀ p ∈ s.made, p ∈ s'.made)

theorem StateLe.refl (s : SearchState) : StateLe s s := ⟨fun _ h => h, fun _ h => h, fun _ h => h⟩

theorem StateLe.trans {a b c : SearchState} (h : StateLe a b) (h' : StateLe b c) : StateLe a c :=
  ⟨fun n hn => h'.1 n (h.1 n hn), fun n hn => h'.2.1 n (h.2.1 n hn), fun n hn => h'.2.2 n (h.2.2 n hn)⟩

/-- Everything entered since the beginning can be had. -/
def StateOk (env : SearchEnv) (rules : List PatRule) (K : List Str) (M : List (Str × FoundRule))
    (s : SearchState) : Prop :=
  (∀ n ∈ s.known, Ready env rules K n) ∧
  (∀ p ∈ s.made, p ∈ M ∨ HowToMake env rules K true (isMember false p.1) p.1 p.2)

theorem howToMake_ready {env : SearchEnv} {rules : List PatRule} {K : List Str} {rec m : Bool} {n : Str}
    {f : FoundRule} (h : HowToMake env rules K rec m n f) :
    Ready env rules K n ∧ (∀ d ∈ f.deps, Ready env rules K d.name) ∧ (∀ a ∈ f.also, Ready env rules K a) := by
  obtain ⟨r, t, dir, core, hr, ht, hc, hf, _, hst, hcm, hal, hd, hw⟩ := h
  have hd' : ∀ d ∈ f.deps, Ready env rules K d.name := hd
  have hw' : ∀ d ∈ wanted env dir core r, Ready env rules K d.name := by
    intro d hdm
    by_cases hne : r.deps = []
    · simp [wanted, hne] at hdm
    · have := hd' (asFound d) (by rw [hw hne]; exact List.mem_map_of_mem hdm)
      exact this
  have hrm : r ∈ rules := List.mem_of_getElem? hr
  have htm : t ∈ r.targets := List.mem_of_getElem? ht
  refine ⟨.made r t dir core m hrm hc htm hf hw', hd', ?_⟩
  intro a ha
  rw [hal] at ha
  unfold alsoMake at ha
  split at ha
  · simp only [List.mem_reverse, List.mem_map] at ha
    obtain ⟨u, hu, rfl⟩ := ha
    exact .sibling r t u n dir core m hrm hc htm hf hw' ((List.eraseIdx_sublist _ _).subset hu) rfl
  · simp at ha

/-- A prerequisite in `deplist` is good. -/
def PatDepOk (env : SearchEnv) (rules : List PatRule) (K : List Str) (p : PatDep) : Prop :=
  Ready env rules K p.name ∧
  (∀ f, p.file = some f → HowToMake env rules K true (isMember false p.name) p.name f)

/-- What is assumed of the recursive search. -/
def RecOk (env : SearchEnv) (rules : List PatRule) (K : List Str) (M : List (Str × FoundRule))
    (rec : Str → SearchState → Option (Option FoundRule × SearchState)) : Prop :=
  ∀ nm s r s', StateOk env rules K M s → rec nm s = some (r, s') →
    StateOk env rules K M s' ∧ StateLe s s' ∧
    (∀ f, r = some f → HowToMake env rules K true (isMember false nm) nm f)

/-- A `PatDep` as a prerequisite of the result. -/
def PatDep.out (p : PatDep) : FoundDep :=
  { name := p.name, ignoreMtime := p.ignoreMtime, ignoreAuto := p.ignoreAuto }

theorem StateOk.mark {env : SearchEnv} {rules : List PatRule} {K : List Str} {M : List (Str × FoundRule)}
    {s : SearchState} (h : StateOk env rules K M s) (l : List Str) :
    StateOk env rules K M { s with impossible := l } := h

theorem tryNames_ok {env : SearchEnv} {rules : List PatRule} {K ex : List Str} {M : List (Str × FoundRule)}
    {rec : Str → SearchState → Option (Option FoundRule × SearchState)} {im : Bool}
    (hex : ∀ n ∈ ex, Ready env rules K n) (hrec : im = true → RecOk env rules K M rec) :
    ∀ (ds : List WantedDep) (pat : List PatDep) (s : SearchState) (res : TryResult) (pat' : List PatDep)
      (s' : SearchState), tryNames env rec im ex ds pat s = some (res, pat', s') →
      StateOk env rules K M s → (∀ p ∈ pat, PatDepOk env rules K p) →
      StateOk env rules K M s' ∧ StateLe s s' ∧ (∀ p ∈ pat', PatDepOk env rules K p) ∧
      (res = .ok → pat'.map PatDep.out = pat.map PatDep.out ++ ds.map asFound) ∧
      (res = .rejected → ∃ d ∈ ds, d.name ∈ s'.impossible) ∧
      (im = true → res ≠ .ok → ∃ d ∈ ds, d.name ∈ s'.impossible) := by
  intro ds
  induction ds with
  | nil =>
    intro pat s res pat' s' h hs hp
    simp only [tryNames, Option.some.injEq, Prod.mk.injEq] at h
    obtain ⟨rfl, rfl, rfl⟩ := h
    exact ⟨hs, StateLe.refl _, hp, by simp, by simp, by simp⟩
  | cons d ds ih =>
    intro pat s res pat' s' h hs hp
    rw [tryNames] at h
    split at h
    · rename_i himp
      simp only [Option.some.injEq, Prod.mk.injEq] at h
      obtain ⟨rfl, rfl, rfl⟩ := h
      have : d.name ∈ s.impossible := by simpa using himp
      exact ⟨hs, StateLe.refl _, hp, by simp, fun _ => ⟨d, List.mem_cons_self, this⟩,
        fun _ _ => ⟨d, List.mem_cons_self, this⟩⟩
    · split at h
      · rename_i hgood
        have hgood' : Ready env rules K d.name := by
          simp only [Bool.or_eq_true, List.contains_iff_mem] at hgood
          rcases hgood with ((h1 | h1) | h1) | h1
          · exact hex _ h1
          · exact hs.1 _ h1
          · exact .exists_ h1
          · exact .found h1
        obtain ⟨a, b, c, e, f, g⟩ := ih _ _ _ _ _ h hs (by
          intro p hpm
          rcases List.mem_append.1 hpm with hpm | hpm
          · exact hp p hpm
          · simp only [List.mem_singleton] at hpm
            subst hpm
            exact ⟨hgood', by simp⟩)
        refine ⟨a, b, c, ?_, ?_, ?_⟩
        · intro hr
          rw [e hr]
          simp [PatDep.out, asFound]
        · intro hr
          obtain ⟨x, hx, hx'⟩ := f hr
          exact ⟨x, List.mem_cons_of_mem _ hx, hx'⟩
        · intro hi hr
          obtain ⟨x, hx, hx'⟩ := g hi hr
          exact ⟨x, List.mem_cons_of_mem _ hx, hx'⟩
      · split at h
        · rename_i him
          split at h
          · exact absurd h (by simp)
          · rename_i f s1 hr1
            obtain ⟨a1, b1, c1⟩ := hrec him _ _ _ _ hs hr1
            have hmake := c1 f rfl
            obtain ⟨a, b, c, e, f', g⟩ := ih _ _ _ _ _ h a1 (by
              intro p hpm
              rcases List.mem_append.1 hpm with hpm | hpm
              · exact hp p hpm
              · simp only [List.mem_singleton] at hpm
                subst hpm
                refine ⟨(howToMake_ready hmake).1, ?_⟩
                intro f2 hf2
                simp only [Option.some.injEq] at hf2
                subst hf2
                exact hmake)
            refine ⟨a, b1.trans b, c, ?_, ?_, ?_⟩
            · intro hr
              rw [e hr]
              simp [PatDep.out, asFound]
            · intro hr
              obtain ⟨x, hx, hx'⟩ := f' hr
              exact ⟨x, List.mem_cons_of_mem _ hx, hx'⟩
            · intro hi hr
              obtain ⟨x, hx, hx'⟩ := g hi hr
              exact ⟨x, List.mem_cons_of_mem _ hx, hx'⟩
          · rename_i s1 hr1
            obtain ⟨a1, b1, c1⟩ := hrec him _ _ _ _ hs hr1
            simp only [Option.some.injEq, Prod.mk.injEq] at h
            obtain ⟨rfl, rfl, rfl⟩ := h
            refine ⟨a1.mark _, ⟨b1.1, ?_, b1.2.2⟩, hp, by simp, by simp, ?_⟩
            · intro n hn
              exact List.mem_cons_of_mem _ (b1.2.1 n hn)
            · intro _ _
              exact ⟨d, List.mem_cons_self, List.mem_cons_self⟩
        · rename_i him
          simp only [Option.some.injEq, Prod.mk.injEq] at h
          obtain ⟨rfl, rfl, rfl⟩ := h
          exact ⟨hs, StateLe.refl _, hp, by simp, by simp, fun hi => absurd hi him⟩

/-- The first pass. -/
theorem tryNames_first {env : SearchEnv} {ex : List Str}
    {rec : Str → SearchState → Option (Option FoundRule × SearchState)} :
    ∀ (ds : List WantedDep) (pat : List PatDep) (s : SearchState),
      ∃ res pat', tryNames env rec false ex ds pat s = some (res, pat', s) ∧
      (res = .ok ↔ ∀ d ∈ ds, Good env ex s d.name) ∧
      (∀ p ∈ pat', p ∈ pat ∨ p.file = none) := by
  intro ds
  induction ds with
  | nil =>
    intro pat s
    exact ⟨.ok, pat, rfl, by simp, fun p h => Or.inl h⟩
  | cons d ds ih =>
    intro pat s
    rw [tryNames]
    split
    · rename_i himp
      refine ⟨_, _, rfl, ?_, fun p h => Or.inl h⟩
      have : d.name ∈ s.impossible := by simpa using himp
      simp only [List.mem_cons, forall_eq_or_imp, reduceCtorEq, false_iff]
      exact fun h => h.1.1 this
    · rename_i himp
      have hni : d.name ∉ s.impossible := by simpa using himp
      split
      · rename_i hgood
        obtain ⟨res, pat', h1, h2, h3⟩ := ih (pat ++ [{ name := d.name, ignoreMtime := d.ignoreMtime, ignoreAuto := d.ignoreAuto, file := none }]) s
        refine ⟨res, pat', h1, ?_, ?_⟩
        · rw [h2]
          simp only [List.mem_cons, forall_eq_or_imp]
          have : Good env ex s d.name := by
            refine ⟨hni, ?_⟩
            simpa [or_assoc] using hgood
          exact ⟨fun h => ⟨this, h⟩, fun h => h.2⟩
        · intro p hp
          rcases h3 p hp with h | h
          · rcases List.mem_append.1 h with h | h
            · exact Or.inl h
            · simp only [List.mem_singleton] at h
              subst h
              exact Or.inr rfl
          · exact Or.inr h
      · rename_i hgood
        rw [if_neg (by simp)]
        refine ⟨_, _, rfl, ?_, fun p h => Or.inl h⟩
        simp only [List.mem_cons, forall_eq_or_imp, reduceCtorEq, false_iff]
        intro h
        apply hgood
        have := h.1.2
        simpa [or_assoc] using this

/-! ## One pass -/

/-- An entry without `dead`. -/
def TryRule.key (t : TryRule) : TryRule := { t with dead := false }

/-- A prerequisite of the entry is marked impossible. -/
def Doomed (env : SearchEnv) (rules : List PatRule) (name : Str) (p : Nat) (s : SearchState) (u : TryRule) : Prop :=
  ∃ r d, rules[u.rule]? = some r ∧
    d ∈ wanted env (stemParts rules name p u).1 (stemParts rules name p u).2 r ∧ d.name ∈ s.impossible

theorem Doomed.mono {env : SearchEnv} {rules : List PatRule} {name : Str} {p : Nat} {s s' : SearchState}
    {u : TryRule} (h : Doomed env rules name p s u) (hle : StateLe s s') : Doomed env rules name p s' u := by
  obtain ⟨r, d, h1, h2, h3⟩ := h
  exact ⟨r, d, h1, h2, hle.2.1 _ h3⟩

theorem stemParts_key (rules : List PatRule) (name : Str) (p : Nat) (u v : TryRule) (h : u.key = v.key) :
    stemParts rules name p u = stemParts rules name p v ∧ u.rule = v.rule ∧ u.target = v.target ∧
    u.stemlen = v.stemlen := by
  simp only [TryRule.key, TryRule.mk.injEq] at h
  obtain ⟨h1, h2, h3, h4, _⟩ := h
  simp [stemParts, h1, h2, h3, h4]

/-- Why an entry was not chosen. -/
def PassedOver (env : SearchEnv) (rules : List PatRule) (name : Str) (p : Nat) (im : Bool) (ex : List Str)
    (s s' : SearchState) (u : TryRule) : Prop :=
  u.dead = true ∨ ∃ r, rules[u.rule]? = some r ∧
    ((im = true ∧ r.terminal = true) ∨ env.pathMax < u.stemlen ∨
     (r.deps ≠ [] ∧ (im = true → Doomed env rules name p s' u) ∧
       (im = false → ∃ d ∈ wanted env (stemParts rules name p u).1 (stemParts rules name p u).2 r,
          ¬ Good env ex s d.name)))

theorem PassedOver.mono {env : SearchEnv} {rules : List PatRule} {name : Str} {p : Nat} {im : Bool}
    {ex : List Str} {s s' s'' : SearchState} {u : TryRule} (h : PassedOver env rules name p im ex s s' u)
    (hle : StateLe s' s'') : PassedOver env rules name p im ex s s'' u := by
  rcases h with h | ⟨r, hr, h | h | ⟨h1, h2, h3⟩⟩
  · exact Or.inl h
  · exact Or.inr ⟨r, hr, Or.inl h⟩
  · exact Or.inr ⟨r, hr, Or.inr (Or.inl h)⟩
  · exact Or.inr ⟨r, hr, Or.inr (Or.inr ⟨h1, fun hi => (h2 hi).mono hle, h3⟩)⟩

/-- What one pass guarantees. -/
structure PassOk (env : SearchEnv) (rules : List PatRule) (K : List Str) (M : List (Str × FoundRule))
    (im : Bool) (ex : List Str) (name : Str) (p : Nat) (ts : List TryRule) (pat : List PatDep) (s : SearchState)
    (c : Option TryRule) (pat' : List PatDep) (ts' : List TryRule) (s' : SearchState) : Prop where
  ok : StateOk env rules K M s'
  le : StateLe s s'
  pats : ∀ q ∈ pat', PatDepOk env rules K q
  same : ts'.map TryRule.key = ts.map TryRule.key
  dead : ∀ (k : Nat) u u', ts[k]? = some u → ts'[k]? = some u' → u'.dead = true →
    u.dead = true ∨ Doomed env rules name p s' u
  alive : ∀ (k : Nat) u u', ts[k]? = some u → ts'[k]? = some u' → u.dead = true → u'.dead = true
  first : im = false → s' = s
  none_ : c = none → ∀ u ∈ ts, PassedOver env rules name p im ex s s' u
  some_ : ∀ t, c = some t → ∃ pre post r, ts = pre ++ t :: post ∧ t.dead = false ∧ rules[t.rule]? = some r ∧
    (im = true → r.terminal = false) ∧ t.stemlen ≤ env.pathMax ∧
    (r.deps ≠ [] → pat'.map PatDep.out =
      (wanted env (stemParts rules name p t).1 (stemParts rules name p t).2 r).map asFound) ∧
    (im = false → (∀ d ∈ wanted env (stemParts rules name p t).1 (stemParts rules name p t).2 r,
      Good env ex s d.name)) ∧
    (im = false → (∀ q ∈ pat, q.file = none) → ∀ q ∈ pat', q.file = none) ∧
    (∀ u ∈ pre, PassedOver env rules name p im ex s s' u)

theorem runPass_ok {env : SearchEnv} {rules : List PatRule} {K ex : List Str} {M : List (Str × FoundRule)}
    {rec : Nat → Str → SearchState → Option (Option FoundRule × SearchState)} {im : Bool} {name : Str} {p : Nat}
    (hex : ∀ n ∈ ex, Ready env rules K n) (hrec : ∀ i, im = true → RecOk env rules K M (rec i)) :
    ∀ (ts : List TryRule) (pat : List PatDep) (s : SearchState) c pat' ts' s',
      (∀ u ∈ ts, rules[u.rule]? ≠ none) →
      runPass env rules rec im ex name p ts pat s = some (c, pat', ts', s') →
      StateOk env rules K M s → (∀ q ∈ pat, PatDepOk env rules K q) →
      PassOk env rules K M im ex name p ts pat s c pat' ts' s' := by
  intro ts
  induction ts with
  | nil =>
    intro pat s c pat' ts' s' _ h hs hp
    simp only [runPass, Option.some.injEq, Prod.mk.injEq] at h
    obtain ⟨rfl, rfl, rfl, rfl⟩ := h
    exact ⟨hs, StateLe.refl _, hp, rfl, by simp, by simp, fun _ => rfl, by simp, by simp⟩
  | cons t ts ih =>
    intro pat s c pat' ts' s' hval h hs hp
    have hval' : ∀ u ∈ ts, rules[u.rule]? ≠ none := fun u hu => hval u (List.mem_cons_of_mem _ hu)
    -- the step that goes on with the rest
    have skip : ∀ (t1 : TryRule) (pat1 : List PatDep) (s1 : SearchState),
        (match runPass env rules rec im ex name p ts pat1 s1 with
          | none => none
          | some (c, pat, ts', s) => some (c, pat, t1 :: ts', s)) = some (c, pat', ts', s') →
        t1.key = t.key → (t1.dead = true → t.dead = true ∨ Doomed env rules name p s1 t) →
        (t.dead = true → t1.dead = true) →
        StateOk env rules K M s1 → StateLe s s1 → (∀ q ∈ pat1, PatDepOk env rules K q) →
        (im = false → s1 = s) → (im = false → (∀ q ∈ pat, q.file = none) → ∀ q ∈ pat1, q.file = none) →
        PassedOver env rules name p im ex s s1 t →
        PassOk env rules K M im ex name p (t :: ts) pat s c pat' ts' s' := by
      intro t1 pat1 s1 h hk hd1 hd2 hs1 hle hp1 hf hfile hpo
      cases hrun : runPass env rules rec im ex name p ts pat1 s1 with
      | none => rw [hrun] at h; exact absurd h (by simp)
      | some q =>
        obtain ⟨c1, pat2, ts2, s2⟩ := q
        rw [hrun] at h
        simp only [Option.some.injEq, Prod.mk.injEq] at h
        obtain ⟨rfl, rfl, rfl, rfl⟩ := h
        have r := ih pat1 s1 _ _ _ _ hval' hrun hs1 hp1
        -- facts about `Good` in the first pass use that the state does not change
        have hpo_trans : ∀ u, PassedOver env rules name p im ex s1 s2 u → PassedOver env rules name p im ex s s2 u := by
          intro u hu
          rcases hu with h | ⟨r', hr, h | h | ⟨h1, h2, h3⟩⟩
          · exact Or.inl h
          · exact Or.inr ⟨r', hr, Or.inl h⟩
          · exact Or.inr ⟨r', hr, Or.inr (Or.inl h)⟩
          · refine Or.inr ⟨r', hr, Or.inr (Or.inr ⟨h1, h2, ?_⟩)⟩
            intro hi
            rw [hf hi] at h3
            exact h3 hi
        refine ⟨r.ok, hle.trans r.le, r.pats, ?_, ?_, ?_, ?_, ?_, ?_⟩
        · simp only [List.map_cons, hk, r.same]
        · intro k u u' hu hu' hdd
          cases k with
          | zero =>
            simp only [List.getElem?_cons_zero, Option.some.injEq] at hu hu'
            subst hu; subst hu'
            rcases hd1 hdd with h | h
            · exact Or.inl h
            · exact Or.inr (h.mono r.le)
          | succ k =>
            simp only [List.getElem?_cons_succ] at hu hu'
            exact r.dead k u u' hu hu' hdd
        · intro k u u' hu hu' hdd
          cases k with
          | zero =>
            simp only [List.getElem?_cons_zero, Option.some.injEq] at hu hu'
            subst hu; subst hu'
            exact hd2 hdd
          | succ k =>
            simp only [List.getElem?_cons_succ] at hu hu'
            exact r.alive k u u' hu hu' hdd
        · intro hi
          rw [r.first hi, hf hi]
        · intro hc u hu
          rcases List.mem_cons.1 hu with rfl | hu
          · exact hpo.mono r.le
          · exact hpo_trans u (r.none_ hc u hu)
        · intro x hx
          obtain ⟨pre, post, rr, e1, e2, e3, e4, e5, e6, e7, e8, e9⟩ := r.some_ x hx
          refine ⟨t :: pre, post, rr, by rw [e1]; rfl, e2, e3, e4, e5, e6, ?_, ?_, ?_⟩
          · intro hi
            rw [← hf hi]; exact e7 hi
          · intro hi hpf
            exact e8 hi (hfile hi hpf)
          · intro u hu
            rcases List.mem_cons.1 hu with rfl | hu
            · exact hpo.mono r.le
            · exact hpo_trans u (e9 u hu)
    rw [runPass] at h
    simp only at h
    cases hr : rules[t.rule]? with
    | none => exact absurd hr (hval t List.mem_cons_self)
    | some r =>
      rw [hr] at h
      simp only at h
      by_cases hdead : t.dead = true
      · rw [if_pos hdead] at h
        exact skip t pat s h rfl Or.inl (fun h => h) hs (StateLe.refl _) hp (fun _ => rfl) (fun _ h => h) (Or.inl hdead)
      rw [if_neg hdead] at h
      by_cases hterm : (im && r.terminal) = true
      · rw [if_pos hterm] at h
        simp only [Bool.and_eq_true] at hterm
        exact skip t pat s h rfl Or.inl (fun h => h) hs (StateLe.refl _) hp (fun _ => rfl) (fun _ h => h)
          (Or.inr ⟨r, hr, Or.inl hterm⟩)
      rw [if_neg hterm] at h
      by_cases hlong : env.pathMax < t.stemlen
      · rw [if_pos hlong] at h
        exact skip t pat s h rfl Or.inl (fun h => h) hs (StateLe.refl _) hp (fun _ => rfl) (fun _ h => h)
          (Or.inr ⟨r, hr, Or.inr (Or.inl hlong)⟩)
      rw [if_neg hlong] at h
      have hterm' : im = true → r.terminal = false := by
        intro hi
        cases hh : r.terminal with
        | false => rfl
        | true => simp [hi, hh] at hterm
      by_cases hdeps : r.deps.isEmpty = true
      · rw [if_pos hdeps] at h
        simp only [Option.some.injEq, Prod.mk.injEq] at h
        obtain ⟨rfl, rfl, rfl, rfl⟩ := h
        have hnil : r.deps = [] := by simpa using hdeps
        refine ⟨hs, StateLe.refl _, hp, rfl, ?_, ?_, fun _ => rfl, by simp, ?_⟩
        · intro k u u' hu hu' hdd
          rw [hu] at hu'
          simp only [Option.some.injEq] at hu'
          exact Or.inl (hu' ▸ hdd)
        · intro k u u' hu hu' hdd
          rw [hu] at hu'
          simp only [Option.some.injEq] at hu'
          exact hu' ▸ hdd
        · intro x hx
          simp only [Option.some.injEq] at hx
          subst hx
          refine ⟨[], ts, r, rfl, by simpa using hdead, hr, hterm', by omega, fun hne => absurd hnil hne, ?_, fun _ h => h, by simp⟩
          intro _ d hd
          simp [wanted, hnil] at hd
      rw [if_neg hdeps] at h
      have hdne : r.deps ≠ [] := by simpa using hdeps
      generalize hsp : stemParts rules name p t = sp at h
      obtain ⟨dir, core⟩ := sp
      simp only at h
      cases htn : tryNames env (rec t.rule) im ex (wanted env dir core r) [] s with
      | none => rw [htn] at h; exact absurd h (by simp)
      | some q =>
        obtain ⟨res, pat1, s1⟩ := q
        rw [htn] at h
        obtain ⟨g1, g2, g3, g4, g5, g6⟩ := tryNames_ok hex (hrec t.rule) _ _ _ _ _ _ htn hs (by simp)
        -- the first pass
        have hfst : im = false → s1 = s ∧ (res = .ok ↔ ∀ d ∈ wanted env dir core r, Good env ex s d.name) ∧
            ∀ q ∈ pat1, q.file = none := by
          intro hi
          subst hi
          obtain ⟨res2, pat2, k1, k2, k3⟩ := tryNames_first (env := env) (ex := ex) (rec := rec t.rule)
            (wanted env dir core r) [] s
          rw [htn] at k1
          simp only [Option.some.injEq, Prod.mk.injEq] at k1
          obtain ⟨rfl, rfl, rfl⟩ := k1
          refine ⟨rfl, k2, ?_⟩
          intro q hq
          rcases k3 q hq with h | h
          · simp at h
          · exact h
        have hdoom : (∃ d ∈ wanted env dir core r, d.name ∈ s1.impossible) → Doomed env rules name p s1 t := by
          rintro ⟨d, hd, hd'⟩
          exact ⟨r, d, hr, by rw [hsp]; exact hd, hd'⟩
        have hpassed : res ≠ .ok → PassedOver env rules name p im ex s s1 t := by
          intro hne
          refine Or.inr ⟨r, hr, Or.inr (Or.inr ⟨hdne, fun hi => hdoom (g6 hi hne), ?_⟩)⟩
          intro hi
          rw [hsp]
          have := (hfst hi).2.1
          apply Classical.byContradiction
          intro hcon
          apply hne
          rw [this]
          intro d hd
          apply Classical.byContradiction
          intro hg
          exact hcon ⟨d, hd, hg⟩
        cases res with
        | ok =>
          simp only [Option.some.injEq, Prod.mk.injEq] at h
          obtain ⟨rfl, rfl, rfl, rfl⟩ := h
          refine ⟨g1, g2, g3, rfl, ?_, ?_, fun hi => (hfst hi).1, by simp, ?_⟩
          · intro k u u' hu hu' hdd
            rw [hu] at hu'
            simp only [Option.some.injEq] at hu'
            exact Or.inl (hu' ▸ hdd)
          · intro k u u' hu hu' hdd
            rw [hu] at hu'
            simp only [Option.some.injEq] at hu'
            exact hu' ▸ hdd
          · intro x hx
            simp only [Option.some.injEq] at hx
            subst hx
            refine ⟨[], ts, r, rfl, by simpa using hdead, hr, hterm', by omega, ?_, ?_, ?_, by simp⟩
            · intro _
              rw [hsp, g4 rfl]; simp
            · intro hi
              rw [hsp]
              exact (hfst hi).2.1.1 rfl
            · intro hi _
              exact (hfst hi).2.2
        | failed =>
          simp only at h
          exact skip t pat1 s1 h rfl Or.inl (fun h => h) g1 g2 g3 (fun hi => (hfst hi).1) (fun hi _ => (hfst hi).2.2)
            (hpassed (by simp))
        | rejected =>
          simp only at h
          exact skip { t with dead := true } pat1 s1 h rfl (fun _ => Or.inr (hdoom (g5 rfl))) (fun _ => rfl)
            g1 g2 g3 (fun hi => (hfst hi).1) (fun hi _ => (hfst hi).2.2) (hpassed (by simp))

/-! ## The search -/

theorem enterDep_ok {env : SearchEnv} {rules : List PatRule} {K : List Str} {M : List (Str × FoundRule)}
    {rec : Bool} {s : SearchState} {q : PatDep} (hs : StateOk env rules K M s) (hq : PatDepOk env rules K q) :
    StateOk env rules K M (enterDep rec s q) ∧ StateLe s (enterDep rec s q) ∧
      (enterDep rec s q).impossible = s.impossible := by
  have key : ∀ s1 : SearchState, StateOk env rules K M s1 → StateLe s s1 → s1.impossible = s.impossible →
      StateOk env rules K M (if rec then s1 else { s1 with known := q.name :: s1.known }) ∧
      StateLe s (if rec then s1 else { s1 with known := q.name :: s1.known }) ∧
      (if rec then s1 else { s1 with known := q.name :: s1.known }).impossible = s.impossible := by
    intro s1 h1 h2 h3
    split
    · exact ⟨h1, h2, h3⟩
    · refine ⟨⟨?_, h1.2⟩, ⟨fun n hn => List.mem_cons_of_mem _ (h2.1 n hn), h2.2.1, h2.2.2⟩, h3⟩
      intro n hn
      rcases List.mem_cons.1 hn with rfl | hn
      · exact hq.1
      · exact h1.1 n hn
  unfold enterDep
  cases hf : q.file with
  | none => exact key s hs (StateLe.refl _) rfl
  | some f =>
    have hm := hq.2 f hf
    apply key
    · refine ⟨?_, ?_⟩
      · intro n hn
        simp only [List.mem_append, List.mem_map, List.mem_cons] at hn
        rcases hn with ⟨d, hd, rfl⟩ | rfl | hn
        · exact (howToMake_ready hm).2.1 d hd
        · exact hq.1
        · exact hs.1 n hn
      · intro x hx
        rcases List.mem_cons.1 hx with rfl | hx
        · exact Or.inr hm
        · exact hs.2 x hx
    · refine ⟨?_, fun n hn => hn, fun x hx => List.mem_cons_of_mem _ hx⟩
      intro n hn
      simp only [List.mem_append, List.mem_cons]
      exact Or.inr (Or.inr hn)
    · rfl

theorem enterFound_ok {env : SearchEnv} {rules : List PatRule} {K : List Str} {M : List (Str × FoundRule)}
    {rec : Bool} {s : SearchState} {pat : List PatDep} {f : FoundRule} (hs : StateOk env rules K M s)
    (hp : ∀ q ∈ pat, PatDepOk env rules K q) (hf : ∀ a ∈ f.also, Ready env rules K a) :
    StateOk env rules K M (enterFound rec pat f s) ∧ StateLe s (enterFound rec pat f s) ∧
      (enterFound rec pat f s).impossible = s.impossible := by
  have key : ∀ (l : List PatDep) (s1 : SearchState), (∀ q ∈ l, PatDepOk env rules K q) → StateOk env rules K M s1 →
      StateOk env rules K M (l.foldl (enterDep rec) s1) ∧ StateLe s1 (l.foldl (enterDep rec) s1) ∧
      (l.foldl (enterDep rec) s1).impossible = s1.impossible := by
    intro l
    induction l with
    | nil => intro s1 _ h; exact ⟨h, StateLe.refl _, rfl⟩
    | cons q l ih =>
      intro s1 hq h
      obtain ⟨a, b, c⟩ := enterDep_ok (rec := rec) h (hq q List.mem_cons_self)
      obtain ⟨a', b', c'⟩ := ih _ (fun x hx => hq x (List.mem_cons_of_mem _ hx)) a
      exact ⟨a', b.trans b', c'.trans c⟩
  obtain ⟨a, b, c⟩ := key pat.reverse s (fun q hq => hp q (List.mem_reverse.1 hq)) hs
  unfold enterFound
  refine ⟨⟨?_, a.2⟩, ⟨?_, b.2.1, b.2.2⟩, c⟩
  · intro n hn
    simp only [List.mem_append, List.mem_reverse] at hn
    rcases hn with hn | hn
    · exact hf n hn
    · exact a.1 n hn
  · intro n hn
    simp only [List.mem_append]
    exact Or.inr (b.1 n hn)

/-- The entry `t` chosen is a candidate, and its result says how to make the name. -/
theorem chosen_ok {env : SearchEnv} {rules : List PatRule} {K ex : List Str} {M : List (Str × FoundRule)}
    {inUse : List Nat} {rec archive : Bool} {name : Str} {t u : TryRule} {pat : List PatDep} {r : PatRule}
    (hu : u ∈ tryList rules inUse rec name (pathLen archive name)) (hk : u.key = t.key) (hud : u.dead = false)
    (hr : rules[t.rule]? = some r) (hp : ∀ q ∈ pat, PatDepOk env rules K q)
    (hw : r.deps ≠ [] → pat.map PatDep.out = (wanted env (stemParts rules name (pathLen archive name) t).1
      (stemParts rules name (pathLen archive name) t).2 r).map asFound) :
    HowToMake env rules K rec (isMember archive name) name (foundOf rules name (pathLen archive name) t pat) ∧
    ∃ dir core, Candidate rules inUse rec (isMember archive name) name t.rule t.target r dir core ∧
      stemParts rules name (pathLen archive name) t = (dir, core) ∧ t.stemlen = dir.length + core.length := by
  obtain ⟨r', tt, dir, core, h1, h2, h3, h4, h5, h6, h7, h8, h9⟩ := tryList_entry hu
  obtain ⟨k1, k2, k3, k4⟩ := stemParts_key rules name (pathLen archive name) u t hk
  rw [k2, hr] at h1
  simp only [Option.some.injEq] at h1
  subst h1
  rw [k1] at h8
  refine ⟨⟨r, tt, dir, core, ?_, ?_, h3, h5, h6, ?_, ?_, ?_, ?_, ?_⟩, dir, core, ⟨hr, k2 ▸ h2, h3, ⟨tt, k3 ▸ h4, h5, h6⟩, h9.1 hud⟩, h8, k4 ▸ h7⟩
  · simpa [foundOf] using hr
  · simpa [foundOf, k3] using h4
  · simp [foundOf, h8]
  · simp [foundOf, hr]
  · simp [foundOf, hr, h8]
  · intro d hd
    simp only [foundOf, List.mem_map] at hd
    obtain ⟨q, hq, rfl⟩ := hd
    exact (hp q hq).1
  · intro hne
    have := hw hne
    rw [h8] at this
    rw [← this]
    rfl

/-- Sorted lists: what comes before the chosen entry. -/
theorem in_pre {ts : List TryRule} {pre post : List TryRule} {t x : TryRule}
    (hs : ts.Pairwise (fun a b => ¬ Before b.stemlen b.rule b.target a.stemlen a.rule a.target))
    (e : ts = pre ++ t :: post) (hx : x ∈ ts)
    (hb : Before x.stemlen x.rule x.target t.stemlen t.rule t.target) : x ∈ pre := by
  rw [e] at hx hs
  rw [List.pairwise_append, List.pairwise_cons] at hs
  rcases List.mem_append.1 hx with h | h
  · exact h
  · rcases List.mem_cons.1 h with rfl | h
    · unfold Before at hb; omega
    · exact absurd hb (hs.2.1.1 x h)

theorem sorted_of_keys {ts ts' : List TryRule} (h : ts'.map TryRule.key = ts.map TryRule.key)
    (hs : ts.Pairwise (fun a b => ¬ Before b.stemlen b.rule b.target a.stemlen a.rule a.target)) :
    ts'.Pairwise (fun a b => ¬ Before b.stemlen b.rule b.target a.stemlen a.rule a.target) := by
  have h1 : (ts.map TryRule.key).Pairwise (fun a b => ¬ Before b.stemlen b.rule b.target a.stemlen a.rule a.target) := by
    rw [List.pairwise_map]; exact hs
  rw [← h, List.pairwise_map] at h1
  exact h1

theorem search_ok {env : SearchEnv} {rules : List PatRule} {K : List Str} {M : List (Str × FoundRule)} :
    ∀ (n : Nat) (inUse : List Nat) (rec archive : Bool) (ex : List Str) (full : Str) (s : SearchState) res s',
      (∀ m ∈ ex, Ready env rules K m) →
      search env rules n inUse rec archive ex full s = some (res, s') → StateOk env rules K M s →
      StateOk env rules K M s' ∧ StateLe s s' ∧
      (∀ f, res = some f → HowToMake env rules K rec (isMember archive (searchName archive full)) (searchName archive full) f ∧
        Chosen env rules inUse rec (isMember archive (searchName archive full)) ex (searchName archive full) s s' f) ∧
      (res = none → NoneFits env rules inUse rec (isMember archive (searchName archive full)) ex (searchName archive full) s s') := by
  intro n
  induction n with
  | zero => intro _ _ _ _ _ _ _ _ _ h; simp [search] at h
  | succ n ih =>
    intro inUse rec archive ex full s res s' hex h hs
    rw [search] at h
    simp only at h
    generalize hname : searchName archive full = name at h ⊢
    generalize hrec' : (fun i nm s => search env rules n (i :: inUse) true false [] nm s) = rec' at h
    have hrecOk : ∀ i, RecOk env rules K M (rec' i) := by
      intro i nm s1 r1 s2 hs1 hr1
      rw [← hrec'] at hr1
      obtain ⟨a, b, c, _⟩ := ih (i :: inUse) true false [] nm s1 r1 s2 (by simp) hr1 hs1
      exact ⟨a, b, fun f hf => (c f hf).1⟩
    have hvalid : ∀ u ∈ tryList rules inUse rec name (pathLen archive name), rules[u.rule]? ≠ none := by
      intro u hu
      obtain ⟨r, _, _, _, h1, _⟩ := tryList_entry hu
      rw [h1]; simp
    have hsorted := tryList_sorted (rules := rules) (inUse := inUse) (rec := rec) (archive := archive) (name := name)
    cases hp1 : runPass env rules rec' false ex name (pathLen archive name)
        (tryList rules inUse rec name (pathLen archive name)) [] s with
    | none => rw [hp1] at h; exact absurd h (by simp)
    | some q =>
      obtain ⟨c1, pat1, ts1, s1⟩ := q
      rw [hp1] at h
      have P1 := runPass_ok hex (fun i hi => hrecOk i) _ _ _ _ _ _ _ hvalid hp1 hs (by simp)
      -- first pass, for candidates that are passed over
      have first_reason : ∀ i j r' dir' core', Candidate rules inUse rec (isMember archive name) name i j r' dir' core' →
          ∀ x : TryRule, x.dead = false → x.rule = i → x.stemlen = dir'.length + core'.length →
          stemParts rules name (pathLen archive name) x = (dir', core') →
          PassedOver env rules name (pathLen archive name) false ex s s1 x →
          env.pathMax < dir'.length + core'.length ∨ (r'.deps ≠ [] ∧ ∃ d ∈ wanted env dir' core' r', ¬ Good env ex s d.name) := by
        intro i j r' dir' core' hc x hxd hxr hxl hxs hpo
        rcases hpo with h | ⟨r2, hr2, h | h | ⟨h1, h2, h3⟩⟩
        · rw [hxd] at h; exact absurd h (by simp)
        · exact absurd h.1 (by simp)
        · left; rw [← hxl]; exact h
        · right
          rw [hxr, hc.rule] at hr2
          simp only [Option.some.injEq] at hr2
          subst hr2
          rw [hxs] at h3
          exact ⟨h1, h3 rfl⟩
      cases c1 with
      | some t =>
        simp only [Option.some.injEq, Prod.mk.injEq] at h
        obtain ⟨rfl, rfl⟩ := h
        obtain ⟨pre, post, r, e1, e2, e3, e4, e5, e6, e7, e8, e9⟩ := P1.some_ t rfl
        have htm : t ∈ tryList rules inUse rec name (pathLen archive name) := by rw [e1]; simp
        obtain ⟨hm, dir, core, hc, hst, hsl⟩ := chosen_ok (K := K) (ex := ex) (M := M) htm rfl e2 e3 P1.pats e6
        obtain ⟨a, b, cc⟩ := enterFound_ok (rec := rec) P1.ok P1.pats (howToMake_ready hm).2.2
        refine ⟨a, P1.le.trans b, ?_, by simp⟩
        intro f hf
        simp only [Option.some.injEq] at hf
        subst hf
        refine ⟨hm, ⟨r, dir, core, hc, ?_, by omega, Or.inl ⟨?_, ?_⟩⟩⟩
        · simp [foundOf, hst]
        · have := e7 rfl
          rw [hst] at this
          exact this
        · intro i j r' dir' core' hc' hb
          obtain ⟨x, hx, hxd, hxr, hxt, hxl, hxs⟩ := tryList_complete hc'
          have hb' : Before x.stemlen x.rule x.target t.stemlen t.rule t.target := by
            rw [hxl, hxr, hxt, hsl]
            exact hb
          have hxp := in_pre hsorted e1 hx hb'
          exact first_reason i j r' dir' core' hc' x hxd hxr hxl hxs (e9 x hxp)
      | none =>
        simp only at h
        have hfirst : ∀ i j r' dir' core', Candidate rules inUse rec (isMember archive name) name i j r' dir' core' →
            env.pathMax < dir'.length + core'.length ∨ (r'.deps ≠ [] ∧ ∃ d ∈ wanted env dir' core' r', ¬ Good env ex s d.name) := by
          intro i j r' dir' core' hc'
          obtain ⟨x, hx, hxd, hxr, hxt, hxl, hxs⟩ := tryList_complete hc'
          exact first_reason i j r' dir' core' hc' x hxd hxr hxl hxs (P1.none_ rfl x hx)
        have hlen : ts1.length = (tryList rules inUse rec name (pathLen archive name)).length := by
          have := congrArg List.length P1.same
          simpa using this
        -- entries of the second pass and of the first
        have partner : ∀ x' ∈ ts1, ∃ (k : Nat) (x : TryRule), (tryList rules inUse rec name (pathLen archive name))[k]? = some x ∧
            ts1[k]? = some x' ∧ x.key = x'.key := by
          intro x' hx'
          obtain ⟨k, hk, rfl⟩ := List.getElem_of_mem hx'
          refine ⟨k, (tryList rules inUse rec name (pathLen archive name))[k], List.getElem?_eq_getElem _, List.getElem?_eq_getElem _, ?_⟩
          have := congrArg (fun l => l[k]?) P1.same
          simp only [List.getElem?_map] at this
          rw [List.getElem?_eq_getElem hk, List.getElem?_eq_getElem (hlen ▸ hk)] at this
          simpa using this.symm
        have partner' : ∀ x ∈ tryList rules inUse rec name (pathLen archive name), ∃ (k : Nat) (x' : TryRule),
            (tryList rules inUse rec name (pathLen archive name))[k]? = some x ∧
            ts1[k]? = some x' ∧ x.key = x'.key := by
          intro x hx
          obtain ⟨k, hk, rfl⟩ := List.getElem_of_mem hx
          refine ⟨k, ts1[k], List.getElem?_eq_getElem _, List.getElem?_eq_getElem _, ?_⟩
          have := congrArg (fun l => l[k]?) P1.same
          simp only [List.getElem?_map] at this
          rw [List.getElem?_eq_getElem hk, List.getElem?_eq_getElem (hlen ▸ hk)] at this
          simpa using this.symm
        have hvalid1 : ∀ u ∈ ts1, rules[u.rule]? ≠ none := by
          intro u hu
          obtain ⟨k, x, hx, _, hk⟩ := partner u hu
          rw [← (stemParts_key rules name 0 x u hk).2.1]
          exact hvalid x (List.mem_of_getElem? hx)
        cases hp2 : runPass env rules rec' true ex name (pathLen archive name) ts1 [] s1 with
        | none => rw [hp2] at h; exact absurd h (by simp)
        | some q =>
          obtain ⟨c2, pat2, ts2, s2⟩ := q
          rw [hp2] at h
          have P2 := runPass_ok hex (fun i hi => hrecOk i) _ _ _ _ _ _ _ hvalid1 hp2 P1.ok (by simp)
          have second_reason : ∀ i j r' dir' core', Candidate rules inUse rec (isMember archive name) name i j r' dir' core' →
              ∀ (k : Nat) (x x' : TryRule), (tryList rules inUse rec name (pathLen archive name))[k]? = some x →
              ts1[k]? = some x' → x.key = x'.key → x.dead = false → x.rule = i → x.stemlen = dir'.length + core'.length →
              stemParts rules name (pathLen archive name) x = (dir', core') →
              PassedOver env rules name (pathLen archive name) true ex s1 s2 x' →
              env.pathMax < dir'.length + core'.length ∨ r'.terminal = true ∨
                ∃ d ∈ wanted env dir' core' r', d.name ∈ s2.impossible := by
            intro i j r' dir' core' hc k x x' hx hx' hk hxd hxr hxl hxs hpo
            obtain ⟨k1, k2, k3, k4⟩ := stemParts_key rules name (pathLen archive name) x x' hk
            have hdm : Doomed env rules name (pathLen archive name) s2 x →
                ∃ d ∈ wanted env dir' core' r', d.name ∈ s2.impossible := by
              rintro ⟨r2, d, hr2, hd, hd'⟩
              rw [hxr, hc.rule] at hr2
              simp only [Option.some.injEq] at hr2
              subst hr2
              rw [hxs] at hd
              exact ⟨d, hd, hd'⟩
            have hdm' : Doomed env rules name (pathLen archive name) s2 x' → Doomed env rules name (pathLen archive name) s2 x := by
              rintro ⟨r2, d, hr2, hd, hd'⟩
              exact ⟨r2, d, by rw [k2]; exact hr2, by rw [k1]; exact hd, hd'⟩
            rcases hpo with h | ⟨r2, hr2, h | h | ⟨h1, h2, h3⟩⟩
            · rcases P1.dead k x x' hx hx' h with h | h
              · rw [hxd] at h; exact absurd h (by simp)
              · exact Or.inr (Or.inr (hdm (h.mono P2.le)))
            · right; left
              rw [← k2, hxr, hc.rule] at hr2
              simp only [Option.some.injEq] at hr2
              subst hr2
              exact h.2
            · left; rw [← hxl, k4]; exact h
            · exact Or.inr (Or.inr (hdm (hdm' (h2 rfl))))
          cases c2 with
          | some t =>
            simp only [Option.some.injEq, Prod.mk.injEq] at h
            obtain ⟨rfl, rfl⟩ := h
            obtain ⟨pre, post, r, e1, e2, e3, e4, e5, e6, e7, e8, e9⟩ := P2.some_ t rfl
            have htm : t ∈ ts1 := by rw [e1]; simp
            obtain ⟨k, u, hu, htk, huk⟩ := partner t htm
            have hud : u.dead = false := by
              cases hh : u.dead with
              | false => rfl
              | true =>
                have := P1.alive k u t hu htk hh
                rw [e2] at this; exact absurd this (by simp)
            obtain ⟨hm, dir, core, hc, hst, hsl⟩ := chosen_ok (K := K) (ex := ex) (M := M) (List.mem_of_getElem? hu) huk hud e3 P2.pats e6
            obtain ⟨a, b, cc⟩ := enterFound_ok (rec := rec) P2.ok P2.pats (howToMake_ready hm).2.2
            refine ⟨a, (P1.le.trans P2.le).trans b, ?_, by simp⟩
            intro f hf
            simp only [Option.some.injEq] at hf
            subst hf
            refine ⟨hm, ⟨r, dir, core, hc, ?_, by omega, Or.inr ⟨e4 rfl, hfirst, ?_⟩⟩⟩
            · simp [foundOf, hst]
            · intro i j r' dir' core' hc' hb
              obtain ⟨x, hx, hxd, hxr, hxt, hxl, hxs⟩ := tryList_complete hc'
              obtain ⟨k, x', hxk, hxk', hkey⟩ := partner' x hx
              obtain ⟨q1, q2, q3, q4⟩ := stemParts_key rules name (pathLen archive name) x x' hkey
              have hb' : Before x'.stemlen x'.rule x'.target t.stemlen t.rule t.target := by
                rw [← q4, ← q2, ← q3, hxl, hxr, hxt, hsl]
                exact hb
              have hxp := in_pre (sorted_of_keys P1.same hsorted) e1 (List.mem_of_getElem? hxk') hb'
              rw [cc]
              exact second_reason i j r' dir' core' hc' k x x' hxk hxk' hkey hxd hxr hxl hxs (e9 x' hxp)
          | none =>
            simp only [Option.some.injEq, Prod.mk.injEq] at h
            obtain ⟨rfl, rfl⟩ := h
            refine ⟨P2.ok, P1.le.trans P2.le, by simp, ?_⟩
            intro _ i j r' dir' core' hc'
            obtain ⟨x, hx, hxd, hxr, hxt, hxl, hxs⟩ := tryList_complete hc'
            obtain ⟨k, x', hxk, hxk', hkey⟩ := partner' x hx
            have h2 := second_reason i j r' dir' core' hc' k x x' hxk hxk' hkey hxd hxr hxl hxs
              (P2.none_ rfl x' (List.mem_of_getElem? hxk'))
            rcases hfirst i j r' dir' core' hc' with h1 | h1
            · exact Or.inl h1
            · rcases h2 with h2 | h2
              · exact Or.inl h2
              · exact Or.inr ⟨h1.1, h1.2, h2⟩

end Remake
