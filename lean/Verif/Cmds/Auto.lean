import Verif.Cmds.Spec
set_option linter.unusedVariables false
set_option linter.unusedSimpArgs false
/-! # Lemmas on automatic variables -/
namespace Remake

/-- The first occurrences, except of the names in `ns`. -/
def firstsOf : List Str → List ADep → List ADep
  | _, [] => []
  | ns, d :: ds => if d.skip || decide (d.name ∈ ns) then firstsOf ns ds else d :: firstsOf (d.name :: ns) ds

/-- The names of those that have come. -/
def namesOf : List ADep → List Str
  | [] => []
  | d :: ds => if d.skip then namesOf ds else d.name :: namesOf ds

theorem mem_namesOf {ds : List ADep} {n : Str} : n ∈ namesOf ds ↔ ∃ d ∈ ds, d.skip = false ∧ d.name = n := by
  induction ds with
  | nil => simp [namesOf]
  | cons d ds ih =>
    rw [namesOf]
    by_cases h : d.skip = true
    · rw [if_pos h, ih]; simp [h]
    · rw [if_neg h]
      simp only [Bool.not_eq_true] at h
      simp only [List.mem_cons, ih, exists_eq_or_imp, h, true_and]
      constructor
      · rintro (e | e)
        · exact .inl e.symm
        · exact .inr e
      · rintro (e | e)
        · exact .inl e.symm
        · exact .inr e

theorem firstsOf_congr {ns ns' : List Str} (ds : List ADep) (a : ∀ n, n ∈ ns ↔ n ∈ ns') : firstsOf ns ds = firstsOf ns' ds := by
  induction ds generalizing ns ns' with
  | nil => rfl
  | cons d ds ih =>
    rw [firstsOf, firstsOf]
    have : decide (d.name ∈ ns) = decide (d.name ∈ ns') := by simp [a]
    rw [this, ih a, ih (ns := d.name :: ns) (ns' := d.name :: ns') (by intro n; simp [a])]

theorem firstsOf_append (ns : List Str) (xs ys : List ADep) :
    firstsOf ns (xs ++ ys) = firstsOf ns xs ++ firstsOf (namesOf xs ++ ns) ys := by
  induction xs generalizing ns with
  | nil => rfl
  | cons d xs ih =>
    rw [List.cons_append, firstsOf, firstsOf, namesOf]
    by_cases h : d.skip = true
    · simp only [h, Bool.true_or, if_true, ih]
    · simp only [Bool.not_eq_true] at h
      simp only [h, Bool.false_or, decide_eq_true_eq, Bool.false_eq_true, if_false]
      split
      · rename_i m
        rw [ih]
        congr 1
        apply firstsOf_congr
        intro n
        simp only [List.mem_append, List.mem_cons]
        constructor
        · rintro (e | e)
          · exact .inl (.inr e)
          · exact .inr e
        · rintro ((e | e) | e)
          · exact .inr (e ▸ m)
          · exact .inl e
          · exact .inr e
      · rw [ih, List.cons_append]
        congr 2
        apply firstsOf_congr
        intro n
        simp only [List.mem_append, List.mem_cons]
        constructor
        · rintro (e | e | e) <;> simp [e]
        · rintro ((e | e) | e) <;> simp [e]

theorem firstsOf_name {ns : List Str} {ds : List ADep} {d : ADep} (a : d ∈ firstsOf ns ds) : d.name ∉ ns ∧ d.skip = false ∧ d ∈ ds := by
  induction ds generalizing ns with
  | nil => simp [firstsOf] at a
  | cons e ds ih =>
    rw [firstsOf] at a
    split at a
    · obtain ⟨h1, h2, h3⟩ := ih a
      exact ⟨h1, h2, by simp [h3]⟩
    · rename_i h
      simp only [Bool.or_eq_true, decide_eq_true_eq, not_or, Bool.not_eq_true] at h
      rcases List.mem_cons.1 a with a | a
      · subst a; exact ⟨h.2, h.1, by simp⟩
      · obtain ⟨h1, h2, h3⟩ := ih a
        simp only [List.mem_cons, not_or] at h1
        exact ⟨h1.2, h2, by simp [h3]⟩

/-- Changing the first one of a name. -/
theorem firstsOf_modify (f : ADep → ADep) (hf : ∀ x, (f x).name = x.name ∧ (f x).skip = x.skip) (n : Str) (ns : List Str)
    (ds : List ADep) (i : Nat) (a : (ds.findIdx? fun x => !x.skip && decide (x.name = n)) = some i) (m : n ∉ ns) :
    firstsOf ns (ds.modify i f) = (firstsOf ns ds).map fun x => if x.name = n then f x else x := by
  induction ds generalizing ns i with
  | nil => simp at a
  | cons d ds ih =>
    rw [List.findIdx?_cons] at a
    by_cases h : (!d.skip && decide (d.name = n)) = true
    · rw [if_pos h] at a
      simp only [Option.some.injEq] at a
      subst a
      simp only [Bool.and_eq_true, Bool.not_eq_true', decide_eq_true_eq] at h
      have e : (d :: ds).modify 0 f = f d :: ds := rfl
      rw [e, firstsOf, firstsOf, (hf d).1, (hf d).2, h.1, h.2]
      simp only [Bool.false_or, m, decide_false, Bool.false_eq_true, if_false, List.map_cons, h.2, if_true]
      congr 1
      symm
      have : (firstsOf (n :: ns) ds).map (fun x => if x.name = n then f x else x) = (firstsOf (n :: ns) ds).map id := by
        apply List.map_congr_left
        intro x hx
        have := (firstsOf_name hx).1
        simp only [List.mem_cons, not_or] at this
        rw [if_neg this.1]; rfl
      rw [this, List.map_id]
    · rw [if_neg h] at a
      cases e : ds.findIdx? fun x => !x.skip && decide (x.name = n) with
      | none => rw [e] at a; cases a
      | some j =>
        rw [e] at a
        simp only [Option.map_some, Option.some.injEq] at a
        subst a
        have e' : (d :: ds).modify (j + 1) f = d :: ds.modify j f := rfl
        rw [e', firstsOf, firstsOf]
        split
        · rw [ih ns j e m]
        · rename_i k
          simp only [Bool.or_eq_true, decide_eq_true_eq, not_or, Bool.not_eq_true] at k
          simp only [Bool.and_eq_true, Bool.not_eq_true', decide_eq_true_eq, not_and] at h
          have hn := h k.1
          rw [List.map_cons, if_neg hn, ih _ j e (by simp only [List.mem_cons, not_or]; exact ⟨fun e => hn e.symm, m⟩)]

/-- All prerequisites of this name are order-only. -/
def allOrder (ds : List ADep) (n : Str) : Bool := ds.all fun d => d.skip || !decide (d.name = n) || d.order

/-- What the loop makes of the first occurrences. -/
def setOrder (ds : List ADep) (d : ADep) : ADep := { d with order := allOrder ds d.name }

theorem allOrder_snoc (ds : List ADep) (d : ADep) (n : Str) :
    allOrder (ds ++ [d]) n = (allOrder ds n && (d.skip || !decide (d.name = n) || d.order)) := by
  simp [allOrder]

/-- The members that stay. -/
def ADep.base (d : ADep) : Str × Bool × Bool × Bool := (d.name, d.second, d.noAuto, d.changed)

theorem namesOf_base {xs ys : List ADep} (a : xs.map ADep.base = ys.map ADep.base) : namesOf xs = namesOf ys := by
  induction xs generalizing ys with
  | nil => cases ys with
    | nil => rfl
    | cons y ys => simp at a
  | cons x xs ih => cases ys with
    | nil => simp at a
    | cons y ys =>
      simp only [List.map_cons, List.cons.injEq] at a
      have b := a.1
      simp only [ADep.base, Prod.mk.injEq] at b
      rw [namesOf, namesOf, ADep.skip, ADep.skip, b.1, b.2.1, b.2.2.1, ih a.2]

theorem findIdx_none {ds : List ADep} {n : Str} (a : (ds.findIdx? fun x => !x.skip && decide (x.name = n)) = none) : n ∉ namesOf ds := by
  rw [mem_namesOf]
  rintro ⟨d, h1, h2, h3⟩
  have := List.findIdx?_eq_none_iff.1 a d h1
  simp [h2, h3] at this

theorem findIdx_some {ds : List ADep} {n : Str} {i : Nat} (a : (ds.findIdx? fun x => !x.skip && decide (x.name = n)) = some i) :
    n ∈ namesOf ds ∧ ∃ d, ds[i]? = some d ∧ d.name = n ∧ d ∈ firstsOf [] ds := by
  have gen : ∀ (ds : List ADep) (ns : List Str) (i : Nat), n ∉ ns → (ds.findIdx? fun x => !x.skip && decide (x.name = n)) = some i →
      n ∈ namesOf ds ∧ ∃ d, ds[i]? = some d ∧ d.name = n ∧ d ∈ firstsOf ns ds := by
    intro ds
    induction ds with
    | nil => intro ns i _ a; simp at a
    | cons d ds ih =>
      intro ns i m a
      rw [List.findIdx?_cons] at a
      rw [namesOf, firstsOf]
      by_cases h : (!d.skip && decide (d.name = n)) = true
      · rw [if_pos h] at a
        simp only [Option.some.injEq] at a
        subst a
        simp only [Bool.and_eq_true, Bool.not_eq_true', decide_eq_true_eq] at h
        have hm : d.name ∉ ns := by rw [h.2]; exact m
        simp [h.1, h.2, m]
      · rw [if_neg h] at a
        cases e : ds.findIdx? fun x => !x.skip && decide (x.name = n) with
        | none => rw [e] at a; cases a
        | some j =>
          rw [e] at a
          simp only [Option.map_some, Option.some.injEq] at a
          subst a
          simp only [Bool.and_eq_true, Bool.not_eq_true', decide_eq_true_eq, not_and] at h
          refine ⟨?_, ?_⟩
          · have := (ih ns j m e).1
            split
            · exact this
            · simp [this]
          · split
            · obtain ⟨x, h1, h2⟩ := (ih ns j m e).2
              exact ⟨x, by simpa using h1, h2⟩
            · rename_i k
              simp only [Bool.or_eq_true, decide_eq_true_eq, not_or, Bool.not_eq_true] at k
              obtain ⟨x, h1, h2, h3⟩ := (ih (d.name :: ns) j (by
                simp only [List.mem_cons, not_or]; exact ⟨fun e => h k.1 e.symm, m⟩) e).2
              exact ⟨x, by simpa using h1, h2, by simp [h3]⟩
  exact gen ds [] i (by simp) a

theorem upgrade_inv (p seen rest : List ADep) (b : seen.map ADep.base = p.map ADep.base)
    (f : firstsOf [] seen = (firstsOf [] p).map (setOrder p)) :
    (upgradeDeps seen rest).map ADep.base = (p ++ rest).map ADep.base ∧
    firstsOf [] (upgradeDeps seen rest) = (firstsOf [] (p ++ rest)).map (setOrder (p ++ rest)) := by
  induction rest generalizing p seen with
  | nil => simp only [upgradeDeps, List.append_nil]; exact ⟨b, f⟩
  | cons d rest ih =>
    have step : ∀ seen', seen'.map ADep.base = (p ++ [d]).map ADep.base →
        firstsOf [] seen' = (firstsOf [] (p ++ [d])).map (setOrder (p ++ [d])) →
        (upgradeDeps seen' rest).map ADep.base = (p ++ d :: rest).map ADep.base ∧
        firstsOf [] (upgradeDeps seen' rest) = (firstsOf [] (p ++ d :: rest)).map (setOrder (p ++ d :: rest)) := by
      intro seen' h1 h2
      have := ih (p ++ [d]) seen' h1 h2
      rw [List.append_assoc, List.singleton_append] at this
      exact this
    have nm := namesOf_base b
    rw [upgradeDeps]
    by_cases hs : d.skip = true
    · rw [if_pos hs]
      refine step _ (by simp [b]) ?_
      have one : ∀ ns, firstsOf ns [d] = [] := by intro ns; simp [firstsOf, hs]
      rw [firstsOf_append, firstsOf_append, one, one, List.append_nil, List.append_nil, f]
      apply List.map_congr_left
      intro x hx
      simp only [setOrder, allOrder_snoc, hs, Bool.true_or, Bool.and_true]
    · rw [if_neg hs]
      simp only [Bool.not_eq_true] at hs
      cases e : seen.findIdx? fun x => !x.skip && decide (x.name = d.name) with
      | none =>
        refine step _ (by simp [b]) ?_
        have n1 := findIdx_none e
        have one : ∀ ns, d.name ∉ ns → firstsOf ns [d] = [d] := by intro ns h; simp [firstsOf, hs, h]
        rw [firstsOf_append, firstsOf_append, one _ (by simpa using n1), one _ (by rw [← nm]; simpa using n1), f, List.map_append]
        congr 1
        · apply List.map_congr_left
          intro x hx
          have := firstsOf_name hx
          have xn : d.name ≠ x.name := by
            intro h
            apply n1
            rw [nm, h, mem_namesOf]
            exact ⟨x, this.2.2, this.2.1, rfl⟩
          simp [setOrder, allOrder_snoc, hs, xn]
        · have : allOrder p d.name = true := by
            rw [allOrder, List.all_eq_true]
            intro y hy
            by_cases h : y.skip = true
            · simp [h]
            · have : y.name ≠ d.name := by
                intro h'
                apply n1
                rw [nm, mem_namesOf]
                exact ⟨y, hy, by simpa using h, h'⟩
              simp [this]
          simp [setOrder, allOrder_snoc, hs, this]
      | some i =>
        obtain ⟨n1, x, g1, g2, g3⟩ := findIdx_some e
        have one : ∀ (y : ADep) ns, y.skip = false → y.name = d.name → d.name ∈ ns → firstsOf ns [y] = [] := by
          intro y ns h1 h2 h; simp [firstsOf, h1, h2, h]
        have xo : x.order = allOrder p d.name := by
          rw [f, List.mem_map] at g3
          obtain ⟨y, hy, e⟩ := g3
          rw [← e] at g2 ⊢
          simp only [setOrder] at g2 ⊢
          rw [g2]
        simp only [g1, Option.map_some, Option.some.injEq]
        have pd : firstsOf [] (p ++ [d]) = firstsOf [] p := by
          rw [firstsOf_append, one d _ hs rfl (by rw [← nm]; simp [n1]), List.append_nil]
        by_cases ho : x.order = d.order
        · rw [if_pos ho]
          refine step _ (by simp [b]) ?_
          rw [pd, firstsOf_append, one d _ hs rfl (by simp [n1]), List.append_nil, f]
          apply List.map_congr_left
          intro y hy
          by_cases yn : d.name = y.name
          · simp [setOrder, allOrder_snoc, hs, ← yn, ← xo, ho]
          · simp [setOrder, allOrder_snoc, hs, yn]
        · rw [if_neg ho]
          refine step _ ?_ ?_
          · rw [List.map_append, List.map_append, ← b]
            congr 1
            apply List.ext_getElem?
            intro j
            rw [List.getElem?_map, List.getElem?_map, List.getElem?_modify]
            cases seen[j]? with
            | none => rfl
            | some z => simp only [Option.map_some, Option.some.injEq]; split <;> rfl
          · have nmm : namesOf (seen.modify i fun x => { x with order := false }) = namesOf seen := by
              apply namesOf_base
              apply List.ext_getElem?
              intro j
              rw [List.getElem?_map, List.getElem?_map, List.getElem?_modify]
              cases seen[j]? with
              | none => rfl
              | some z => simp only [Option.map_some, Option.some.injEq]; split <;> rfl
            rw [pd, firstsOf_append, nmm, one { d with order := false } _ hs rfl (by simp [n1]), List.append_nil,
              firstsOf_modify (fun x => { x with order := false }) (fun x => ⟨rfl, rfl⟩) d.name [] seen i e (by simp), f, List.map_map]
            apply List.map_congr_left
            intro y hy
            have o2 : (allOrder p d.name && d.order) = false := by
              rw [← xo]
              cases h1 : x.order <;> cases h2 : d.order <;> simp_all
            by_cases yn : d.name = y.name
            · simp [setOrder, allOrder_snoc, hs, ← yn, o2]
            · have yn' : ¬ y.name = d.name := fun h => yn h.symm
              simp [setOrder, allOrder_snoc, hs, yn, yn']

theorem upgrade_firsts (ds : List ADep) : firstsOf [] (upgradeDeps [] ds) = (firstsOf [] ds).map (setOrder ds) :=
  (upgrade_inv [] [] ds rfl rfl).2

theorem upgrade_base (ds : List ADep) : (upgradeDeps [] ds).map ADep.base = ds.map ADep.base :=
  (upgrade_inv [] [] ds rfl rfl).1

/-! ## Listing -/

/-- The entries for a list of prerequisites. -/
def entries (ds : List ADep) : Str := ds.flatMap fun d => shownName d.name ++ [' ']

theorem listDeps_eq (always : Bool) (seen rest : List ADep) (b : AutoBufs) :
    listDeps always seen rest b =
      ⟨b.caret ++ entries ((firstsOf (namesOf seen) rest).filter fun d => !d.order),
       b.qmark ++ entries ((firstsOf (namesOf seen) rest).filter fun d => !d.order && (d.changed || always)),
       b.bar ++ entries ((firstsOf (namesOf seen) rest).filter fun d => d.order)⟩ := by
  induction rest generalizing seen b with
  | nil => simp [listDeps, firstsOf, entries]
  | cons d rest ih =>
    have hm : (seen.any fun x => !x.skip && decide (x.name = d.name)) = decide (d.name ∈ namesOf seen) := by
      rw [Bool.eq_iff_iff]
      simp only [List.any_eq_true, Bool.and_eq_true, Bool.not_eq_true', decide_eq_true_eq, mem_namesOf]
    rw [listDeps, firstsOf, hm]
    have nn : ∀ n, n ∈ namesOf (seen ++ [d]) ↔ n ∈ namesOf seen ∨ (d.skip = false ∧ d.name = n) := by
      intro n
      simp only [mem_namesOf, List.mem_append, List.mem_singleton]
      constructor
      · rintro ⟨x, h | h, h2⟩
        · exact .inl ⟨x, h, h2⟩
        · subst h; exact .inr h2
      · rintro (⟨x, h, h2⟩ | h2)
        · exact ⟨x, .inl h, h2⟩
        · exact ⟨d, .inr rfl, h2⟩
    by_cases h : (d.skip || decide (d.name ∈ namesOf seen)) = true
    · rw [if_pos h, if_pos h, ih]
      rw [firstsOf_congr (ns' := namesOf seen) rest]
      intro n
      rw [nn]
      simp only [Bool.or_eq_true, decide_eq_true_eq] at h
      constructor
      · rintro (e | ⟨e1, e2⟩)
        · exact e
        · rcases h with h | h
          · rw [h] at e1; cases e1
          · exact e2 ▸ h
      · exact .inl
    · rw [if_neg h, if_neg h]
      simp only [Bool.or_eq_true, decide_eq_true_eq, not_or, Bool.not_eq_true] at h
      show listDeps always (seen ++ [d]) rest _ = _
      rw [ih, firstsOf_congr (ns' := d.name :: namesOf seen) rest (by
        intro n
        rw [nn, List.mem_cons]
        constructor
        · rintro (e | ⟨_, e⟩)
          · exact .inr e
          · exact .inl e.symm
        · rintro (e | e)
          · exact .inr ⟨h.1, e.symm⟩
          · exact .inl e)]
      cases h1 : d.order <;> cases h2 : (d.changed || always) <;> simp [h1, h2, entries]

theorem killSpace_entries (ds : List ADep) : killSpace (entries ds) = Spec.spacedOut (ds.map fun d => shownName d.name) := by
  induction ds with
  | nil => rfl
  | cons d ds ih =>
    cases ds with
    | nil => simp [entries, killSpace, Spec.spacedOut]
    | cons e ds =>
      rw [List.map_cons, List.map_cons, Spec.spacedOut]
      · rw [← List.map_cons (f := fun d : ADep => shownName d.name), ← ih]
        simp only [entries, killSpace, List.flatMap_cons, List.append_assoc]
        rw [List.dropLast_append_of_ne_nil (by simp)]
        congr 1
        rw [List.singleton_append, List.dropLast_cons_of_ne_nil (by simp)]
      · simp

theorem shownName_eq (n : Str) : shownName n = Spec.listed n := by
  simp only [shownName, Spec.listed, arParseName]

theorem plus_spec (ds : List ADep) :
    plusValue ds = Spec.spacedOut (((Spec.eligible ds).filter fun d => !d.order).map fun d => Spec.listed d.name) := by
  have : (ds.filter fun d => !d.order && !d.skip) = (Spec.eligible ds).filter fun d => !d.order := by
    rw [Spec.eligible, List.filter_filter]
    congr 1
    funext d
    simp [ADep.skip]
  rw [plusValue, this]
  have e := killSpace_entries ((Spec.eligible ds).filter fun d => !d.order)
  rw [entries] at e
  rw [e]
  simp only [shownName_eq]

theorem eligible_cons (d : ADep) (ds : List ADep) :
    Spec.eligible (d :: ds) = if d.skip then Spec.eligible ds else d :: Spec.eligible ds := by
  rcases d with ⟨n, o, s, a, c⟩
  cases s <;> cases a <;> simp [Spec.eligible, ADep.skip]

/-- The first occurrences are those of the specification. -/
theorem firstsOf_once (ns : List Str) (ds : List ADep) :
    (firstsOf ns ds).map (·.name) = (Spec.once ((Spec.eligible ds).map (·.name))).filter fun n => decide (n ∉ ns) := by
  induction ds generalizing ns with
  | nil => rfl
  | cons d ds ih =>
    have el := eligible_cons d ds
    rw [firstsOf, el]
    by_cases h : d.skip = true
    · simp only [h, Bool.true_or, if_true]
      exact ih ns
    · simp only [Bool.not_eq_true] at h
      simp only [h, Bool.false_or, decide_eq_true_eq, Bool.false_eq_true, if_false, List.map_cons, Spec.once, List.filter_cons]
      by_cases m : d.name ∈ ns
      · simp only [m, if_true, not_true_eq_false, decide_false, Bool.false_eq_true, if_false]
        rw [ih, List.filter_filter]
        apply List.filter_congr
        intro x _
        by_cases k : x ∈ ns
        · simp [k]
        · have : x ≠ d.name := fun e => k (e ▸ m)
          simp [k, this]
      · simp only [m, if_false, not_false_eq_true, decide_true, if_true, List.map_cons]
        rw [ih, List.filter_filter]
        congr 1
        apply List.filter_congr
        intro x _
        simp [Bool.and_comm]

theorem firstsOf_find (ns : List Str) (ds : List ADep) (d : ADep) (a : d ∈ firstsOf ns ds) :
    (Spec.eligible ds).find? (fun x => decide (x.name = d.name)) = some d := by
  induction ds generalizing ns with
  | nil => simp [firstsOf] at a
  | cons e ds ih =>
    have el := eligible_cons e ds
    rw [firstsOf] at a
    rw [el]
    by_cases h : e.skip = true
    · simp only [h, Bool.true_or, if_true] at a ⊢
      exact ih ns a
    · simp only [Bool.not_eq_true] at h
      simp only [h, Bool.false_or, decide_eq_true_eq, Bool.false_eq_true, if_false] at a ⊢
      split at a
      · rename_i m
        have := (firstsOf_name a).1
        rw [List.find?_cons]
        have ne : e.name ≠ d.name := fun x => this (x ▸ m)
        simp only [ne, decide_false]
        exact ih ns a
      · rcases List.mem_cons.1 a with a | a
        · subst a; simp
        · have := (firstsOf_name a).1
          simp only [List.mem_cons, not_or] at this
          have ne : e.name ≠ d.name := fun x => this.1 x.symm
          rw [List.find?_cons]
          simp only [ne, decide_false]
          exact ih _ a

theorem isChanged_first {ds : List ADep} {d : ADep} (a : d ∈ firstsOf [] ds) : Spec.isChanged ds d.name = d.changed := by
  rw [Spec.isChanged, firstsOf_find [] ds d a]; rfl

theorem allOrder_spec (ds : List ADep) (n : Str) : allOrder ds n = !Spec.isNormal ds n := by
  rw [Bool.eq_iff_iff]
  simp only [allOrder, Spec.isNormal, Spec.eligible, List.all_eq_true, Bool.not_eq_true', List.any_eq_false, List.mem_filter,
    ADep.skip, Bool.or_eq_true, Bool.and_eq_true, decide_eq_true_eq, not_and]
  constructor
  · intro a x hx e o
    have := a x hx.1
    simp [e] at this
    rcases this with h | h
    · rcases h with h | h <;> simp [h] at hx
    · rw [o] at h; cases h
  · intro a x hx
    have := a x
    cases h1 : x.second <;> cases h2 : x.noAuto <;> simp [h1, h2]
    by_cases e : x.name = n
    · right
      have := this ⟨hx, by simp [h1, h2]⟩ e
      simpa using this
    · left; exact e

/-- Listing some of the first occurrences. -/
theorem entries_filter (ds : List ADep) (q : ADep → Bool) (r : Str → Bool) (a : ∀ d ∈ firstsOf [] ds, q (setOrder ds d) = r d.name) :
    killSpace (entries (((firstsOf [] ds).map (setOrder ds)).filter q)) =
      Spec.spacedOut (((Spec.once ((Spec.eligible ds).map (·.name))).filter r).map Spec.listed) := by
  have o := firstsOf_once [] ds
  simp only [List.not_mem_nil, not_false_eq_true, decide_true] at o
  rw [List.filter_eq_self.2 (by simp)] at o
  rw [killSpace_entries, ← o]
  congr 1
  generalize firstsOf [] ds = l at a
  induction l with
  | nil => rfl
  | cons d l ih =>
    have := ih fun x hx => a x (by simp [hx])
    have h := a d (by simp)
    simp only [List.map_cons, List.filter_cons, h]
    split
    · simp only [List.map_cons, this]
      rw [shownName_eq]; rfl
    · exact this

theorem lists_spec (always : Bool) (ds : List ADep) :
    let names := Spec.once ((Spec.eligible ds).map (·.name))
    let v := setListVars always ds
    v.caret = Spec.spacedOut ((names.filter (Spec.isNormal ds)).map Spec.listed) ∧
    v.qmark = Spec.spacedOut ((names.filter fun n => Spec.isNormal ds n && (Spec.isChanged ds n || always)).map Spec.listed) ∧
    v.bar = Spec.spacedOut ((names.filter fun n => !Spec.isNormal ds n).map Spec.listed) := by
  simp only [setListVars]
  rw [listDeps_eq]
  simp only [List.nil_append, namesOf, upgrade_firsts]
  refine ⟨entries_filter ds _ _ fun d hd => ?_, entries_filter ds _ _ fun d hd => ?_, entries_filter ds _ _ fun d hd => ?_⟩
  · simp [setOrder, allOrder_spec]
  · simp [setOrder, allOrder_spec, isChanged_first hd]
  · simp [setOrder, allOrder_spec]

/-! ## Room -/

theorem shownName_le (n : Str) : (shownName n).length ≤ n.length := by
  simp only [shownName]
  split
  · have := dropWhile_length_le (· ≠ '(') n
    simp only [List.length_dropLast, List.length_drop]
    omega
  · exact Nat.le_refl _

theorem entries_length (ds : List ADep) : (entries ds).length = (ds.map fun d => (shownName d.name).length + 1).sum := by
  induction ds with
  | nil => rfl
  | cons d ds ih =>
    rw [entries] at ih
    simp [entries, ih]; omega

/-- A sum over different names, each of which is that of some element of the list. -/
theorem sum_names (w : Str → Nat) (ns : List Str) (nd : ns.Nodup) (ds : List ADep) (a : ∀ n ∈ ns, ∃ d ∈ ds, d.name = n) :
    (ns.map w).sum ≤ (ds.map fun d => w d.name).sum := by
  induction ds generalizing ns with
  | nil =>
    cases ns with
    | nil => simp
    | cons n ns => obtain ⟨d, h, _⟩ := a n (by simp); cases h
  | cons d ds ih =>
    by_cases h : d.name ∈ ns
    · have p := List.perm_cons_erase h
      have e : (ns.map w).sum = w d.name + ((ns.erase d.name).map w).sum := by
        rw [(p.map w).sum_nat]; simp
      have := ih (ns.erase d.name) (nd.erase _) (by
        intro n hn
        have h2 := (List.Nodup.mem_erase_iff nd).1 hn
        obtain ⟨x, hx, e'⟩ := a n h2.2
        rcases List.mem_cons.1 hx with hx | hx
        · subst hx; exact absurd e'.symm h2.1
        · exact ⟨x, hx, e'⟩)
      simp only [List.map_cons, List.sum_cons]
      omega
    · have := ih ns nd (by
        intro n hn
        obtain ⟨x, hx, e⟩ := a n hn
        rcases List.mem_cons.1 hx with hx | hx
        · subst hx; exact absurd (e ▸ hn) h
        · exact ⟨x, hx, e⟩)
      simp only [List.map_cons, List.sum_cons]
      omega

theorem once_nodup (ns : List Str) : (Spec.once ns).Nodup := by
  induction ns with
  | nil => simp [Spec.once]
  | cons n ns ih =>
    rw [Spec.once, List.nodup_cons]
    exact ⟨by simp, ih.filter _⟩

theorem firsts_nodup (ds : List ADep) : ((firstsOf [] ds).map (·.name)).Nodup := by
  rw [firstsOf_once]
  exact (once_nodup _).filter _

/-- The sizes of entries that are listed only once. -/
theorem entries_fit (ds ds' : List ADep) (q : ADep → Bool)
    (a : ∀ d ∈ firstsOf [] ds, q (setOrder ds d) = true → ∃ x ∈ ds', x.name = d.name) :
    (entries (((firstsOf [] ds).map (setOrder ds)).filter q)).length ≤ (ds'.map fun d => (shownName d.name).length + 1).sum := by
  rw [entries_length]
  have nd : ((((firstsOf [] ds).map (setOrder ds)).filter q).map (·.name)).Nodup := by
    refine List.Nodup.sublist (List.Sublist.map _ List.filter_sublist) ?_
    rw [List.map_map]
    exact firsts_nodup ds
  have := sum_names (fun n => (shownName n).length + 1) _ nd ds' (by
    intro n hn
    simp only [List.mem_map, List.mem_filter] at hn
    obtain ⟨x, ⟨⟨d, hd, e⟩, hq⟩, hx⟩ := hn
    subst e
    obtain ⟨y, hy, e⟩ := a d hd hq
    exact ⟨y, hy, e.trans hx⟩)
  rw [List.map_map] at this
  exact this

theorem sum_le_sum (ds : List ADep) (f g : ADep → Nat) (a : ∀ d, f d ≤ g d) : (ds.map f).sum ≤ (ds.map g).sum := by
  induction ds with
  | nil => simp
  | cons d ds ih => simp only [List.map_cons, List.sum_cons]; have := a d; omega

theorem sum_filter (ds : List ADep) (f : ADep → Nat) (p : ADep → Bool) :
    (ds.map f).sum = ((ds.filter p).map f).sum + ((ds.filter fun d => !p d).map f).sum := by
  induction ds with
  | nil => rfl
  | cons d ds ih =>
    simp only [List.map_cons, List.sum_cons, List.filter_cons]
    cases p d <;> simp [ih] <;> omega

theorem normal_exists {ds : List ADep} {n : Str} (a : Spec.isNormal ds n = true) :
    ∃ x ∈ ds.filter (fun d => !d.order && !d.skip), x.name = n := by
  simp only [Spec.isNormal, Spec.eligible, List.any_eq_true, List.mem_filter, Bool.and_eq_true, decide_eq_true_eq,
    Bool.not_eq_true'] at a
  obtain ⟨x, ⟨h1, h2⟩, h3, h4⟩ := a
  exact ⟨x, by simp [h1, h2, h4, ADep.skip], h3⟩

theorem foldl_sum (ds : List ADep) (k : Nat) :
    ds.foldl (fun n d => n + (shownName d.name).length + 1) k = k + (ds.map fun d => (shownName d.name).length + 1).sum := by
  induction ds generalizing k with
  | nil => rfl
  | cons d ds ih => simp only [List.foldl_cons, ih, List.map_cons, List.sum_cons]; omega

/-- Prerequisites of the same name have the same `changed`. -/
def sameChanged (ds : List ADep) : Prop := ∀ d ∈ ds, ∀ e ∈ ds, d.name = e.name → d.changed = e.changed

theorem buffers_fit (p b q : Nat) (always : Bool) (ds : List ADep) (h : sameChanged ds) :
    setListVarsIn p b q always ds = some (setListVars always ds) := by
  simp only [setListVarsIn]
  rw [listDeps_eq]
  simp only [List.nil_append, namesOf, upgrade_firsts, foldl_sum, Nat.zero_add]
  have le := sum_le_sum (ds.filter fun d => !d.order && !d.skip) (fun d => (shownName d.name).length + 1) (fun d => d.name.length + 1)
    fun d => by have := shownName_le d.name; omega
  have pl : ((ds.filter fun d => !d.order && !d.skip).map fun d => d.name.length + 1).sum ≤ plusLen ds := by
    rw [plusLen]; omega
  rw [if_pos]
  refine ⟨by omega, ?_, ?_, ?_⟩
  · have := entries_fit ds (ds.filter fun d => !d.order && !d.skip) (fun d => !d.order) (by
      intro d hd hq
      simp only [setOrder, allOrder_spec, Bool.not_not] at hq
      exact normal_exists hq)
    omega
  · have := entries_fit ds (ds.filter fun d => d.order && !d.skip) (fun d => d.order) (by
      intro d hd hq
      simp only [setOrder, allOrder_spec] at hq
      obtain ⟨_, h2, h3⟩ := firstsOf_name hd
      refine ⟨d, ?_, rfl⟩
      simp only [List.mem_filter, h3, h2, Bool.not_false, Bool.and_true, true_and]
      cases o : d.order
      · have : Spec.isNormal ds d.name = true := by
          simp only [ADep.skip, Bool.or_eq_false_iff] at h2
          simp only [Spec.isNormal, Spec.eligible, List.any_eq_true, List.mem_filter]
          exact ⟨d, ⟨h3, by simp [h2]⟩, by simp [o]⟩
        rw [this] at hq; cases hq
      · rfl)
    have l2 := sum_le_sum (ds.filter fun d => d.order && !d.skip) (fun d => (shownName d.name).length + 1) (fun d => d.name.length + 1)
      fun d => by have := shownName_le d.name; omega
    have : ((ds.filter fun d => d.order && !d.skip).map fun d => d.name.length + 1).sum ≤ barLen ds := by
      rw [barLen]; omega
    omega
  · have := entries_fit ds ((ds.filter fun d => !d.order && !d.skip).filter fun d => d.changed || always)
      (fun d => !d.order && (d.changed || always)) (by
      intro d hd hq
      simp only [setOrder, allOrder_spec, Bool.not_not, Bool.and_eq_true] at hq
      obtain ⟨x, h1, h2⟩ := normal_exists hq.1
      refine ⟨x, ?_, h2⟩
      rw [List.mem_filter]
      refine ⟨h1, ?_⟩
      rw [h x (List.mem_filter.1 h1).1 d (firstsOf_name hd).2.2 h2]
      exact hq.2)
    have sf := sum_filter (ds.filter fun d => !d.order && !d.skip) (fun d => (shownName d.name).length + 1) (fun d => d.changed || always)
    have fe : (ds.filter fun d => !d.order && !d.skip && !(d.changed || always)) =
        (ds.filter fun d => !d.order && !d.skip).filter fun d => !(d.changed || always) := by
      rw [List.filter_filter]; congr 1; funext d; rw [Bool.and_comm]
    rw [qmarkLen, fe]
    omega

end Remake
