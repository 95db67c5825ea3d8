import Verif.Files.Names
/-! Lemmas about merging of rules. -/
set_option linter.unusedSimpArgs false
namespace Remake
open Spec

/-! ## What is seen of the table -/

/-- A prerequisite with its name normalised. -/
def normReq (d : PreReq) : PreReq := { d with name := lookupName d.name }

theorem normReq_idem (d : PreReq) : normReq (normReq d) = normReq d := by
  simp [normReq, lookupName_idem]

/-- What matters of a record: prerequisites up to the spelling of their names, the recipe, and
whether it is a target. -/
structure FCore where
  deps : List PreReq
  cmds : Option Nat
  isTarget : Bool
deriving DecidableEq

@[inherit_doc FCore]
def FEntry.core (f : FEntry) : FCore := ⟨f.deps.map normReq, f.cmds, f.isTarget⟩

/-- A name that is not in the table counts as a file that is not a target. -/
def slotAt (db : FileDb) (n : Str) : FSlot := (db n).getD ⟨[{}], false⟩

/-- The records of a name. -/
def view (db : FileDb) (n : Str) : Bool × List FCore :=
  ((slotAt db n).double, (slotAt db n).entries.map FEntry.core)

theorem slotAt_set_self (db : FileDb) (n : Str) (s : FSlot) : slotAt (db.set n s) n = s := by
  simp [slotAt, FileDb.set]

theorem slotAt_set_ne (db : FileDb) {n m : Str} (s : FSlot) (h : n ≠ m) :
    slotAt (db.set m s) n = slotAt db n := by
  simp [slotAt, FileDb.set, h]

/-- Entering a file does not change another name, nor a name that has no double-colon rules. -/
theorem slotAt_enterFile (db : FileDb) (n m : Str) (h : n ≠ m ∨ (slotAt db n).double = false) :
    slotAt (enterFile db m) n = slotAt db n := by
  by_cases hnm : n = m
  · subst hnm
    replace h : (slotAt db n).double = false := by simpa using h
    unfold enterFile
    cases hs : db n with
    | none => simp only; rw [slotAt_set_self]; simp [slotAt, hs]
    | some s =>
      simp [slotAt, hs] at h
      simp [h]
  · unfold enterFile
    split
    · exact slotAt_set_ne _ _ hnm
    · split
      · exact slotAt_set_ne _ _ hnm
      · rfl

/-- The names entered are either found or the ones written. -/
theorem slotAt_enterPrereqs (n : Str) : ∀ (ds : List PreReq) (db : FileDb),
    (lookupName n = n ∨ (slotAt db n).double = false) →
    slotAt (enterPrereqs db ds).1 n = slotAt db n := by
  intro ds
  induction ds with
  | nil => intro db _; rfl
  | cons d ds ih =>
    intro db h
    unfold enterPrereqs
    simp only
    cases hl : lookupFile db d.name with
    | some m => simp only; exact ih db h
    | none =>
      simp only
      have h1 : slotAt (enterFile db d.name) n = slotAt db n := by
        apply slotAt_enterFile
        by_cases hnm : n = d.name
        · right
          rcases h with h | h
          · have : db d.name = none := by
              unfold lookupFile at hl
              rw [← hnm, h] at hl
              cases hd : db n with
              | none => rw [← hnm, hd]
              | some s => simp [hd] at hl
            simp [slotAt, hnm, this]
          · exact h
        · exact .inl hnm
      rw [ih _ (by rw [h1]; exact h), h1]

theorem enterPrereqs_norm : ∀ (ds : List PreReq) (db : FileDb),
    (enterPrereqs db ds).2.map normReq = ds.map normReq := by
  intro ds
  induction ds with
  | nil => intro db; rfl
  | cons d ds ih =>
    intro db
    unfold enterPrereqs
    simp only [List.map_cons, ih]
    congr 1
    unfold lookupFile
    by_cases h : (db (lookupName d.name)).isSome
    · simp [h, normReq, lookupName_idem]
    · simp [h, normReq]

theorem enterPrereqs_nil {ds : List PreReq} {db : FileDb} : (enterPrereqs db ds).2 = [] ↔ ds = [] := by
  cases ds <;> simp [enterPrereqs]

/-! ## The abstract machine -/

/-- What a rule contributes to a target: its prerequisites (for that target). -/
def contribution (r : FRule) (n : Str) : List PreReq :=
  if targetMatches r.pattern n then
    match targetStem r.pattern n with
    | some st => stemPrereqs st r.deps
    | none => r.deps
  else []

/-- A mention of a target by a rule. -/
structure Ment where
  double : Bool
  deps : List PreReq
  cmds : Option Nat

/-- The prerequisites after a mention. -/
def mergeReqs (old this : List PreReq) (cmds : Bool) : List PreReq :=
  if cmds then this ++ old else old ++ this

/-- A mention in a single-colon rule. -/
def coreSingle (n : Str) (m : Ment) (c : FCore) : FCore :=
  { deps := mergeReqs (if n = dotSuffixes ∧ m.deps = [] then [] else c.deps) m.deps m.cmds.isSome
    cmds := if m.cmds.isSome then m.cmds
      else if n = dotDefault ∧ m.deps = [] ∧ m.cmds = none then none else c.cmds
    isTarget := true }

/-- A mention in a double-colon rule. -/
def coreDouble (m : Ment) (c : FCore) : FCore :=
  { deps := mergeReqs c.deps m.deps m.cmds.isSome, cmds := m.cmds, isTarget := true }

/-- A record of a file that is only known by name. -/
def emptyCore : FCore := ⟨[], none, false⟩

/-- The records of a name after a mention; `none` is a fatal error. -/
def viewStep (n : Str) (v : Bool × List FCore) (m : Ment) : Option (Bool × List FCore) :=
  if m.double then
    if v.1 then some (true, v.2 ++ [coreDouble m emptyCore])
    else if v.2.any (·.isTarget) then none
    else some (true, v.2.dropLast ++ [coreDouble m (v.2.getLast?.getD emptyCore)])
  else
    if v.1 then none
    else some (false, [coreSingle n m (v.2.getLast?.getD emptyCore)])

/-- All mentions. -/
def viewRun (n : Str) : Bool × List FCore → List Ment → Option (Bool × List FCore)
  | v, [] => some v
  | v, m :: ms => (viewStep n v m).bind fun v' => viewRun n v' ms

theorem viewRun_append (n : Str) (ms ms' : List Ment) : ∀ v,
    viewRun n v (ms ++ ms') = (viewRun n v ms).bind fun v' => viewRun n v' ms' := by
  induction ms with
  | nil => intro v; rfl
  | cons m ms ih =>
    intro v
    simp only [List.cons_append, viewRun]
    cases viewStep n v m with
    | none => rfl
    | some v' => simpa using ih v'

/-- The mention of `n` by a rule. -/
def mentOf (r : FRule) (n : Str) : Ment :=
  ⟨r.double, (contribution r n).map normReq, r.cmds⟩

/-- A rule that is not a pattern rule. -/
def FRule.explicit (r : FRule) : Bool := !((r.targets.head?.map isPatternName).getD false)

/-- All mentions of `n` in a list of rules. -/
def ments (n : Str) (rs : List FRule) : List Ment :=
  rs.flatMap fun r =>
    if r.explicit then List.replicate ((r.targets.map plainName).count n) (mentOf r n) else []

/-! ## The table follows the abstract machine -/

theorem map_getLast? {α β : Type} (f : α → β) (l : List α) :
    (l.map f).getLast? = l.getLast?.map f := by
  simp

theorem core_mergeDeps (old this this' : List PreReq) (c : Bool)
    (h : this.map normReq = this') :
    (mergeDeps old this c).map normReq = mergeReqs (old.map normReq) this' c := by
  subst h
  unfold mergeDeps mergeReqs
  by_cases h1 : this = []
  · subst h1; cases c <;> simp
  · by_cases h2 : old = []
    · subst h2; cases c <;> simp [h1]
    · cases c <;> simp [h1, h2]

theorem core_mergeSingle (n : Str) (this : List PreReq) (cmds : Option Nat) (stem : Option Str)
    (f : FEntry) (dbl : Bool) :
    (mergeSingle n this cmds stem f).core =
      coreSingle n ⟨dbl, this.map normReq, cmds⟩ f.core := by
  unfold mergeSingle coreSingle FEntry.core
  simp only [List.map_eq_nil_iff]
  congr 1
  rw [core_mergeDeps _ _ _ _ rfl]
  split <;> rfl

theorem core_mergeDouble (this : List PreReq) (cmds : Option Nat) (stem : Option Str)
    (f : FEntry) (dbl : Bool) :
    (mergeDouble this cmds stem f).core = coreDouble ⟨dbl, this.map normReq, cmds⟩ f.core := by
  unfold mergeDouble coreDouble FEntry.core
  simp only
  rw [core_mergeDeps _ _ _ _ rfl]

/-- The warnings about overridden recipes of one name: the new and the old recipe. -/
def overridesOf (n : Str) (ws : List FWarn) : List (Nat × Nat) :=
  ws.filterMap fun w => match w with
    | .override m c o => if m = n then some (c, o) else none
    | _ => none

/-- The warnings at one mention. -/
def viewWarn (v : Bool × List FCore) (m : Ment) : List (Nat × Nat) :=
  if m.double then []
  else
    match m.cmds, (v.2.getLast?.getD emptyCore).cmds with
    | some c, some o =>
      if c = o then [] else if (v.2.getLast?.getD emptyCore).isTarget then [(c, o)] else []
    | _, _ => []

/-- The warnings at all mentions. -/
def viewWarns (n : Str) : Bool × List FCore → List Ment → List (Nat × Nat)
  | _, [] => []
  | v, m :: ms =>
    viewWarn v m ++ ((viewStep n v m).map fun v' => viewWarns n v' ms).getD []

theorem viewWarns_append (n : Str) (ms ms' : List Ment) : ∀ v v', viewRun n v ms = some v' →
    viewWarns n v (ms ++ ms') = viewWarns n v ms ++ viewWarns n v' ms' := by
  induction ms with
  | nil => intro v v' h; cases h; rfl
  | cons m ms ih =>
    intro v v' h
    simp only [List.cons_append, viewWarns]
    simp only [viewRun] at h
    cases hs : viewStep n v m with
    | none => rw [hs] at h; cases h
    | some u =>
      rw [hs] at h
      simp only [Option.map_some, Option.getD_some]
      rw [ih u v' h, List.append_assoc]

/-- The prerequisites that `recordTarget` is given stand for those of the rule. -/
def DepsOk (r : FRule) (deps : List PreReq) : Prop :=
  deps.map normReq = r.deps.map normReq ∧ (r.pattern.isSome → deps = r.deps)

/-- The table before the record is changed, and the prerequisites entered. -/
def enteredDeps (r : FRule) (deps : List PreReq) (db1 : FileDb) (name : Str) :
    FileDb × List PreReq :=
  match targetStem r.pattern name with
  | some st => enterPrereqs db1 (stemPrereqs st (if targetMatches r.pattern name then deps else []))
  | none => (db1, if targetMatches r.pattern name then deps else [])

theorem enteredDeps_norm {r : FRule} {deps : List PreReq} (h : DepsOk r deps) (db1 : FileDb)
    (name : Str) :
    (enteredDeps r deps db1 name).2.map normReq = (contribution r name).map normReq := by
  unfold enteredDeps contribution
  cases hp : r.pattern with
  | none => simp [targetStem, targetMatches, h.1]
  | some p =>
    have := h.2 (by simp [hp])
    subst this
    simp only [targetStem, Option.map_some]
    rw [enterPrereqs_norm]
    split <;> simp [stemPrereqs]

theorem slotAt_enteredDeps {r : FRule} {deps : List PreReq} {db1 : FileDb} {name n : Str}
    (h : lookupName n = n ∨ (slotAt db1 n).double = false) :
    slotAt (enteredDeps r deps db1 name).1 n = slotAt db1 n := by
  unfold enteredDeps
  split
  · exact slotAt_enterPrereqs n _ _ h
  · rfl

theorem recordTarget_eq (r : FRule) (deps : List PreReq) (db : FileDb) (name : Str) :
    recordTarget r deps db name =
      (let db1 := enterFile db name
       let es := ((db1 name).map (·.entries)).getD []
       let f := es.getLast?.getD {}
       let e := enteredDeps r deps db1 name
       let w := if targetMatches r.pattern name then [] else [FWarn.noMatch name]
       let stem := targetStem r.pattern name
       if !r.double then
         if ((db name).map (·.double)).getD false then .fatal
         else
           .ok (e.1.set name ⟨[mergeSingle name e.2 r.cmds stem f], false⟩,
             w ++ singleWarn name r.cmds f, 0)
       else if (((lookupFile db name).bind db).map
           fun s => !s.double && s.entries.any (·.isTarget)).getD false then .fatal
       else
         .ok (e.1.set name ⟨es.dropLast ++ [mergeDouble e.2 r.cmds stem f], true⟩, w,
           es.length - 1)) := by
  unfold recordTarget enteredDeps
  cases targetStem r.pattern name <;> rfl

theorem enterFile_entries (db : FileDb) (n : Str) :
    (((enterFile db n) n).map (·.entries)).getD [] =
      if (slotAt db n).double then (slotAt db n).entries ++ [({} : FEntry)] else (slotAt db n).entries := by
  unfold enterFile slotAt
  cases hs : db n with
  | none => simp [FileDb.set]
  | some s =>
    cases hd : s.double with
    | true => simp [hd, FileDb.set]
    | false => simp [hd, hs]

theorem double_eq (db : FileDb) (n : Str) :
    ((db n).map (·.double)).getD false = (slotAt db n).double := by
  unfold slotAt; cases db n <;> rfl

theorem lookup_check {db : FileDb} {n : Str} (hn : lookupName n = n) :
    ((((lookupFile db n).bind db).map
      fun s => !s.double && s.entries.any (·.isTarget)).getD false) =
      (!(slotAt db n).double && (slotAt db n).entries.any (·.isTarget)) := by
  unfold lookupFile slotAt
  rw [hn]
  cases hs : db n with
  | none => simp
  | some s => simp [hs]

theorem getLast_core (es : List FEntry) :
    ((es.map FEntry.core).getLast?).getD emptyCore = (es.getLast?.getD {}).core := by
  rw [map_getLast?]
  cases es.getLast? <;> rfl

theorem overridesOf_append (n : Str) (a b : List FWarn) :
    overridesOf n (a ++ b) = overridesOf n a ++ overridesOf n b := by
  simp [overridesOf]

theorem overridesOf_single (n : Str) (cmds : Option Nat) (f : FEntry) :
    overridesOf n (singleWarn n cmds f) = viewWarn (false, [f.core]) ⟨false, [], cmds⟩ := by
  unfold singleWarn viewWarn
  cases cmds with
  | none => rfl
  | some c =>
    cases hf : f.cmds with
    | none => simp [FEntry.core, hf, overridesOf]
    | some o =>
      simp only [FEntry.core, hf, List.getLast?_singleton, Option.getD_some, Bool.false_eq_true,
        if_false]
      by_cases h1 : c = o
      · simp [h1, overridesOf]
      · cases f.isTarget <;> simp [h1, overridesOf]

theorem overridesOf_other {n m : Str} (h : m ≠ n) (cmds : Option Nat) (f : FEntry) :
    overridesOf n (singleWarn m cmds f) = [] := by
  unfold singleWarn
  split
  · split
    · rfl
    · split <;> simp [overridesOf, h]
  · rfl

theorem overridesOf_noMatch (n m : Str) (b : Bool) :
    overridesOf n (if b then [] else [FWarn.noMatch m]) = [] := by
  cases b <;> rfl

/-- A mention of another target does not matter. -/
theorem recordTarget_other {r : FRule} {deps : List PreReq} {db db' : FileDb} {m n : Str}
    {w : List FWarn} {i : Nat} (hn : lookupName n = n) (hm : m ≠ n)
    (h : recordTarget r deps db m = .ok (db', w, i)) :
    slotAt db' n = slotAt db n ∧ overridesOf n w = [] := by
  rw [recordTarget_eq] at h
  simp only at h
  have key : ∀ s, slotAt (((enteredDeps r deps (enterFile db m) m).1).set m s) n = slotAt db n := by
    intro s
    rw [slotAt_set_ne _ _ (Ne.symm hm), slotAt_enteredDeps (.inl hn),
      slotAt_enterFile _ _ _ (.inl (Ne.symm hm))]
  split at h
  · split at h
    · cases h
    · cases h
      exact ⟨key _, by rw [overridesOf_append, overridesOf_noMatch, overridesOf_other hm]; rfl⟩
  · split at h
    · cases h
    · cases h
      exact ⟨key _, overridesOf_noMatch _ _ _⟩

/-- A mention of the target. -/
theorem recordTarget_self {r : FRule} {deps : List PreReq} {db : FileDb} {n : Str}
    (hn : lookupName n = n) (hd : DepsOk r deps) :
    match viewStep n (view db n) (mentOf r n) with
    | none => recordTarget r deps db n = .fatal
    | some v => ∃ db' w i, recordTarget r deps db n = .ok (db', w, i) ∧ view db' n = v ∧
        overridesOf n w = viewWarn (view db n) (mentOf r n) := by
  rw [recordTarget_eq]
  simp only [double_eq, lookup_check hn, enterFile_entries]
  have hnorm := enteredDeps_norm hd (enterFile db n) n
  generalize enteredDeps r deps (enterFile db n) n = e at hnorm ⊢
  have hv : view db n = ((slotAt db n).double, (slotAt db n).entries.map FEntry.core) := rfl
  rw [hv]
  generalize slotAt db n = s
  obtain ⟨es, dbl⟩ := s
  have hany : (es.map FEntry.core).any (·.isTarget) = es.any (·.isTarget) := by
    rw [List.any_map]; rfl
  cases hrd : r.double with
  | false =>
    cases dbl with
    | true => simp [viewStep, mentOf, hrd]
    | false =>
      simp only [viewStep, mentOf, hrd, Bool.not_false, if_true, Bool.false_eq_true, if_false]
      refine ⟨_, _, _, rfl, ?_, ?_⟩
      · unfold view
        rw [slotAt_set_self, getLast_core]
        simp only [List.map_cons, List.map_nil]
        rw [core_mergeSingle _ _ _ _ _ false, hnorm]
      · rw [overridesOf_append, overridesOf_noMatch, List.nil_append, overridesOf_single]
        unfold viewWarn
        simp only [getLast_core, List.getLast?_singleton, Option.getD_some]
        rfl
  | true =>
    cases dbl with
    | true =>
      simp only [viewStep, mentOf, hrd, Bool.not_true, Bool.false_and, Bool.false_eq_true, if_false,
        if_true]
      refine ⟨_, _, _, rfl, ?_, ?_⟩
      · unfold view
        rw [slotAt_set_self]
        simp only [List.dropLast_concat, List.map_append, List.map_cons, List.map_nil,
          List.getLast?_concat, Option.getD_some]
        rw [core_mergeDouble _ _ _ _ true, hnorm]
        rfl
      · rw [overridesOf_noMatch]; simp [viewWarn]
    | false =>
      simp only [viewStep, mentOf, hrd, Bool.not_true, Bool.not_false, Bool.true_and, hany,
        Bool.false_eq_true, if_false, if_true]
      cases ht : es.any (·.isTarget) with
      | true => simp
      | false =>
        simp only [Bool.false_eq_true, if_false]
        refine ⟨_, _, _, rfl, ?_, ?_⟩
        · unfold view
          rw [slotAt_set_self]
          simp only [List.map_append, List.map_cons, List.map_nil, List.map_dropLast]
          rw [core_mergeDouble _ _ _ _ true, hnorm, getLast_core]
        · rw [overridesOf_noMatch]; simp [viewWarn]

theorem recordTargets_ok {r : FRule} {deps : List PreReq} {n : Str} (hn : lookupName n = n)
    (hd : DepsOk r deps) : ∀ (ns : List Str) {db db' : FileDb} {w : List FWarn}
    {hs : List (Str × Nat)}, recordTargets r deps db ns = .ok (db', w, hs) →
      viewRun n (view db n) (List.replicate (ns.count n) (mentOf r n)) = some (view db' n) ∧
      overridesOf n w = viewWarns n (view db n) (List.replicate (ns.count n) (mentOf r n)) := by
  intro ns
  induction ns with
  | nil => intro db db' w hs h; cases h; exact ⟨rfl, rfl⟩
  | cons m ns ih =>
    intro db db' w hs h
    unfold recordTargets at h
    cases h1 : recordTarget r deps db m with
    | fatal => rw [h1] at h; cases h
    | ok x =>
      obtain ⟨db1, w1, i⟩ := x
      rw [h1] at h
      simp only at h
      cases h2 : recordTargets r deps db1 ns with
      | fatal => rw [h2] at h; cases h
      | ok y =>
        obtain ⟨db2, w2, is⟩ := y
        rw [h2] at h
        cases h
        obtain ⟨g1, g2⟩ := ih h2
        by_cases hm : m = n
        · subst hm
          have := recordTarget_self (db := db) hn hd
          rw [List.count_cons_self, List.replicate_succ]
          simp only [viewRun, viewWarns]
          cases hv : viewStep m (view db m) (mentOf r m) with
          | none => rw [hv] at this; simp only at this; rw [this] at h1; cases h1
          | some v =>
            rw [hv] at this
            obtain ⟨dbx, wx, ix, e1, e2, e3⟩ := this
            rw [h1] at e1
            cases e1
            simp only [Option.bind_some, Option.map_some, Option.getD_some]
            subst e2
            exact ⟨g1, by rw [overridesOf_append, e3, g2]⟩
        · obtain ⟨e1, e2⟩ := recordTarget_other hn hm h1
          rw [List.count_cons_of_ne hm]
          have hv : view db1 n = view db n := by simp [view, e1]
          rw [hv] at g1 g2
          exact ⟨g1, by rw [overridesOf_append, e2, List.nil_append, g2]⟩

theorem view_modify (db : FileDb) (n m : Str) (i : Nat) (g : List Str) :
    view (db.modify m i fun f => { f with also := g }) n = view db n := by
  unfold FileDb.modify
  cases hs : db m with
  | none => rfl
  | some s =>
    simp only
    by_cases hnm : n = m
    · subst hnm
      unfold view
      rw [slotAt_set_self]
      have : slotAt db n = s := by simp [slotAt, hs]
      rw [this]
      simp only [Prod.mk.injEq, true_and]
      apply List.ext_getElem
      · simp
      · intro j h1 h2
        simp only [List.getElem_map, List.getElem_modify]
        split <;> rfl
    · unfold view
      rw [slotAt_set_ne _ _ hnm]

theorem view_recordGroup (n : Str) (g : List Str) : ∀ (hs : List (Str × Nat)) (db : FileDb),
    view (recordGroup g db hs).1 n = view db n ∧ overridesOf n (recordGroup g db hs).2 = [] := by
  intro hs
  induction hs with
  | nil => intro db; exact ⟨rfl, rfl⟩
  | cons h hs ih =>
    intro db
    obtain ⟨m, i⟩ := h
    unfold recordGroup
    simp only
    obtain ⟨h1, h2⟩ := ih (db.modify m i fun f => { f with also := g })
    refine ⟨by rw [h1, view_modify], ?_⟩
    rw [overridesOf_append, h2, List.append_nil]
    split <;> rfl

theorem depsOk_entered (r : FRule) (db : FileDb) :
    DepsOk r (if r.pattern.isSome then (db, r.deps) else enterPrereqs db r.deps).2 := by
  unfold DepsOk
  cases hp : r.pattern with
  | none => simp [enterPrereqs_norm]
  | some p => simp

theorem recordFiles_ok {r : FRule} {db db' : FileDb} {w : List FWarn} {n : Str}
    (hn : lookupName n = n) (h : recordFiles r db = .ok (db', w)) :
    viewRun n (view db n) (ments n [r]) = some (view db' n) ∧
    overridesOf n w = viewWarns n (view db n) (ments n [r]) := by
  unfold recordFiles at h
  simp only [ments, List.flatMap_cons, List.flatMap_nil, List.append_nil]
  split at h
  · cases h
  · split at h
    · rename_i h2
      rw [if_neg (by simp [FRule.explicit, h2])]
      split at h
      · cases h
      · cases h; exact ⟨rfl, rfl⟩
    · rename_i h2
      rw [if_pos (by simp [FRule.explicit, h2])]
      simp only at h
      have hd := depsOk_entered r db
      have hv : view (if r.pattern.isSome then (db, r.deps) else enterPrereqs db r.deps).1 n =
          view db n := by
        cases hp : r.pattern with
        | none => simp [view, slotAt_enterPrereqs n r.deps db (.inl hn)]
        | some p => simp
      generalize (if r.pattern.isSome then (db, r.deps) else enterPrereqs db r.deps) = e at h hd hv
      cases hr : recordTargets r e.2 e.1 (r.targets.map plainName) with
      | fatal => rw [hr] at h; cases h
      | ok x =>
        obtain ⟨db1, w1, hs⟩ := x
        rw [hr] at h
        simp only at h
        obtain ⟨g1, g2⟩ := recordTargets_ok hn hd _ hr
        rw [hv] at g1 g2
        split at h
        · cases h
          obtain ⟨k1, k2⟩ := view_recordGroup n (r.targets.map plainName).reverse hs.reverse db1
          exact ⟨by rw [k1]; exact g1, by rw [overridesOf_append, k2, List.append_nil]; exact g2⟩
        · cases h; exact ⟨g1, g2⟩

theorem ments_cons (n : Str) (r : FRule) (rs : List FRule) :
    ments n (r :: rs) = ments n [r] ++ ments n rs := by
  simp [ments]

theorem recordAll_ok {n : Str} (hn : lookupName n = n) : ∀ (rs : List FRule) {db db' : FileDb}
    {w : List FWarn}, recordAll db rs = .ok (db', w) →
    viewRun n (view db n) (ments n rs) = some (view db' n) ∧
    overridesOf n w = viewWarns n (view db n) (ments n rs) := by
  intro rs
  induction rs with
  | nil => intro db db' w h; cases h; exact ⟨rfl, rfl⟩
  | cons r rs ih =>
    intro db db' w h
    unfold recordAll at h
    cases h1 : recordFiles r db with
    | fatal => rw [h1] at h; cases h
    | ok x =>
      obtain ⟨db1, w1⟩ := x
      rw [h1] at h
      simp only at h
      cases h2 : recordAll db1 rs with
      | fatal => rw [h2] at h; cases h
      | ok y =>
        obtain ⟨db2, w2⟩ := y
        rw [h2] at h
        cases h
        obtain ⟨a1, a2⟩ := recordFiles_ok hn h1
        obtain ⟨b1, b2⟩ := ih h2
        rw [ments_cons, viewRun_append, viewWarns_append _ _ _ _ _ a1, a1]
        exact ⟨b1, by rw [overridesOf_append, a2, b2]⟩

end Remake
