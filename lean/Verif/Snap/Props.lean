import Verif.Snap.Lemmas
/-! C107: second expansion of prerequisites. -/
set_option linter.unusedVariables false
set_option linter.unusedSimpArgs false
namespace Remake
open Spec

/-- C107 (partial): whatever the order of the table, every record of every target gets the
prerequisites that its lines stand for when they are expanded for that target, in place and in
order (`.SUFFIXES` before the others, which may ask for their stems); a file that was not there
before is there afterwards just if it is one of those prerequisites, and is not a target.
Missing: wildcards, home directories and archive members in expanded texts, percent signs in the
expanded text of a static pattern rule, more than one record of `.SUFFIXES`, expansions with side
effects; see also `C107_percent` and `C107_bar`. -/
theorem C107_second_partial (env : FsEnv) {g : Str → Str} (hg : ∀ w, Stripped w (g w))
    (ex : List SFile → Str → SFile → Str → Str) {db : SDb} (hdb : ReadTable db)
    (R : Str → Nat → List SDep) {fs : SFile} (hsuf : db.files ".SUFFIXES".toList = [fs])
    (hs0 : Second g (ex [fs] ".SUFFIXES".toList) fs [] fs.deps (R ".SUFFIXES".toList 0))
    (hS : ∀ n, n ≠ ".SUFFIXES".toList → ∀ j f, (db.files n)[j]? = some f →
      Second g (ex (secondRecords (R ".SUFFIXES".toList) [fs]) n) f [] f.deps (R n j)) :
    ∃ db', secondExpand env ex db = some db' ∧
      (∀ n, db.files n ≠ [] → db'.files n = secondRecords (R n) (db.files n)) ∧
      (∀ m, db.files m = [] →
        ((∃ n j d, j < (db.files n).length ∧ d ∈ R n j ∧ d.name = m) → db'.files m = [{}]) ∧
        ((¬ ∃ n j d, j < (db.files n).length ∧ d ∈ R n j ∧ d.name = m) → db'.files m = [])) ∧
      (∀ m, m ∈ db'.names ↔ db'.files m ≠ []) ∧ db'.names.Nodup := by
  obtain ⟨db', e, h⟩ := secondExpand_run (env := env) hg hdb hsuf hs0 hS
  refine ⟨db', e, ?_, ?_, h.listed, h.once⟩
  · intro n hn
    rw [h.old n hn, upTo_all _ _ (Nat.le_refl _)]
  · intro m hm
    have hnm := h.named m hm
    refine ⟨?_, ?_⟩
    · rintro ⟨n, j, d, a, b, c⟩
      rcases h.new m hm with h' | h'
      · exact absurd h' (hnm.2 ⟨n, j, d, a, a, b, c⟩)
      · exact h'
    · intro hno
      apply Decidable.byContradiction
      intro hne
      obtain ⟨n, j, d, a, -, b, c⟩ := hnm.1 hne
      exact hno ⟨n, j, d, a, b, c⟩

/-- C107 (partial): the order of the table does not matter. -/
theorem C107_order_partial (env : FsEnv) {g : Str → Str} (hg : ∀ w, Stripped w (g w))
    (ex : List SFile → Str → SFile → Str → Str) {db : SDb} (hdb : ReadTable db)
    (R : Str → Nat → List SDep) {fs : SFile} (hsuf : db.files ".SUFFIXES".toList = [fs])
    (hs0 : Second g (ex [fs] ".SUFFIXES".toList) fs [] fs.deps (R ".SUFFIXES".toList 0))
    (hS : ∀ n, n ≠ ".SUFFIXES".toList → ∀ j f, (db.files n)[j]? = some f →
      Second g (ex (secondRecords (R ".SUFFIXES".toList) [fs]) n) f [] f.deps (R n j))
    {names : List Str} (hp : names.Perm db.names) :
    ∃ db1 db2, secondExpand env ex db = some db1 ∧
      secondExpand env ex { db with names := names } = some db2 ∧ db1.files = db2.files := by
  have hdb2 : ReadTable { db with names := names } :=
    ⟨fun m => hp.mem_iff.trans (hdb.listed m), hp.nodup_iff.2 hdb.once, hdb.closed⟩
  obtain ⟨db1, e1, a1, b1, -⟩ := C107_second_partial env hg ex hdb R hsuf hs0 hS
  obtain ⟨db2, e2, a2, b2, -⟩ := C107_second_partial env hg ex hdb2 R hsuf hs0 hS
  refine ⟨db1, db2, e1, e2, ?_⟩
  funext m
  by_cases hm : db.files m = []
  · by_cases h : ∃ n j d, j < (db.files n).length ∧ d ∈ R n j ∧ d.name = m
    · rw [(b1 m hm).1 h, (b2 m hm).1 h]
    · rw [(b1 m hm).2 h, (b2 m hm).2 h]
  · rw [a1 m hm, a2 m hm]

/-- C107: nothing waits afterwards. -/
theorem C107_none_waits {g : Str → Str} {ex : SFile → Str → Str} {f : SFile}
    {done ds r : List SDep} (h : Second g ex f done ds r) (hd : ∀ d ∈ done, d.pending = false) :
    ∀ d ∈ r, d.pending = false := by
  induction h with
  | nil => exact hd
  | plain hp _ ih =>
    apply ih
    intro x hx
    rcases List.mem_append.1 hx with hx | hx
    · exact hd x hx
    · rw [List.mem_singleton] at hx; rw [hx]; exact hp
  | line _ _ _ _ _ ih =>
    apply ih
    intro x hx
    rcases List.mem_append.1 hx with hx | hx
    · exact hd x hx
    · obtain ⟨p, -, rfl⟩ := List.mem_map.1 hx; rfl

/-- C107: the prerequisites that were read already are kept, in their order, and those of lines
that wait come in between. -/
theorem C107_kept {g : Str → Str} {ex : SFile → Str → Str} {f : SFile}
    {done ds r : List SDep} (h : Second g ex f done ds r) :
    ∃ new, r = done ++ new ∧ (ds.filter fun d => !d.pending).Sublist new := by
  induction h with
  | nil => exact ⟨[], by simp, by simp⟩
  | @plain done ds r d hp _ ih =>
    obtain ⟨new, e, hs⟩ := ih
    refine ⟨d :: new, by rw [e]; simp, ?_⟩
    rw [List.filter_cons, if_pos (by simp [hp])]
    exact hs.cons_cons d
  | @line done ds r d t ps hp _ _ _ _ ih =>
    obtain ⟨new, e, hs⟩ := ih
    refine ⟨_, by rw [e, List.append_assoc], ?_⟩
    rw [List.filter_cons, if_neg (by simp [hp])]
    exact hs.trans (List.sublist_append_right _ _)

/-- C107: a record without a line that waits keeps its prerequisites and all else, whatever the
expansion does. -/
theorem C107_unaffected (env : FsEnv) (ex : List SFile → Str → SFile → Str → Str) (db : SDb)
    (n : Str) (i : Nat) (h : ∀ f, (db.files n)[i]? = some f → ∀ d ∈ f.deps, d.pending = false) :
    ∃ db', secondFile env ex db n i = some db' ∧ db'.files = db.files ∧ db'.names = db.names := by
  unfold secondFile
  cases hf : (db.files n)[i]? with
  | none => exact ⟨db, rfl, rfl, rfl⟩
  | some f =>
    have hp := h f hf
    have e : ∀ (ds done : List SDep), (∀ d ∈ ds, d.pending = false) →
        expandRest env (ex (db.files dotSuffixesName) n) f done ds db = some (db, done ++ ds) := by
      intro ds
      induction ds with
      | nil => intro done _; simp [expandRest]
      | cons d ds ih =>
        intro done hd
        rw [expandRest, if_pos (hd d (by simp)), ih _ fun x hx => hd x (by simp [hx])]
        simp
    have ha : f.deps.any (·.pending) = false := by
      simp only [List.any_eq_false]; intro d hd; simp [hp d hd]
    simp only [e f.deps [] hp, ha, Bool.false_eq_true, if_false]
    refine ⟨_, rfl, ?_, rfl⟩
    funext m
    by_cases hm : m = n
    · subst hm
      rw [setAt_same]
      apply List.ext_getElem?
      intro j
      rw [List.getElem?_modify]
      by_cases hj : i = j
      · subst hj; simp [hf]
      · simp [hj]
    · rw [setAt_other _ _ _ hm]

/-- Non-vacuity: `all: p` and `all: $(X)`, where `$(X)` is `a | ./b`, with a file `p`. -/
example : ∃ (db : SDb) (R : Str → Nat → List SDep) (ex : List SFile → Str → SFile → Str → Str),
    ReadTable db ∧ db.files ".SUFFIXES".toList = [{}] ∧
    Second lookupName (ex [{}] ".SUFFIXES".toList) {} [] [] (R ".SUFFIXES".toList 0) ∧
    (∀ n, n ≠ ".SUFFIXES".toList → ∀ j f, (db.files n)[j]? = some f →
      Second lookupName (ex (secondRecords (R ".SUFFIXES".toList) [{}]) n) f [] f.deps (R n j)) ∧
    (R "all".toList 0).map (fun d => (d.name, d.orderOnly)) =
      [("p".toList, false), ("a".toList, false), ("b".toList, true)] := by
  let fAll : SFile := { isTarget := true, deps := [{ name := "p".toList }, { name := "$(X)".toList, pending := true }] }
  let rAll : List SDep := [{ name := "p".toList }, { name := "a".toList },
    { name := "b".toList, orderOnly := true }]
  have l1 : lookupName "a".toList = "a".toList := by decide +kernel
  have l2 : lookupName "./b".toList = "b".toList := by decide +kernel
  refine ⟨⟨[".SUFFIXES".toList, "all".toList, "p".toList], fun m =>
    if m = ".SUFFIXES".toList then [{}] else if m = "all".toList then [fAll]
    else if m = "p".toList then [{}] else []⟩,
    fun n _ => if n = "all".toList then rAll else [], fun _ _ _ _ => "a | ./b".toList, ?_, ?_, ?_, ?_, ?_⟩
  · refine ⟨?_, by decide +kernel, ?_⟩
    · intro m
      by_cases h1 : m = ".SUFFIXES".toList
      · subst h1; simp
      · by_cases h2 : m = "all".toList
        · subst h2; simp
        · by_cases h3 : m = "p".toList
          · subst h3; simp
          · simp only [List.mem_cons, h1, h2, h3, if_false]; simp
    · intro n f hf d hd hp
      by_cases h1 : n = ".SUFFIXES".toList
      · subst h1; simp at hf; subst hf; simp at hd
      · by_cases h2 : n = "all".toList
        · subst h2
          simp only [h1, if_false, if_true, List.mem_singleton] at hf
          subst hf
          simp only [fAll, List.mem_cons, List.not_mem_nil, or_false] at hd
          rcases hd with rfl | rfl
          · decide +kernel
          · cases hp
        · by_cases h3 : n = "p".toList
          · have hf' : f ∈ [({} : SFile)] := by
              have e : (if n = ".SUFFIXES".toList then [({} : SFile)] else if n = "all".toList then [fAll]
                else if n = "p".toList then [{}] else []) = [{}] := by
                rw [if_neg h1, if_neg h2, if_pos h3]
              exact e ▸ hf
            rw [List.mem_singleton] at hf'
            subst hf'; simp at hd
          · simp only [h1, h2, h3, if_false] at hf; cases hf
  · simp
  · have : (".SUFFIXES".toList = "all".toList) = False := by decide +kernel
    simp only [this, if_false]
    exact .nil
  · intro n hn j f hf
    simp only [hn, if_false] at hf
    by_cases h2 : n = "all".toList
    · subst h2
      simp only [if_true] at hf
      have : f = fAll := by
        cases j with
        | zero => simp at hf; exact hf.symm
        | succ j => simp at hf
      subst this
      simp only [if_true]
      refine .plain rfl (.line rfl (.inr ⟨rfl, rfl⟩) (ps := [("a".toList, false), ("./b".toList, true)]) ?_
        (.inl rfl) ?_)
      · exact .both (t1 := "a ".toList) (t2 := " ./b".toList) (ns := ["a".toList])
          (os := ["./b".toList])
          (.cons (sp := []) (t := "a".toList) (rest := []) (b := ' ') (by intro c hc; cases hc)
            ⟨'a', [], by decide, by decide⟩
            (.char (k := 0) (c := 'a') (t := []) (w := []) (by decide) (by decide) .nil) (by decide)
            (.nil (by intro c hc; cases hc)))
          (.last (sp := " ".toList) (t := "./b".toList) (w := "./b".toList)
            (by intro c hc; simp at hc; subst hc; decide)
            ⟨'.', "/b".toList, by decide, by decide⟩
            (.char (k := 0) (c := '.') (by decide) (by decide)
              (.char (k := 0) (c := '/') (by decide) (by decide)
                (.char (k := 0) (c := 'b') (t := []) (w := []) (by decide) (by decide) .nil))))
          (by intro w hw; simp only [List.mem_singleton] at hw; subst hw; unfold PlainWord; decide)
          (by intro w hw; simp only [List.mem_singleton] at hw; subst hw; unfold PlainWord; decide)
      · simp only [List.map_cons, List.map_nil, l1, l2]
        exact .nil
    · by_cases h3 : n = "p".toList
      · simp only [h2, h3, if_false, if_true] at hf
        have : f = {} := by
          cases j with
          | zero => simp at hf; exact hf.symm
          | succ j => simp at hf
        subst this
        simp only [h2, if_false]
        exact .nil
      · simp only [h2, h3, if_false] at hf; simp at hf
  · simp only [if_true, rAll, List.map_cons, List.map_nil]

/-- C107 fails for percent signs: in a static pattern rule the prerequisite `a%b%c` of a line that
waits has the stem for both percent signs; without second expansion the second one stays. -/
theorem C107_percent (env : FsEnv) :
    let d : SDep := { name := "$(E)a%b%c".toList, pending := true, static := true,
                      stem := some "x".toList }
    let ex : SFile → Str → Str := fun _ t =>
      if t = "$(E)a$*b$*c".toList then "axbxc".toList else []
    (∃ db', expandRest env ex {} [] [d] ⟨[], fun _ => []⟩ =
      some (db', [{ name := "axbxc".toList, stem := some "x".toList }])) ∧
    stemPrereqs "x".toList [⟨"a%b%c".toList, false⟩] = [⟨"axb%c".toList, false⟩] := by
  intro d ex
  have h1 : secondText d = "$(E)a$*b$*c".toList := by decide +kernel
  have l1 : lookupName "axbxc".toList = "axbxc".toList := by decide +kernel
  refine ⟨?_, ?_⟩
  · have hL : LineText d "$(E)a$*b$*c".toList := by
      refine .inl ⟨rfl, ?_⟩
      rw [← h1]
      exact (C08_subst _ _ _ (by decide) _).2 rfl
    have hS : Second lookupName ex {} [] [d] [{ name := "axbxc".toList, stem := some "x".toList }] := by
      refine .line rfl hL (ps := [("axbxc".toList, false)]) ?_ (.inr ?_) ?_
      · exact .normal (ns := ["axbxc".toList]) (.last (sp := []) (by intro c hc; cases hc)
          ⟨'a', "xbxc".toList, by decide, by decide⟩
          (.char (k := 0) (c := 'a') (by decide) (by decide)
            (.char (k := 0) (c := 'x') (by decide) (by decide)
            (.char (k := 0) (c := 'b') (by decide) (by decide)
            (.char (k := 0) (c := 'x') (by decide) (by decide)
            (.char (k := 0) (c := 'c') (t := []) (w := []) (by decide) (by decide) .nil))))))
          (by intro w hw; simp only [List.mem_singleton] at hw; subst hw; unfold PlainWord; decide)
      · intro p hp; simp only [List.mem_singleton] at hp; subst hp; decide
      · simp only [List.map_cons, List.map_nil, l1, List.nil_append]
        exact .nil
    obtain ⟨db', -, e, -⟩ := expandRest_second env lookupName_stripped hS ⟨[], fun _ => []⟩
    exact ⟨db', e⟩
  · unfold stemPrereqs
    have : stemName "x".toList "a%b%c".toList = some "axb%c".toList := by
      rw [stemName_eq (by decide) (by decide)]
      decide
    rw [List.filterMap_cons, this]; rfl

/-- C107 fails for stems with a bar: the prerequisite `%` of a line that waits is two files for the
stem `a|b`, the second one order-only; without second expansion it is the file `a|b`. -/
theorem C107_bar (env : FsEnv) :
    let d : SDep := { name := "$(E)%".toList, pending := true, static := true,
                      stem := some "a|b".toList }
    let ex : SFile → Str → Str := fun _ t => if t = "$(E)$*".toList then "a|b".toList else []
    (∃ db', expandRest env ex {} [] [d] ⟨[], fun _ => []⟩ =
      some (db', [{ name := "a".toList, stem := some "a|b".toList },
                  { name := "b".toList, orderOnly := true, stem := some "a|b".toList }])) ∧
    stemPrereqs "a|b".toList [⟨"%".toList, false⟩] = [⟨"a|b".toList, false⟩] := by
  intro d ex
  have h1 : secondText d = "$(E)$*".toList := by decide +kernel
  have l1 : lookupName "a".toList = "a".toList := by decide +kernel
  have l2 : lookupName "b".toList = "b".toList := by decide +kernel
  refine ⟨?_, ?_⟩
  · have hL : LineText d "$(E)$*".toList := by
      refine .inl ⟨rfl, ?_⟩
      rw [← h1]
      exact (C08_subst _ _ _ (by decide) _).2 rfl
    have hS : Second lookupName ex {} [] [d] [{ name := "a".toList, stem := some "a|b".toList },
        { name := "b".toList, orderOnly := true, stem := some "a|b".toList }] := by
      refine .line rfl hL (ps := [("a".toList, false), ("b".toList, true)]) ?_ (.inr ?_) ?_
      · exact .both (t1 := "a".toList) (t2 := "b".toList) (ns := ["a".toList]) (os := ["b".toList])
          (.last (sp := []) (by intro c hc; cases hc) ⟨'a', [], by decide, by decide⟩
            (.char (k := 0) (c := 'a') (t := []) (w := []) (by decide) (by decide) .nil))
          (.last (sp := []) (by intro c hc; cases hc) ⟨'b', [], by decide, by decide⟩
            (.char (k := 0) (c := 'b') (t := []) (w := []) (by decide) (by decide) .nil))
          (by intro w hw; simp only [List.mem_singleton] at hw; subst hw; unfold PlainWord; decide)
          (by intro w hw; simp only [List.mem_singleton] at hw; subst hw; unfold PlainWord; decide)
      · intro p hp
        simp only [List.mem_cons, List.not_mem_nil, or_false] at hp
        rcases hp with rfl | rfl <;> decide
      · simp only [List.map_cons, List.map_nil, l1, l2, List.nil_append]
        exact .nil
    obtain ⟨db', -, e, -⟩ := expandRest_second env lookupName_stripped hS ⟨[], fun _ => []⟩
    exact ⟨db', e⟩
  · unfold stemPrereqs
    have : stemName "a|b".toList "%".toList = some "a|b".toList := by
      rw [stemName_eq (by decide) (by decide)]
      decide
    rw [List.filterMap_cons, this]; rfl

end Remake
