import Verif.Snap.Special
/-! C108 and C109: special targets and extra prerequisites. -/
set_option linter.unusedVariables false
set_option linter.unusedSimpArgs false
namespace Remake
open Spec

theorem firstNamed_iff (db : SDb) (s m : Str) :
    firstNamed db s m (namedBy (db.files ".PHONY".toList) s) = true ↔
      Declared db s ∧ FirstRequires db s m := by
  unfold firstNamed Declared FirstRequires
  cases hf : (db.files s)[0]? with
  | none => simp
  | some f =>
    simp only [Bool.and_eq_true, Bool.or_eq_true, namedBy_iff, Option.some.injEq, exists_eq_left']
    simp [namedIn]

theorem firstBare_iff (db : SDb) (s : Str) :
    firstBare db s (namedBy (db.files ".PHONY".toList) s) = true ↔ Declared db s ∧ Bare db s := by
  unfold firstBare Declared Bare
  cases hf : (db.files s)[0]? with
  | none => simp
  | some f =>
    simp only [Bool.and_eq_true, Bool.or_eq_true, namedBy_iff, Option.some.injEq, exists_eq_left',
      List.isEmpty_iff]

theorem firstAny_iff (db : SDb) (s : Str) :
    (((db.files s)[0]?).any fun f => f.isTarget || namedBy (db.files ".PHONY".toList) s) = true ↔
      Declared db s := by
  unfold Declared
  cases hf : (db.files s)[0]? with
  | none => simp
  | some f =>
    simp only [Option.any_some, Bool.or_eq_true, namedBy_iff, Option.some.injEq, exists_eq_left']

/-- C108 (partial): each record of each file is marked just as the special targets say, and
nothing else of it changes.  Missing: `.IGNORE` and `.SILENT` with several double-colon rules, of
which only the first one counts; see `C108_double`. -/
theorem C108_marks_partial (db : SDb) (fl : SnapFlags) (m : Str) :
    ((specialTargets db fl).1.files m).length = (db.files m).length ∧
    ∀ (i : Nat) (f : SFile), (db.files m)[i]? = some f → ∃ f' : SFile, ((specialTargets db fl).1.files m)[i]? = some f' ∧
      (f'.precious = true ↔ f.precious = true ∨ RequiredBy db ".PRECIOUS".toList m) ∧
      (f'.lowRes = true ↔ f.lowRes = true ∨ RequiredBy db ".LOW_RESOLUTION_TIME".toList m) ∧
      (f'.phony = true ↔ f.phony = true ∨ RequiredBy db ".PHONY".toList m) ∧
      (f'.isTarget = true ↔ f.isTarget = true ∨ RequiredBy db ".PHONY".toList m) ∧
      (f'.intermediate = true ↔ f.intermediate = true ∨ RequiredBy db ".INTERMEDIATE".toList m ∨
        RequiredBy db ".SECONDARY".toList m) ∧
      (f'.secondary = true ↔ f.secondary = true ∨ RequiredBy db ".SECONDARY".toList m) ∧
      (f'.noerror = true ↔ f.noerror = true ∨
        (Declared db ".IGNORE".toList ∧ FirstRequires db ".IGNORE".toList m)) ∧
      (f'.silent = true ↔ f.silent = true ∨
        (Declared db ".SILENT".toList ∧ FirstRequires db ".SILENT".toList m)) ∧
      f'.deps = f.deps ∧ f'.stem = f.stem ∧ f'.vars = f.vars := by
  rw [specialTargets_eq]
  refine ⟨by simp [SDb.mapAll], ?_⟩
  intro i f hf
  refine ⟨marked db m f, by simp [SDb.mapAll, hf], ?_⟩
  unfold marked
  simp only [Bool.or_eq_true, namedBy_iff, firstNamed_iff, or_assoc, and_self, true_and, iff_self]

/-- C108 (partial): the global settings are made just if the special target is a target, or is
without prerequisites, respectively; `.SECONDARY` need not be a target, see `C108_mention`. -/
theorem C108_flags_partial (db : SDb) (fl : SnapFlags) :
    ((specialTargets db fl).2.exportAll = true ↔
      fl.exportAll = true ∨ Declared db ".EXPORT_ALL_VARIABLES".toList) ∧
    ((specialTargets db fl).2.notParallel = true ↔
      fl.notParallel = true ∨ Declared db ".NOTPARALLEL".toList) ∧
    ((specialTargets db fl).2.ignoreErrors = true ↔
      fl.ignoreErrors = true ∨ (Declared db ".IGNORE".toList ∧ Bare db ".IGNORE".toList)) ∧
    ((specialTargets db fl).2.runSilent = true ↔
      fl.runSilent = true ∨ (Declared db ".SILENT".toList ∧ Bare db ".SILENT".toList)) ∧
    ((specialTargets db fl).2.allSecondary = true ↔
      fl.allSecondary = true ∨ ∃ f ∈ db.files ".SECONDARY".toList, f.deps = []) := by
  rw [specialTargets_eq]
  simp only [Bool.or_eq_true, firstBare_iff, firstAny_iff, List.any_eq_true, List.isEmpty_iff,
    iff_self, and_self]

/-- C108: the order of the table does not matter, and no file is added. -/
theorem C108_order (db : SDb) (fl : SnapFlags) (names : List Str) :
    (specialTargets { db with names := names } fl).1.files = (specialTargets db fl).1.files ∧
    (specialTargets { db with names := names } fl).2 = (specialTargets db fl).2 ∧
    (specialTargets db fl).1.names = db.names := by
  rw [specialTargets_eq, specialTargets_eq]
  exact ⟨rfl, rfl, rfl⟩

/-- Non-vacuity: `.PHONY: all` with `.PRECIOUS: x` and `.IGNORE:`. -/
example : let db : SDb := ⟨[".PHONY".toList, "all".toList], fun m =>
      if m = ".PHONY".toList then [{ isTarget := true, deps := [{ name := "all".toList }] }]
      else if m = ".IGNORE".toList then [{ isTarget := true }]
      else if m = "all".toList then [{}] else []⟩
    RequiredBy db ".PHONY".toList "all".toList ∧ ¬ RequiredBy db ".PRECIOUS".toList "all".toList ∧
    Declared db ".IGNORE".toList ∧ Bare db ".IGNORE".toList := by
  intro db
  refine ⟨⟨_, List.mem_singleton.2 rfl, _, List.mem_singleton.2 rfl, rfl, rfl⟩, ?_,
    ⟨{ isTarget := true }, by decide +kernel, .inl rfl⟩,
    ⟨{ isTarget := true }, by decide +kernel, rfl⟩⟩
  rintro ⟨f, hf, -⟩
  have : db.files ".PRECIOUS".toList = [] := by decide +kernel
  rw [this] at hf; cases hf

/-- C108 fails for `.SECONDARY`: a rule `x: .SECONDARY`, with no rule for `.SECONDARY`, makes all
files secondary; the same with `.IGNORE` has no effect. -/
theorem C108_mention :
    let db : SDb := ⟨["x".toList, ".SECONDARY".toList, ".IGNORE".toList], fun m =>
      if m = "x".toList then
        [{ isTarget := true, deps := [{ name := ".SECONDARY".toList }, { name := ".IGNORE".toList }] }]
      else if m = ".SECONDARY".toList then [{}]
      else if m = ".IGNORE".toList then [{}] else []⟩
    ReadTable db ∧ ¬ Declared db ".SECONDARY".toList ∧
    (specialTargets db {}).2.allSecondary = true ∧ (specialTargets db {}).2.ignoreErrors = false := by
  intro db
  have hph : db.files ".PHONY".toList = [] := by decide +kernel
  have hno : ∀ s, ¬ RequiredBy db ".PHONY".toList s := by
    rintro s ⟨f, hf, -⟩; rw [hph] at hf; cases hf
  have hx : db.files "x".toList =
      [{ isTarget := true, deps := [{ name := ".SECONDARY".toList }, { name := ".IGNORE".toList }] }] := by
    decide +kernel
  have hs : db.files ".SECONDARY".toList = [{}] := by decide +kernel
  have hi : db.files ".IGNORE".toList = [{}] := by decide +kernel
  have hother : ∀ m, m ≠ "x".toList → m ≠ ".SECONDARY".toList → m ≠ ".IGNORE".toList →
      db.files m = [] := by
    intro m h1 h2 h3
    show (if _ then _ else _) = _
    rw [if_neg h1, if_neg h2, if_neg h3]
  have hnd : ∀ s, db.files s = [{}] → ¬ Declared db s := by
    rintro s hs ⟨f, hf, h⟩
    rw [hs] at hf
    simp only [List.getElem?_cons_zero, Option.some.injEq] at hf
    subst hf
    rcases h with h | h
    · cases h
    · exact hno _ h
  refine ⟨⟨?_, by decide +kernel, ?_⟩, hnd _ hs, ?_, ?_⟩
  · intro m
    by_cases h1 : m = "x".toList
    · subst h1; rw [hx]; exact ⟨fun _ => List.cons_ne_nil _ _, fun _ => List.mem_cons_self⟩
    · by_cases h2 : m = ".SECONDARY".toList
      · subst h2; rw [hs]; exact ⟨fun _ => List.cons_ne_nil _ _, fun _ => List.mem_cons_of_mem _ List.mem_cons_self⟩
      · by_cases h3 : m = ".IGNORE".toList
        · subst h3; rw [hi]; exact ⟨fun _ => List.cons_ne_nil _ _, fun _ => List.mem_cons_of_mem _ (List.mem_cons_of_mem _ List.mem_cons_self)⟩
        · rw [hother m h1 h2 h3]
          simp only [db, List.mem_cons, h1, h2, h3, List.not_mem_nil, or_false, false_iff]
          simp
  · intro n f hf d hd _
    by_cases h1 : n = "x".toList
    · subst h1
      rw [hx, List.mem_singleton] at hf
      subst hf
      simp only [List.mem_cons, List.not_mem_nil, or_false] at hd
      rcases hd with hd | hd
      · rw [hd]
        simp only
        rw [hs]; exact List.cons_ne_nil _ _
      · rw [hd]
        simp only
        rw [hi]; exact List.cons_ne_nil _ _
    · by_cases h2 : n = ".SECONDARY".toList
      · subst h2; rw [hs, List.mem_singleton] at hf; subst hf; cases hd
      · by_cases h3 : n = ".IGNORE".toList
        · subst h3; rw [hi, List.mem_singleton] at hf; subst hf; cases hd
        · rw [hother n h1 h2 h3] at hf; cases hf
  · rw [(C108_flags_partial db {}).2.2.2.2]
    exact .inr ⟨{}, by rw [hs]; exact List.mem_singleton.2 rfl, rfl⟩
  · rw [← Bool.not_eq_true, (C108_flags_partial db {}).2.2.1]
    rintro (h | h)
    · cases h
    · exact hnd _ hi h.1

/-- C108 fails for double-colon rules: with `.IGNORE:: a` and `.IGNORE:: b` errors are ignored for
`a` only, though both are prerequisites of `.IGNORE`; with `.PRECIOUS` both would be marked. -/
theorem C108_double :
    let two : List SFile := [{ isTarget := true, deps := [{ name := "a".toList }] },
      { isTarget := true, deps := [{ name := "b".toList }] }]
    let db : SDb := ⟨[".IGNORE".toList, ".PRECIOUS".toList, "a".toList, "b".toList], fun m =>
      if m = ".IGNORE".toList then two else if m = ".PRECIOUS".toList then two
      else if m = "a".toList then [{}] else if m = "b".toList then [{}] else []⟩
    RequiredBy db ".IGNORE".toList "b".toList ∧
    ((specialTargets db {}).1.files "a".toList).map (fun f => (f.noerror, f.precious)) =
      [(true, true)] ∧
    ((specialTargets db {}).1.files "b".toList).map (fun f => (f.noerror, f.precious)) =
      [(false, true)] := by
  refine ⟨?_, by decide +kernel, by decide +kernel⟩
  exact ⟨{ isTarget := true, deps := [{ name := "b".toList }] }, by decide +kernel,
    { name := "b".toList }, by decide +kernel, rfl, rfl⟩

end Remake
