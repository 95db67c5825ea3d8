import Verif.Snap.Props
/-! What second expansion leaves alone in every case (C107). -/
set_option linter.unusedVariables false
set_option linter.unusedSimpArgs false
namespace Remake
namespace Spec

/-- A record without its prerequisites and variables. -/
def bareRecord (f : SFile) : SFile := { f with deps := [], vars := none }

/-- The files of the first table are in the second, with the same records but for prerequisites
and variables; new names come after the old ones. -/
def SameRecords (a b : SDb) : Prop :=
  a.names <+: b.names ∧
  ∀ m, a.files m ≠ [] → (b.files m).map bareRecord = (a.files m).map bareRecord

end Spec
open Spec

theorem same_refl (a : SDb) : SameRecords a a := ⟨List.prefix_refl _, fun _ _ => rfl⟩

theorem same_trans {a b c : SDb} (h1 : SameRecords a b) (h2 : SameRecords b c) :
    SameRecords a c := by
  refine ⟨h1.1.trans h2.1, fun m hm => ?_⟩
  have e := h1.2 m hm
  have : b.files m ≠ [] := by
    intro hb; rw [hb] at e
    exact hm (by simpa using e.symm)
  rw [h2.2 m this, e]

theorem same_enter (db : SDb) (n : Str) : SameRecords db (db.enter n).1 := by
  unfold SDb.enter
  split
  · exact same_refl _
  · split
    · exact same_refl _
    · rename_i h
      refine ⟨List.prefix_append _ _, fun m hm => ?_⟩
      have : m ≠ n := by rintro rfl; exact h hm
      simp [this]

theorem same_enterAll : ∀ (ps : List PreReq) (db : SDb), SameRecords db (db.enterAll ps).1
  | [], db => same_refl _
  | p :: ps, db => by
    simp only [SDb.enterAll]
    exact same_trans (same_enter db p.name) (same_enterAll ps _)

theorem same_expandRest (env : FsEnv) (ex : SFile → Str → Str) (f : SFile) :
    ∀ (ds done : List SDep) (db : SDb) {r : SDb × List SDep},
      expandRest env ex f done ds db = some r → SameRecords db r.1 := by
  intro ds
  induction ds with
  | nil => intro done db r h; simp only [expandRest, Option.some.injEq] at h; subst h; exact same_refl _
  | cons d ds ih =>
    intro done db r h
    rw [expandRest] at h
    split at h
    · exact ih _ _ h
    · dsimp only at h
      generalize splitPrereqs env _ = o at h
      cases o with
      | none => simp at h
      | some ps => exact same_trans (same_enterAll _ db) (ih _ _ h)

theorem same_setAt {db : SDb} {n : Str} {i : Nat} {g : SFile → SFile}
    (hg : ∀ f, bareRecord (g f) = bareRecord f) : SameRecords db (db.setAt n i g) := by
  refine ⟨List.prefix_refl _, fun m hm => ?_⟩
  by_cases e : m = n
  · subst e
    simp only [SDb.setAt, if_true]
    apply List.ext_getElem?
    intro j
    simp only [List.getElem?_map, List.getElem?_modify]
    cases (db.files m)[j]? with
    | none => rfl
    | some f => by_cases hj : i = j <;> simp [hj, hg]
  · simp [SDb.setAt, e]

theorem same_secondFile (env : FsEnv) (ex : List SFile → Str → SFile → Str → Str) {db db' : SDb}
    {n : Str} {i : Nat} (h : secondFile env ex db n i = some db') : SameRecords db db' := by
  unfold secondFile at h
  split at h
  · cases h; exact same_refl _
  · split at h
    · simp at h
    · rename_i f hf _ d1 deps hr
      have h0 := same_expandRest env _ f _ _ _ hr
      split at h <;> (simp only [Option.some.injEq] at h; subst h)
      · refine same_trans (same_trans (same_trans h0 (same_setAt ?_)) (same_setAt ?_))
          (same_setAt ?_) <;> intro _ <;> rfl
      · refine same_trans h0 (same_setAt ?_); intro _; rfl

theorem same_records (env : FsEnv) (ex : List SFile → Str → SFile → Str → Str) (n : Str) :
    ∀ (is : List Nat) (db : SDb) {db' : SDb}, expandRecords env ex n is db = some db' →
      SameRecords db db'
  | [], db, db', h => by simp only [expandRecords, Option.some.injEq] at h; subst h; exact same_refl _
  | i :: is, db, db', h => by
    rw [expandRecords, Option.bind_eq_some_iff] at h
    obtain ⟨d1, h1, h2⟩ := h
    exact same_trans (same_secondFile env ex h1) (same_records env ex n is d1 h2)

theorem same_names (env : FsEnv) (ex : List SFile → Str → SFile → Str → Str) :
    ∀ (ns : List Str) (db : SDb) {db' : SDb}, expandNames env ex ns db = some db' →
      SameRecords db db'
  | [], db, db', h => by simp only [expandNames, Option.some.injEq] at h; subst h; exact same_refl _
  | n :: ns, db, db', h => by
    rw [expandNames] at h
    split at h
    · exact same_names env ex ns db h
    · rw [Option.bind_eq_some_iff] at h
      obtain ⟨d1, h1, h2⟩ := h
      exact same_trans (same_records env ex n _ db h1) (same_names env ex ns d1 h2)

/-- C107: whatever the expansions give, second expansion removes no target and no record of one,
and changes nothing but prerequisites and whether there are variables; files that are new come
after those that were there. -/
theorem C107_records (env : FsEnv) (ex : List SFile → Str → SFile → Str → Str) {db db' : SDb}
    (h : secondExpand env ex db = some db') :
    db.names <+: db'.names ∧
    ∀ m, db.files m ≠ [] → (db'.files m).map bareRecord = (db.files m).map bareRecord := by
  unfold secondExpand at h
  rw [Option.bind_eq_some_iff] at h
  obtain ⟨d1, h1, h2⟩ := h
  exact same_trans (same_records env ex _ _ db h1) (same_names env ex _ d1 h2)

/-- A file that is in the table under a spelling that is not the normal one keeps its records. -/
example : ((SDb.mk [".//x".toList] fun m => if m = ".//x".toList then
    [{ isTarget := true, phony := true }] else []).enter ".//x".toList).1.files ".//x".toList
    = [{ isTarget := true, phony := true }] := by decide +kernel

end Remake
