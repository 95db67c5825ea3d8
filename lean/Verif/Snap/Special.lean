import Verif.Snap.Lemmas
/-! C108: what special targets do. -/
set_option linter.unusedVariables false
set_option linter.unusedSimpArgs false
namespace Remake
open Spec

/-- Is `m` named by one of the prerequisites? -/
def namedIn (ds : List SDep) (m : Str) : Bool := ds.any fun d => !d.pending && d.name == m

/-- Is `m` named by a prerequisite of one of the records? -/
def namedBy (fs : List SFile) (m : Str) : Bool := fs.any fun f => namedIn f.deps m

theorem mark_files (db : SDb) (g : SFile → SFile) (n m : Str) :
    (db.mark g n).files m = (db.files m).map fun f => if n = m then g f else f := by
  simp only [SDb.mark]
  by_cases h : n = m
  · subst h; simp
  · have : m ≠ n := fun e => h e.symm
    simp [h, this]

theorem markDeps_files {g : SFile → SFile} (hg : ∀ f, g (g f) = g f) (m : Str) :
    ∀ (ds : List SDep) (db : SDb),
      (db.markDeps g ds).files m = (db.files m).map (fun f => if namedIn ds m then g f else f) ∧
      (db.markDeps g ds).names = db.names := by
  intro ds
  induction ds with
  | nil => intro db; simp [SDb.markDeps, namedIn]
  | cons d ds ih =>
    intro db
    rw [SDb.markDeps]
    cases hp : d.pending
    · simp only [Bool.false_eq_true, if_false]
      obtain ⟨e1, e2⟩ := ih (db.mark g d.name)
      refine ⟨?_, e2⟩
      rw [e1, mark_files, List.map_map]
      congr 1
      funext f
      simp only [Function.comp, namedIn, List.any_cons, hp, Bool.not_false, Bool.true_and]
      by_cases h : d.name = m
      · simp only [h, if_true, beq_self_eq_true, Bool.true_or]
        split
        · exact hg f
        · rfl
      · simp [h]
    · simp only [if_true]
      obtain ⟨e1, e2⟩ := ih db
      refine ⟨?_, e2⟩
      rw [e1]
      simp [namedIn, hp]

theorem markFold_files {g : SFile → SFile} (hg : ∀ f, g (g f) = g f) (m : Str) :
    ∀ (fs : List SFile) (db : SDb),
      (fs.foldl (fun db f => db.markDeps g f.deps) db).files m =
        (db.files m).map (fun f => if namedBy fs m then g f else f) ∧
      (fs.foldl (fun db f => db.markDeps g f.deps) db).names = db.names := by
  intro fs
  induction fs with
  | nil => intro db; simp [namedBy]
  | cons x fs ih =>
    intro db
    rw [List.foldl_cons]
    obtain ⟨e1, e2⟩ := ih (db.markDeps g x.deps)
    obtain ⟨e3, e4⟩ := markDeps_files hg m x.deps db
    refine ⟨?_, by rw [e2, e4]⟩
    rw [e1, e3, List.map_map]
    congr 1
    funext f
    simp only [Function.comp, namedBy, List.any_cons]
    by_cases hx : namedIn x.deps m = true
    · simp only [hx, if_true, Bool.true_or]
      split
      · exact hg f
      · rfl
    · simp [hx]

theorem markAll_files {g : SFile → SFile} (hg : ∀ f, g (g f) = g f) (db : SDb) (s m : Str) :
    (db.markAll g s).files m = (db.files m).map (fun f => if namedBy (db.files s) m then g f else f) :=
  (markFold_files hg m _ db).1

theorem markAll_names {g : SFile → SFile} (hg : ∀ f, g (g f) = g f) (db : SDb) (s : Str) :
    (db.markAll g s).names = db.names := (markFold_files hg [] _ db).2

theorem namedBy_map {h : SFile → SFile} (hh : ∀ f, (h f).deps = f.deps) (fs : List SFile) (m : Str) :
    namedBy (fs.map h) m = namedBy fs m := by
  simp [namedBy, List.any_map, Function.comp_def, hh]

/-- The table `db` with every record changed by its name. -/
def SDb.mapAll (db : SDb) (h : Str → SFile → SFile) : SDb :=
  { db with files := fun m => (db.files m).map (h m) }

theorem sdb_ext {a b : SDb} (h1 : a.names = b.names) (h2 : ∀ m, a.files m = b.files m) : a = b := by
  cases a; cases b
  simp only [SDb.mk.injEq]
  exact ⟨h1, funext h2⟩

theorem markAll_mapAll {g : SFile → SFile} (hg : ∀ f, g (g f) = g f) {h : Str → SFile → SFile}
    (hh : ∀ m f, (h m f).deps = f.deps) (db : SDb) (s : Str) :
    (db.mapAll h).markAll g s = db.mapAll fun m f =>
      if namedBy (db.files s) m then g (h m f) else h m f := by
  apply sdb_ext
  · rw [markAll_names hg]; rfl
  · intro m
    rw [markAll_files hg]
    simp only [SDb.mapAll, List.map_map, namedBy_map (hh s)]
    rfl

theorem namedBy_iff (db : SDb) (s m : Str) : namedBy (db.files s) m = true ↔ RequiredBy db s m := by
  simp only [namedBy, namedIn, RequiredBy, List.any_eq_true, Bool.and_eq_true, Bool.not_eq_true',
    beq_iff_eq]

/-- The names of the first record's prerequisites, if it is a target. -/
def firstNamed (db : SDb) (s m : Str) (t : Bool) : Bool :=
  match (db.files s)[0]? with
  | none => false
  | some f => (f.isTarget || t) && namedIn f.deps m

/-- Is the first record a target without prerequisites? -/
def firstBare (db : SDb) (s : Str) (t : Bool) : Bool :=
  match (db.files s)[0]? with
  | none => false
  | some f => (f.isTarget || t) && f.deps.isEmpty

theorem markFirst_mapAll {g : SFile → SFile} (hg : ∀ f, g (g f) = g f) {h : Str → SFile → SFile}
    {t : Bool} {s : Str} (hh : ∀ m f, (h m f).deps = f.deps)
    (ht : ∀ f, (h s f).isTarget = (f.isTarget || t)) (db : SDb) :
    markFirst (db.mapAll h) g s =
      (db.mapAll fun m f => if firstNamed db s m t then g (h m f) else h m f, firstBare db s t) := by
  unfold markFirst firstNamed firstBare
  have e : ((db.mapAll h).files s)[0]? = ((db.files s)[0]?).map (h s) := by
    simp [SDb.mapAll]
  rw [e]
  cases hf : (db.files s)[0]? with
  | none => simp [SDb.mapAll]
  | some f =>
    simp only [Option.map_some, ht, hh]
    by_cases hb : (f.isTarget || t) = true
    case neg => simp only [Bool.not_eq_true] at hb; simp [hb, SDb.mapAll]
    case pos =>
      simp only [hb, Bool.true_eq_false, if_false, Bool.true_and]
      by_cases hd : f.deps = []
      · simp [hd, namedIn, SDb.mapAll]
      · simp only [hd, if_false]
        have : f.deps.isEmpty = false := by
          cases hx : f.deps with
          | nil => exact absurd hx hd
          | cons _ _ => rfl
        rw [this]
        congr 1
        apply sdb_ext
        · exact (markDeps_files hg [] f.deps _).2
        · intro m
          rw [(markDeps_files hg m f.deps _).1]
          simp only [SDb.mapAll, List.map_map]
          rfl

theorem firstIsTarget_mapAll {h : Str → SFile → SFile} {t : Bool} {s : Str}
    (ht : ∀ f, (h s f).isTarget = (f.isTarget || t)) (db : SDb) :
    firstIsTarget (db.mapAll h) s = ((db.files s)[0]?).any fun f => f.isTarget || t := by
  unfold firstIsTarget
  have e : ((db.mapAll h).files s)[0]? = ((db.files s)[0]?).map (h s) := by
    simp [SDb.mapAll]
  rw [e]
  cases (db.files s)[0]? <;> simp [ht]

/-- What becomes of a record of `m`. -/
def marked (db : SDb) (m : Str) (f : SFile) : SFile :=
  let P := fun s => namedBy (db.files s) m
  let T := fun s => namedBy (db.files ".PHONY".toList) s
  { f with
    precious := f.precious || P ".PRECIOUS".toList,
    lowRes := f.lowRes || P ".LOW_RESOLUTION_TIME".toList,
    phony := f.phony || P ".PHONY".toList,
    isTarget := f.isTarget || P ".PHONY".toList,
    intermediate := f.intermediate || P ".INTERMEDIATE".toList || P ".SECONDARY".toList,
    secondary := f.secondary || P ".SECONDARY".toList,
    noerror := f.noerror || firstNamed db ".IGNORE".toList m (T ".IGNORE".toList),
    silent := f.silent || firstNamed db ".SILENT".toList m (T ".SILENT".toList) }

theorem specialTargets_eq (db : SDb) (fl : SnapFlags) :
    let T := fun s => namedBy (db.files ".PHONY".toList) s
    specialTargets db fl = (db.mapAll (marked db),
      { allSecondary := fl.allSecondary || (db.files ".SECONDARY".toList).any (·.deps.isEmpty),
        exportAll := fl.exportAll || ((db.files ".EXPORT_ALL_VARIABLES".toList)[0]?).any fun f =>
          f.isTarget || T ".EXPORT_ALL_VARIABLES".toList,
        ignoreErrors := fl.ignoreErrors || firstBare db ".IGNORE".toList (T ".IGNORE".toList),
        runSilent := fl.runSilent || firstBare db ".SILENT".toList (T ".SILENT".toList),
        notParallel := fl.notParallel || ((db.files ".NOTPARALLEL".toList)[0]?).any fun f =>
          f.isTarget || T ".NOTPARALLEL".toList }) := by
  intro T
  have h0 : db = db.mapAll fun _ f => f := by
    apply sdb_ext
    · rfl
    · intro m; simp [SDb.mapAll]
  have m1 := markAll_mapAll (g := fun f => { f with precious := true }) (fun _ => rfl)
    (h := fun _ f => f) (fun _ _ => rfl) db ".PRECIOUS".toList
  rw [← h0] at m1
  have e1 : (fun m (f : SFile) => if namedBy (db.files ".PRECIOUS".toList) m then
      { f with precious := true } else f) = fun m f =>
      { f with precious := f.precious || namedBy (db.files ".PRECIOUS".toList) m } := by
    funext m f
    split <;> rename_i h <;> (try simp only [Bool.not_eq_true] at h) <;>
      simp only [h, Bool.or_true, Bool.or_false]
  rw [e1] at m1
  unfold specialTargets
  simp only [m1]
  have m2 := markAll_mapAll (g := fun f => { f with lowRes := true }) (fun _ => rfl)
    (h := fun m f => { f with precious := f.precious || namedBy (db.files ".PRECIOUS".toList) m })
    (fun _ _ => rfl) db ".LOW_RESOLUTION_TIME".toList
  have e2 : (fun m (f : SFile) => if namedBy (db.files ".LOW_RESOLUTION_TIME".toList) m then
      { f with precious := f.precious || namedBy (db.files ".PRECIOUS".toList) m, lowRes := true }
      else { f with precious := f.precious || namedBy (db.files ".PRECIOUS".toList) m }) = fun m f =>
      { f with
        precious := f.precious || namedBy (db.files ".PRECIOUS".toList) m,
        lowRes := f.lowRes || namedBy (db.files ".LOW_RESOLUTION_TIME".toList) m } := by
    funext m f
    split <;> rename_i h <;> (try simp only [Bool.not_eq_true] at h) <;>
      simp only [h, Bool.or_true, Bool.or_false]
  rw [e2] at m2
  simp only [m2]
  have m3 := markAll_mapAll (g := SFile.makePhony) (fun _ => rfl)
    (h := fun m f => { f with
        precious := f.precious || namedBy (db.files ".PRECIOUS".toList) m,
        lowRes := f.lowRes || namedBy (db.files ".LOW_RESOLUTION_TIME".toList) m })
    (fun _ _ => rfl) db ".PHONY".toList
  have e3 : (fun m (f : SFile) => if namedBy (db.files ".PHONY".toList) m then
      SFile.makePhony { f with
        precious := f.precious || namedBy (db.files ".PRECIOUS".toList) m,
        lowRes := f.lowRes || namedBy (db.files ".LOW_RESOLUTION_TIME".toList) m }
      else { f with
        precious := f.precious || namedBy (db.files ".PRECIOUS".toList) m,
        lowRes := f.lowRes || namedBy (db.files ".LOW_RESOLUTION_TIME".toList) m }) = fun m f =>
      { f with
        precious := f.precious || namedBy (db.files ".PRECIOUS".toList) m,
        lowRes := f.lowRes || namedBy (db.files ".LOW_RESOLUTION_TIME".toList) m,
        phony := f.phony || namedBy (db.files ".PHONY".toList) m,
        isTarget := f.isTarget || namedBy (db.files ".PHONY".toList) m } := by
    funext m f
    split <;> rename_i h <;> (try simp only [Bool.not_eq_true] at h) <;>
      simp only [h, Bool.or_true, Bool.or_false, SFile.makePhony]
  rw [e3] at m3
  simp only [m3]
  have m4 := markAll_mapAll (g := fun f => { f with intermediate := true }) (fun _ => rfl)
    (h := fun m f => { f with
        precious := f.precious || namedBy (db.files ".PRECIOUS".toList) m,
        lowRes := f.lowRes || namedBy (db.files ".LOW_RESOLUTION_TIME".toList) m,
        phony := f.phony || namedBy (db.files ".PHONY".toList) m,
        isTarget := f.isTarget || namedBy (db.files ".PHONY".toList) m })
    (fun _ _ => rfl) db ".INTERMEDIATE".toList
  have e4 : (fun m (f : SFile) => if namedBy (db.files ".INTERMEDIATE".toList) m then
      { f with
        precious := f.precious || namedBy (db.files ".PRECIOUS".toList) m,
        lowRes := f.lowRes || namedBy (db.files ".LOW_RESOLUTION_TIME".toList) m,
        phony := f.phony || namedBy (db.files ".PHONY".toList) m,
        isTarget := f.isTarget || namedBy (db.files ".PHONY".toList) m, intermediate := true }
      else { f with
        precious := f.precious || namedBy (db.files ".PRECIOUS".toList) m,
        lowRes := f.lowRes || namedBy (db.files ".LOW_RESOLUTION_TIME".toList) m,
        phony := f.phony || namedBy (db.files ".PHONY".toList) m,
        isTarget := f.isTarget || namedBy (db.files ".PHONY".toList) m }) = fun m f =>
      { f with
        precious := f.precious || namedBy (db.files ".PRECIOUS".toList) m,
        lowRes := f.lowRes || namedBy (db.files ".LOW_RESOLUTION_TIME".toList) m,
        phony := f.phony || namedBy (db.files ".PHONY".toList) m,
        isTarget := f.isTarget || namedBy (db.files ".PHONY".toList) m,
        intermediate := f.intermediate || namedBy (db.files ".INTERMEDIATE".toList) m } := by
    funext m f
    split <;> rename_i h <;> (try simp only [Bool.not_eq_true] at h) <;>
      simp only [h, Bool.or_true, Bool.or_false]
  rw [e4] at m4
  simp only [m4]
  have m5 := markAll_mapAll (g := fun f => { f with intermediate := true, secondary := true })
    (fun _ => rfl)
    (h := fun m f => { f with
        precious := f.precious || namedBy (db.files ".PRECIOUS".toList) m,
        lowRes := f.lowRes || namedBy (db.files ".LOW_RESOLUTION_TIME".toList) m,
        phony := f.phony || namedBy (db.files ".PHONY".toList) m,
        isTarget := f.isTarget || namedBy (db.files ".PHONY".toList) m,
        intermediate := f.intermediate || namedBy (db.files ".INTERMEDIATE".toList) m })
    (fun _ _ => rfl) db ".SECONDARY".toList
  let h5 : Str → SFile → SFile := fun m f => { f with
        precious := f.precious || namedBy (db.files ".PRECIOUS".toList) m,
        lowRes := f.lowRes || namedBy (db.files ".LOW_RESOLUTION_TIME".toList) m,
        phony := f.phony || namedBy (db.files ".PHONY".toList) m,
        isTarget := f.isTarget || namedBy (db.files ".PHONY".toList) m,
        intermediate := f.intermediate || namedBy (db.files ".INTERMEDIATE".toList) m
          || namedBy (db.files ".SECONDARY".toList) m,
        secondary := f.secondary || namedBy (db.files ".SECONDARY".toList) m }
  have e5 : (fun m (f : SFile) => if namedBy (db.files ".SECONDARY".toList) m then
      { f with
        precious := f.precious || namedBy (db.files ".PRECIOUS".toList) m,
        lowRes := f.lowRes || namedBy (db.files ".LOW_RESOLUTION_TIME".toList) m,
        phony := f.phony || namedBy (db.files ".PHONY".toList) m,
        isTarget := f.isTarget || namedBy (db.files ".PHONY".toList) m, intermediate := true,
        secondary := true }
      else { f with
        precious := f.precious || namedBy (db.files ".PRECIOUS".toList) m,
        lowRes := f.lowRes || namedBy (db.files ".LOW_RESOLUTION_TIME".toList) m,
        phony := f.phony || namedBy (db.files ".PHONY".toList) m,
        isTarget := f.isTarget || namedBy (db.files ".PHONY".toList) m,
        intermediate := f.intermediate || namedBy (db.files ".INTERMEDIATE".toList) m }) = h5 := by
    funext m f
    split <;> rename_i h <;> (try simp only [Bool.not_eq_true] at h) <;>
      simp only [h, Bool.or_true, Bool.or_false, h5]
  rw [e5] at m5
  simp only [m5]
  have m6 := firstIsTarget_mapAll (h := h5) (t := T ".EXPORT_ALL_VARIABLES".toList)
    (s := ".EXPORT_ALL_VARIABLES".toList) (fun _ => rfl) db
  have m7 := markFirst_mapAll (g := fun f => { f with noerror := true }) (fun _ => rfl) (h := h5)
    (t := T ".IGNORE".toList) (s := ".IGNORE".toList) (fun _ _ => rfl) (fun _ => rfl) db
  let h7 : Str → SFile → SFile := fun m f => { h5 m f with
    noerror := f.noerror || firstNamed db ".IGNORE".toList m (T ".IGNORE".toList) }
  have e7 : (fun m (f : SFile) => if firstNamed db ".IGNORE".toList m (T ".IGNORE".toList) then
      { h5 m f with noerror := true } else h5 m f) = h7 := by
    funext m f
    split <;> rename_i h <;> (try simp only [Bool.not_eq_true] at h) <;>
      simp only [h, Bool.or_true, Bool.or_false, h5, h7]
  rw [e7] at m7
  have m8 := markFirst_mapAll (g := fun f => { f with silent := true }) (fun _ => rfl) (h := h7)
    (t := T ".SILENT".toList) (s := ".SILENT".toList) (fun _ _ => rfl) (fun _ => rfl) db
  have e8 : (fun m (f : SFile) => if firstNamed db ".SILENT".toList m (T ".SILENT".toList) then
      { h7 m f with silent := true } else h7 m f) = marked db := by
    funext m f
    split <;> rename_i h
    · simp only [T] at h; simp only [h, h5, h7, marked, T, Bool.or_true]
    · simp only [T, Bool.not_eq_true] at h; simp only [h, h5, h7, marked, T, Bool.or_false]
  rw [e8] at m8
  have m9 := firstIsTarget_mapAll (h := marked db) (t := T ".NOTPARALLEL".toList)
    (s := ".NOTPARALLEL".toList) (fun _ => rfl) db
  have m10 : ((db.mapAll fun m (f : SFile) => { f with
        precious := f.precious || namedBy (db.files ".PRECIOUS".toList) m,
        lowRes := f.lowRes || namedBy (db.files ".LOW_RESOLUTION_TIME".toList) m,
        phony := f.phony || namedBy (db.files ".PHONY".toList) m,
        isTarget := f.isTarget || namedBy (db.files ".PHONY".toList) m,
        intermediate := f.intermediate || namedBy (db.files ".INTERMEDIATE".toList) m }).files
        ".SECONDARY".toList).any (·.deps.isEmpty) =
      (db.files ".SECONDARY".toList).any (·.deps.isEmpty) := by
    simp only [SDb.mapAll, List.any_map, Function.comp_def]
  simp only [m6, m7, m8, m9, m10]

end Remake
