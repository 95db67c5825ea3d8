import Verif.Snap.Model
import Verif.Files.Props
/-! Specification vocabulary for what happens between reading and updating (C107 to C109). -/
namespace Remake.Spec
open Remake

/-! ## Second expansion -/

/-- `PrereqText t ps`: the text lists the prerequisites `ps`, in this order, each one with whether
it is order-only. -/
inductive PrereqText : Str → List (Str × Bool) → Prop where
  | normal {t : Str} {ns : List Str} : Listing endsName true ns t → (∀ w ∈ ns, PlainWord w) →
      PrereqText t (ns.map fun w => (w, false))
  | both {t1 t2 : Str} {ns os : List Str} : Listing endsName false ns t1 →
      Listing isBlank true os t2 → (∀ w ∈ ns, PlainWord w) → (∀ w ∈ os, PlainWord w) →
      PrereqText (t1 ++ '|' :: t2) (ns.map (fun w => (w, false)) ++ os.map fun w => (w, true))

/-- The text of a line as it is expanded for the second time: in a static pattern rule each percent
sign is `$*`. -/
def LineText (d : SDep) (t : Str) : Prop :=
  (d.static = true ∧ Substituted ['%'] ['$', '*'] d.name t) ∨ (d.static = false ∧ t = d.name)

/-- `Second g ex f done ds r`: with the prerequisites `done` in front, the prerequisites `ds` of
the record `f` become `r`: each line that waits is replaced, at its place, by the prerequisites
that its text lists after expansion for this target (`g`: names without leading `./`). -/
inductive Second (g : Str → Str) (ex : SFile → Str → Str) (f : SFile) :
    List SDep → List SDep → List SDep → Prop where
  | nil {done : List SDep} : Second g ex f done [] done
  | plain {done ds r : List SDep} {d : SDep} : d.pending = false →
      Second g ex f (done ++ [d]) ds r → Second g ex f done (d :: ds) r
  | line {done ds r : List SDep} {d : SDep} {t : Str} {ps : List (Str × Bool)} :
      d.pending = true → LineText d t →
      PrereqText (ex { f with
          deps := done ++ { d with name := t, static := false } :: ds,
          stem := if d.stem.isSome then d.stem else f.stem } t) ps →
      (d.stem = none ∨ ∀ p ∈ ps, '%' ∉ p.1) →
      Second g ex f
        (done ++ ps.map fun p => { name := g p.1, orderOnly := p.2, stem := d.stem }) ds r →
      Second g ex f done (d :: ds) r

/-- Does a record have a line that waits? -/
def waits (f : SFile) : Bool := f.deps.any (·.pending)

/-- The records `fs` of a target with the prerequisites `R`: a record that had a line to expand
has variables of its own now, and so has the first record if any of them had. -/
def secondRecords (R : Nat → List SDep) (fs : List SFile) : List SFile :=
  fs.mapIdx fun j f =>
    { f with
      deps := R j,
      vars := if waits f || (j == 0 && fs.any waits) then some (f.vars.getD none) else f.vars }

/-- A table as it is after reading: it has just the names it lists, each one once, and every file
that a prerequisite names. -/
structure ReadTable (db : SDb) : Prop where
  listed : ∀ m, m ∈ db.names ↔ db.files m ≠ []
  once : db.names.Nodup
  closed : ∀ n, ∀ f ∈ db.files n, ∀ d ∈ f.deps, d.pending = false → db.files d.name ≠ []

/-! ## Special targets -/

/-- Is `m` a prerequisite of a rule for `special`? -/
def RequiredBy (db : SDb) (special m : Str) : Prop :=
  ∃ f ∈ db.files special, ∃ d ∈ f.deps, d.pending = false ∧ d.name = m

/-- Is `m` a prerequisite of the first record of `special`? -/
def FirstRequires (db : SDb) (special m : Str) : Prop :=
  ∃ f, (db.files special)[0]? = some f ∧ ∃ d ∈ f.deps, d.pending = false ∧ d.name = m

/-- Is `special` a target: of a rule, or because it is phony? -/
def Declared (db : SDb) (special : Str) : Prop :=
  ∃ f, (db.files special)[0]? = some f ∧
    (f.isTarget = true ∨ RequiredBy db ".PHONY".toList special)

/-- Has the first record of `special` no prerequisites? -/
def Bare (db : SDb) (special : Str) : Prop :=
  ∃ f, (db.files special)[0]? = some f ∧ f.deps = []

/-! ## Extra prerequisites -/

/-- The prerequisites of a list of extra ones: they do not take part in automatic variables. -/
def extraDeps (g : Str → Str) (ps : List (Str × Bool)) : List SDep :=
  ps.map fun p => { name := g p.1, orderOnly := p.2, hidden := true }

/-- `Extra g glob n f ds`: the file `n` with the record `f` gets the extra prerequisites `ds`,
where `glob` are those of the global variable. -/
inductive Extra (g : Str → Str) (glob : List SDep) (n : Str) (f : SFile) : List SDep → Prop where
  | own {t : Str} {ps : List (Str × Bool)} : f.vars = some (some t) → PrereqText t ps →
      (∀ p ∈ ps, g p.1 ≠ n) → Extra g glob n f (extraDeps g ps)
  | ownSelf {t : Str} {ps : List (Str × Bool)} {p : Str × Bool} : f.vars = some (some t) →
      PrereqText t ps → p ∈ ps → g p.1 = n → Extra g glob n f []
  | ownNone : f.vars = some none → Extra g glob n f []
  | global : f.vars = none → f.isTarget = true → (∀ d ∈ glob, d.name ≠ n) → Extra g glob n f glob
  | globalSelf {d : SDep} : f.vars = none → f.isTarget = true → d ∈ glob → d.name = n →
      Extra g glob n f []
  | notTarget : f.vars = none → f.isTarget = false → Extra g glob n f []

end Remake.Spec
