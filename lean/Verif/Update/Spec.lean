import Verif.Update.Start
/-!
# Updating targets: the words the properties are stated in
-/
namespace Remake.Spec

/-- What `make` does with the goals. -/
def run (e : Env) (G : Graph) (goals : List Nat) (n k : Nat) : UOut UStatus := updateGoals e n k goals G.initial

/-- What has happened, in the order in which it happened. -/
def trace : UOut UStatus → List UEvent
  | .ok _ s => s.log.reverse
  | .dead s => s.log.reverse
  | .undef s => s.log.reverse
  | .fuel s => s.log.reverse

/-- No file is intermediate. -/
def NoIntermediate (G : Graph) : Prop := ∀ r ∈ G, r.intermediate = false

/-- Neither double-colon rules nor grouped targets nor intermediate files. -/
def Simple (G : Graph) : Prop := ∀ r ∈ G, r.colons = none ∧ r.group = none ∧ r.intermediate = false

/-- Two numbers for the same file: equal, or entries of one double-colon rule. -/
def SameFile (G : Graph) (x y : Nat) : Prop := x = y ∨ ((G.rule x).colons ≠ none ∧ (G.rule x).colons = (G.rule y).colons)

/-- Two files are equal or made together. -/
def MadeTogether (G : Graph) (x y : Nat) : Prop := x = y ∨ ((G.rule x).group ≠ none ∧ (G.rule x).group = (G.rule y).group)

/-- `y` is a prerequisite of `x`, or of a target that is made together with it. -/
def DependsOn (G : Graph) (x y : Nat) : Prop := ∃ z, MadeTogether G x z ∧ y ∈ G.pre z

/-- Following prerequisites leads from `x` to `y`. -/
inductive Leads (G : Graph) (x : Nat) : Nat → Prop
  | refl {y} : SameFile G x y → Leads G x y
  | step {y z w} : Leads G x y → DependsOn G y z → SameFile G z w → Leads G x w

/-- The run came to an end: it has a result, or `make` has given up after an error. -/
def Ended : UOut UStatus → Prop
  | .ok _ _ => True
  | .dead _ => True
  | _ => False

/-- A file that there may be a reason to remake: it does not exist, is phony, or everything is to be
remade; or one of its prerequisites, other than order-only ones, is newer or is such a file itself.
`t0`: the times of the files, 0 or 1 for one that does not exist. -/
inductive Stale (e : Env) (G : Graph) (t0 : Nat → Nat) : Nat → Prop
  | always {f} : e.alwaysMake = true → Stale e G t0 f
  | missing {f} : t0 f ≤ 1 → Stale e G t0 f
  | phony {f} : (G.rule f).phony = true → Stale e G t0 f
  | newer {f p} : (p, false) ∈ (G.rule f).prereqs → t0 f < t0 p → Stale e G t0 f
  | after {f p} : (p, false) ∈ (G.rule f).prereqs → Stale e G t0 p → Stale e G t0 f

/-- The file has a recipe of its own, and there is something in it. -/
def HasRecipe (G : Graph) (f : Nat) : Prop := (G.rule f).cmds = true ∧ (G.rule f).emptyCmds = false

/-- The file exists at the beginning, as far as make is concerned. -/
def IsThere (G : Graph) (t0 : Nat → Nat) (f : Nat) : Prop := (G.rule f).phony = false ∧ 1 < t0 f

/-- A target that is to be remade: everything is to be, or it does not exist; or one of its
prerequisites, other than order-only ones and those in `D`, does not exist, is newer, or is a target
with a recipe that is to be remade. -/
inductive OutOfDate (e : Env) (G : Graph) (t0 : Nat → Nat) (D : Nat → Nat → Prop) : Nat → Prop
  | always {f} : e.alwaysMake = true → OutOfDate e G t0 D f
  | missing {f} : ¬ IsThere G t0 f → OutOfDate e G t0 D f
  | absent {f p} : (p, false) ∈ (G.rule f).prereqs → ¬ D f p → ¬ IsThere G t0 p → OutOfDate e G t0 D f
  | newer {f p} : (p, false) ∈ (G.rule f).prereqs → ¬ D f p → t0 f < t0 p → OutOfDate e G t0 D f
  | after {f p} : (p, false) ∈ (G.rule f).prereqs → ¬ D f p → HasRecipe G p → OutOfDate e G t0 D p → OutOfDate e G t0 D f

/-- A world in which recipes do what they are for: the time of a file is as at the beginning until its
recipe is started; when that has succeeded, the file, if there is one, is newer than all files were at
the beginning.  The time that stands for "new" is later than all others. -/
structure Renews (e : Env) (t0 : Nat → Nat) : Prop where
  before : ∀ i l x, UEvent.start x ∉ l → e.stat i l x = t0 x
  after : ∀ i l x, UEvent.start x ∈ l → UEvent.done x .success ∈ l → e.stat i l x ≤ 1 ∨ ∀ y, t0 y < e.stat i l x
  new : 1 < e.newMtime ∧ ∀ y, t0 y < e.newMtime

end Remake.Spec
