import Verif.Dir.Model

/-! # What the cache of directories should answer -/
namespace Remake.Spec
open Remake

/-- `name` is the file `b` of the directory `d`. -/
def InDir (name d b : Str) : Prop :=
  '/' ∉ b ∧ (name = b ∧ d = ['.'] ∨ name = '/' :: b ∧ d = ['/'] ∨ d ≠ [] ∧ name = d ++ '/' :: b)

/-- The directory can be read, and has these entries. -/
def Lists (w : DirWorld) (d : Str) (es : List Dirent) : Prop := ∃ id, w.stat d = some id ∧ w.opendir id = some es

/-- The directory can be read. -/
def Readable (w : DirWorld) (d : Str) : Prop := ∃ es, Lists w d es

/-- The directory has a file of that name. -/
def Has (w : DirWorld) (d b : Str) : Prop := ∃ es, Lists w d es ∧ ∃ ino, ino ≠ 0 ∧ Dirent.entry b ino ∈ es

/-- A file system that can be read without errors and does not change. -/
structure Steady (w : DirWorld) : Prop where
  same : ∀ s, w.resume s = s
  sound : ∀ id es, w.opendir id = some es → Dirent.error ∉ es

/-- Two names for the same directory; one that cannot be found is only the same as itself. -/
def SameDir (w : DirWorld) (d e : Str) : Prop := d = e ∨ ∃ id, w.stat d = some id ∧ w.stat e = some id

/-- Files are marked only if they do not exist, as the search for implicit rules does. -/
def MarksAbsent (w : DirWorld) (ops : List DirOp) : Prop :=
  ∀ n, DirOp.mark n ∈ ops → ∀ d b, InDir n d b → ¬ Has w d b

end Remake.Spec
