import Verif.Base.Chars
/-! Specification vocabulary for C13 (absolute file names). -/
namespace Remake.Spec
open Remake

/-- The non-empty components of a file name. -/
def components (s : Str) : List Str := (s.splitOnP (· == '/')).filter (fun c => !c.isEmpty)

/-- Walk the components from the directory `base`: `.` stays, `..` goes up (and stays at the
root), anything else goes down. -/
def resolve (base : List Str) : List Str → List Str
  | [] => base
  | c :: cs =>
    if c = ['.'] then resolve base cs
    else if c = ['.', '.'] then resolve base.dropLast cs
    else resolve (base ++ [c]) cs

/-- The absolute file name with the given components. -/
def pathOf (cs : List Str) : Str := '/' :: ['/'].intercalate cs

/-- A proper component: not empty, not `.` or `..`, no slash. -/
def Proper (c : Str) : Prop := c ≠ [] ∧ c ≠ ['.'] ∧ c ≠ ['.', '.'] ∧ '/' ∉ c

end Remake.Spec
