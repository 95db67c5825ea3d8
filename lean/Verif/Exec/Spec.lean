import Verif.Exec.Model
/-!
# What it means to start the right program

Nothing here uses the search of the model.
-/
namespace Remake.Spec
open Remake

/-- The name of the file `name` in a directory of a search path; an empty directory is the working directory. -/
def placed (d name : Str) : Str :=
  if d = [] ∨ d = ['.'] then '.' :: '/' :: name
  else if d.getLast? = some '/' then d ++ name
  else d ++ '/' :: name

/-- A file that may be executed. -/
def Runnable (fs : XFs) (f : Str) : Prop := ∃ r, fs f = .file true r

/-- A directory that may be searched. -/
def Searchable (fs : XFs) (f : Str) : Prop := fs f = .dir true

/-- `f` is the first file called `prog` that may be executed, in the order of the directories. -/
def FirstRunnable (fs : XFs) (dirs : List Str) (prog f : Str) : Prop :=
  ∃ l d r, dirs = l ++ d :: r ∧ f = placed d prog ∧ Runnable fs f ∧ ∀ d' ∈ l, ¬ Runnable fs (placed d' prog)

/-- The directories of a search path: what is between colons. -/
def pathPieces (p : Str) : List Str := p.splitOnP (· == ':')

/-- `PATH` in an environment: what the first entry for it says. -/
def HasPath (env : List Str) (p : Str) : Prop :=
  ∃ l r, env = l ++ (['P', 'A', 'T', 'H', '='] ++ p) :: r ∧ ∀ e ∈ l, ¬ ['P', 'A', 'T', 'H', '='] <+: e

/-- The process that is to run the file `f` as the command `prog :: args`: the file itself, or the shell with it if the
kernel does not know how to run it. -/
def RunsAs (fs : XFs) (env : List Str) (f prog : Str) (args : List Str) (run : XRun) : Prop :=
  (fs f = .file true none ∧ run = ⟨f, prog :: args, env⟩) ∨
  (fs f = .file true (some .noexec) ∧ fs "/bin/sh".toList = .file true none ∧
    run = ⟨"/bin/sh".toList, "/bin/sh".toList :: f :: args, env⟩)

/-- The text a use of the function `shell` should give as far as descriptors are concerned. -/
def shellText : ShCase → Str
  | .empty => []
  | .fails => []
  | .runs output code sig => if sig = 0 ∧ code = 127 then [] else output

end Remake.Spec
