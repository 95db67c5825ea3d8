import Verif.Base.Chars
/-!
# Which makefiles are read

Model of `read_all_makefiles` (read.c 161-286), of the search in `eval_makefile` (read.c 314-449), of the loop over the names of an `include`
line (read.c 897-954), and of `construct_include_path` (read.c 2944-3052).

The state of make and of the file system is a parameter `σ`: a makefile is a script that changes the state and stops at its `include` lines.
-/
namespace Remake

/-- The flags `RM_NO_DEFAULT_GOAL`, `RM_INCLUDED`, `RM_DONTCARE`, `RM_NO_TILDE` (dep.h 36-39). -/
structure MkFlags where
  noDefault : Bool := false
  included : Bool := false
  dontcare : Bool := false
  noTilde : Bool := false
deriving DecidableEq, Repr

/-- An entry of `read_makefiles`: the name of the file, the flags, and whether it could be read (`error` is 0). -/
structure MkDep where
  name : Str
  flags : MkFlags
  found : Bool
deriving DecidableEq, Repr

/-- What `eval` does with a makefile, seen from its `include` lines (read.c 572-1429): it changes the state, ends or is fatal, or includes
files and goes on in the state after that.  `names` are the words of the line (the result of `PARSE_FILE_SEQ`), `noerror` is set for `-include` and
`sinclude`. -/
inductive Script (σ : Type) where
  | done (s : σ)
  | fatal
  | incl (s : σ) (names : List Str) (noerror : Bool) (k : σ → Script σ)

/-- What reading depends on.  The state holds the file system, the variables, the files known and the working directory. -/
structure MkWorld (σ : Type) where
  /-- `fopen` can open the file (if there is a descriptor left). -/
  opens : σ → Str → Bool
  /-- `remake_tilde_expand`. -/
  tilde : σ → Str → Option Str
  /-- `include_directories`. -/
  dirs : List Str
  /-- The name of the file that `lookup_file` finds (read.c 396-399). -/
  known : σ → Str → Option Str
  /-- The addition of a name to `MAKEFILE_LIST` (read.c 422-423). -/
  note : σ → Str → σ
  /-- The contents of a makefile; the flag says whether the default goal may come from there (`set_default`). -/
  script : σ → Str → Bool → Script σ
  /-- `getcwd`. -/
  cwd : σ → Option Str
  /-- `dir_file_exists_p` for the working directory. -/
  here : σ → Str → Bool
  /-- `chdir ("..")`. -/
  up : σ → Option σ
  /-- The working directory has finitely many parents. -/
  depth : σ → Nat
  up_depth : ∀ s s', up s = some s' → cwd s ≠ some ['/'] → depth s' < depth s

variable {σ : Type}

/-- The name of the file to be read, and whether it can be read (read.c 347-393). -/
def findMakefile (W : MkWorld σ) (s : σ) (fl : MkFlags) (name : Str) : Str × Bool :=
  let f := if !fl.noTilde && name.head? == some '~' then (W.tilde s name).getD name else name
  if W.opens s f then (f, true)
  else if fl.included && f.head? != some '/' then
    match W.dirs.find? fun d => W.opens s (d ++ '/' :: f) with
    | some d => (d ++ '/' :: f, true)
    | none => (f, false)
  else (f, false)

/-- The files of an `include` line one after the other (read.c 935-949). -/
def evalAll (ev : Str → σ × List MkDep → Option (σ × List MkDep)) : List Str → σ × List MkDep → Option (σ × List MkDep)
  | [], st => some st
  | n :: ns, st => (ev n st).bind (evalAll ev ns)

/-- The rest of a makefile (read.c 897-954 for its `include` lines).  `ev` reads a file. -/
def runScript (ev : MkFlags → Str → σ × List MkDep → Option (σ × List MkDep)) (noDefault : Bool) :
    Script σ → List MkDep → Option (σ × List MkDep)
  | .done s, ch => some (s, ch)
  | .fatal, _ => none
  | .incl s names noerror k, ch =>
    match evalAll (ev { noDefault := noDefault, included := true, dontcare := noerror, noTilde := true }) names (s, ch) with
    | none => none
    | some st => runScript ev noDefault (k st.1) st.2

/-- `eval_makefile` (read.c 314-449): the state and the chain `read_makefiles`, the last entry first; `none` if make ends with a fatal
error.  `fds` is the number of descriptors left: without one `fopen` sets `EMFILE` (read.c 360-375).  Simplified: the entry is put on
the chain (read.c 322-325) when its name is known; nothing looks at the chain before that. -/
def evalMakefile (W : MkWorld σ) : Nat → MkFlags → Str → σ × List MkDep → Option (σ × List MkDep)
  | 0, _, _, _ => none
  | fds + 1, fl, name, (s, ch) =>
    let r := findMakefile W s fl name
    let n := (W.known s r.1).getD r.1
    let ch := { name := n, flags := fl, found := r.2 } :: ch
    if r.2 then runScript (evalMakefile W fds) fl.noDefault (W.script (W.note s n) n (!fl.noDefault)) ch
    else some (s, ch)

/-- The default names (read.c 230-231). -/
def defaultMakefiles : List Str := ["GNUmakefile".toList, "makefile".toList, "Makefile".toList]

/-- What the search for a default makefile ended with: the value of `p` (read.c 229-259). -/
inductive MkSearch where
  /-- A makefile was read: `p` points to its name. -/
  | read
  /-- `p` points to the end of the names. -/
  | notFound
  /-- `p` is null: the last one seen could not be read. -/
  | unreadable
deriving DecidableEq, Repr

/-- The search for a default makefile (read.c 234-257). -/
def searchDefault (W : MkWorld σ) (fds : Nat) (parent : Bool) (st : σ × List MkDep) : Option (MkSearch × (σ × List MkDep)) :=
  match hc : W.cwd st.1 with
  | none => some (.notFound, st)
  | some c =>
    match defaultMakefiles.find? (W.here st.1) with
    | none =>
      if !parent || c == ['/'] then some (.notFound, st)
      else
        match hu : W.up st.1 with
        | none => some (.notFound, st)
        | some s' =>
          if hr : c = ['/'] then some (.notFound, st) else searchDefault W fds parent (s', st.2)
    | some n =>
      match evalMakefile W fds {} n st with
      | none => none
      | some st1 =>
        if (findMakefile W st.1 {} n).2 then some (.read, st1)
        else if !parent || c == ['/'] then some (.unreadable, st1)
        else
          match hu : W.up st.1 with
          | none => some (.unreadable, st1)
          | some s' =>
            if hr : c = ['/'] then some (.unreadable, st1) else searchDefault W fds parent (s', st1.2)
termination_by W.depth st.1
decreasing_by
  · exact W.up_depth _ _ hu (by rw [hc]; simpa using hr)
  · exact W.up_depth _ _ hu (by rw [hc]; simpa using hr)

/-- `read_all_makefiles` (read.c 161-286): the words of `MAKEFILES`, the makefiles of the options, or a default makefile. -/
def readAllMakefiles (W : MkWorld σ) (fds : Nat) (parent : Bool) (vars fs : List Str) (s : σ) : Option (σ × List MkDep) :=
  match evalAll (evalMakefile W fds { noDefault := true, included := true, dontcare := true }) vars (s, []) with
  | none => none
  | some st =>
    match evalAll (evalMakefile W fds {}) fs st with
    | none => none
    | some st =>
      if fs = [] then
        match searchDefault W fds parent st with
        | none => none
        | some (.unreadable, st) =>
          some (st.1, st.2 ++ defaultMakefiles.map fun n => { name := n, flags := { dontcare := true }, found := false })
        | some (_, st) => some st
      else some st

/-- A directory of the search path: trailing slashes are removed, but not the first one (read.c 2993-2995, 3034-3036). -/
def chopSlashes : Str → Str
  | [] => []
  | c :: d => c :: (d.reverse.dropWhile (· == '/')).reverse

/-- `construct_include_path` (read.c 2944-3052). -/
def includePath (isDir : Str → Bool) (tilde : Str → Option Str) (args defaults : List Str) : List Str :=
  ((args.map fun d => if d.head? == some '~' then (tilde d).getD d else d) ++ defaults).filter isDir |>.map chopSlashes

end Remake
