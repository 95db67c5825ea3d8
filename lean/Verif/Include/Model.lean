import Verif.Reader.Model
/-!
# Included makefiles

Models the `include` lines of `eval` (`src/read.c` lines 896-955) and `eval_makefile` (314-449) on top of the loop of
`Verif/Reader/Model.lean`.  An error that stops make while an included file is read is the state `none`, which nothing
leaves.  Every makefile stays open while the files it includes are read; the number of files that can still be opened is a
parameter, and when it is used up make stops (read.c 360-374).

Simplifications: what is printed, the debugger's stop before reading (425-427), line numbers and the number of lines of a
file (436) are left out.  A file that can be opened but not read (a directory) is not represented.  The `~` at the start of
a name is not looked at here, as it has been replaced when the line was parsed (`RM_NO_TILDE`).
-/
namespace Remake

/-- What is needed beside the reader. -/
structure IncEnv (σ : Type) where
  base : RdEnv σ
  /-- `fopen` and the logical lines of the file. -/
  content : σ → Str → Option (List Str)
  /-- `include_directories`. -/
  dirs : List Str
  /-- The entry in `read_makefiles`: the name, whether errors matter not (`RM_DONTCARE`), whether it was opened
  (read.c 323-325, 395-415). -/
  note : σ → Str → Bool → Bool → σ
  /-- The name is appended to `MAKEFILE_LIST` (read.c 421-423). -/
  listed : σ → Str → σ

/-- The file in a directory of the search path (read.c 384-385). -/
def inDir (dir name : Str) : Str := dir ++ '/' :: name

/-- The search for an included makefile (read.c 357, 376-393): the name, and the lines if it could be opened. -/
def openIncluded (content : Str → Option (List Str)) (dirs : List Str) (name : Str) : Str × Option (List Str) :=
  match content name with
  | some ls => (name, some ls)
  | none =>
    if name.head? = some '/' then (name, none)
    else
      match dirs.find? fun d => (content (inDir d name)).isSome with
      | none => (name, none)
      | some d => (inDir d name, content (inDir d name))

/-- `eval_makefile` (read.c 314-449) for an included file; `rd` is `eval`. -/
def evalIncluded {σ : Type} (rd : σ → List Str → Option σ) (I : IncEnv σ) (dontcare : Bool) (s : σ) (name : Str) :
    Option σ :=
  let r := openIncluded (I.content s) I.dirs name
  match r.2 with
  | none => some (I.note s r.1 dontcare false)
  | some ls => rd (I.listed (I.note s r.1 dontcare true) r.1) ls

/-- The words of the lines that include makefiles (read.c 897). -/
def includeWords : List Str := ["include".toList, "-include".toList, "sinclude".toList]

/-- The names on an `include` line (read.c 911-923); no name if the text is empty. -/
def includeNames {σ : Type} (E : RdEnv σ) (s : σ) (text : Str) : σ × Option (List Str) :=
  let e := E.expand s text
  if e.2 = [] then (e.1, some [])
  else (e.1, (parseFileSeq E.fs { noar := true } none (fun _ => false) e.2).map (·.1))

/-- The files of an `include` line, one after the other (read.c 935-949); `ev` is `eval_makefile`. -/
def includeFiles {σ : Type} (ev : σ → Str → Option σ) (s : σ) : List Str → Option σ
  | [] => some s
  | n :: ns =>
    match ev s n with
    | none => none
    | some s => includeFiles ev s ns

/-- A directive; `ev` is `eval_makefile` (read.c 832-1014). -/
def incDirective {σ : Type} (I : IncEnv σ) (ev : Bool → σ → Str → Option σ) (s : σ) (word text : Str) : Option σ :=
  if word ∈ includeWords then
    let r := includeNames I.base s text
    match r.2 with
    | none => none
    | some names => includeFiles (ev (word.head? != some 'i')) r.1 names
  else some (I.base.directive s word text)

/-- The actions of the reader on a make that may have stopped. -/
def incReader {σ : Type} (I : IncEnv σ) (ev : Bool → σ → Str → Option σ) : RdEnv (Option σ) where
  posix := I.base.posix
  cmdPrefix
    | none => '\t'
    | some s => I.base.cmdPrefix s
  expand
    | none, _ => (none, [])
    | some s, t => (some (I.base.expand s t).1, (I.base.expand s t).2)
  defined
    | none, _ => false
    | some s, n => I.base.defined s n
  fs := I.base.fs
  garbage := I.base.garbage
  assign s m q := s.map fun s => I.base.assign s m q
  define s m q b := s.map fun s => I.base.define s m q b
  targetVar s ns m d := s.map fun s => I.base.targetVar s ns m d
  directive s w t := s.bind fun s => incDirective I ev s w t
  record s w c := s.map fun s => I.base.record s w c

/-- `eval` on the lines of a file, `none` if make stopped. -/
def evalFile {σ : Type} (E : RdEnv (Option σ)) (s : σ) (lines : List Str) : Option σ :=
  match readMakefile E (some s) lines with
  | .done s => s
  | .fatal => none
  | .undef => none

/-- `eval_makefile` when `slots` more files can be opened (read.c 357-374). -/
def evalSlots {σ : Type} (I : IncEnv σ) : (slots : Nat) → Bool → σ → Str → Option σ
  | 0, _, _, _ => none
  | n + 1, dontcare, s, name => evalIncluded (evalFile (incReader I (evalSlots I n))) I dontcare s name

/-- The reader when `slots` more files can be opened. -/
def incEnv {σ : Type} (I : IncEnv σ) (slots : Nat) : RdEnv (Option σ) := incReader I (evalSlots I slots)

end Remake
