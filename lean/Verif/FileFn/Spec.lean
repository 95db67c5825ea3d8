import Verif.FileFn.Model

/-!
# What `file` is to do

Said with lists of characters only.
-/
namespace Remake.Spec

/-- The text ends in this character. -/
def EndsIn (c : Char) (t : Str) : Prop := ∃ u, t = u ++ [c]

/-- `l` is `t` as whole lines. -/
def AsLines (t l : Str) : Prop := (EndsIn '\n' t ∧ l = t) ∨ (¬ EndsIn '\n' t ∧ l = t ++ ['\n'])

/-- `r` is the content `c` without its last end of line, `\n` or `\r\n`. -/
def CutEol (c r : Str) : Prop :=
  c = r ++ ['\r', '\n'] ∨ (c = r ++ ['\n'] ∧ ¬ EndsIn '\r' r) ∨ (c = r ∧ ¬ EndsIn '\n' c)

/-- A name as written after the operator: it is there and does not begin with white space. -/
def FileName (name : Str) : Prop := ∃ c rest, name = c :: rest ∧ isSpace c = false

/-- FileWhite space. -/
def FileWhite (ws : Str) : Prop := ∀ c ∈ ws, isSpace c = true

/-- The files differ at most in this one. -/
def SameBut (name : Str) (f g : Str → Option Str) : Prop := ∀ n, n ≠ name → g n = f n

/-- Texts as lines, one after the other. -/
inductive WholeLines : List Str → Str → Prop
  | nil : WholeLines [] []
  | cons {t l ts ls} : AsLines t l → WholeLines ts ls → WholeLines (t :: ts) (l ++ ls)

/-- What is written before the name. -/
inductive FileOp where
  | write
  | append
  | read
deriving DecidableEq

/-- How the operations are written. -/
def FileOp.chars : FileOp → Str
  | .write => ['>']
  | .append => ['>', '>']
  | .read => ['<']

/-- The argument asks for this operation on this name; `> >x` writes the file `>x`. -/
def Asks (arg : Str) (op : FileOp) (name : Str) : Prop :=
  ∃ ws, arg = op.chars ++ ws ++ name ∧ FileWhite ws ∧ FileName name ∧ (op = .write → ws = [] → ∀ rest, name ≠ '>' :: rest)

/-- When which error is to be reported. -/
inductive FileFails (errs : FileErrs) (files : Str → Option Str) : Str → Option Str → FileErr → Prop
  | invalid {arg t} : (∀ rest, arg ≠ '>' :: rest) → (∀ rest, arg ≠ '<' :: rest) → FileFails errs files arg t .invalid
  | noName {op ws t} : FileWhite ws → FileFails errs files (FileOp.chars op ++ ws) t .missingName
  | tooMany {arg name t} : Asks arg .read name → FileFails errs files arg (some t) .tooMany
  | openWrite {arg op name t} : op ≠ .read → Asks arg op name → errs.openWrite name = true → FileFails errs files arg t .openFails
  | openRead {arg name} : Asks arg .read name → errs.openRead name = true → FileFails errs files arg none .openFails
  | write {arg op name t} : op ≠ .read → Asks arg op name → errs.openWrite name = false → errs.write name = true →
      FileFails errs files arg (some t) .writeFails
  | read {arg name} : Asks arg .read name → errs.openRead name = false → files name ≠ none → errs.read name = true →
      FileFails errs files arg none .readFails

end Remake.Spec
