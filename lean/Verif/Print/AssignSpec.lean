import Verif.Print.Spec
import Verif.Reader.Spec2
/-!
# What assignments in a makefile do

Statements about variables, their text, and their effect on the global variables.
-/
namespace Remake.Spec

/-- A statement about a variable. -/
inductive VarStmt where
  /-- Modifiers, the text of the name, the operator and the text of the value. -/
  | assign (m : VMods) (name : Str) (f : Flavor) (value : Str)
  /-- The operator after the name (`=` if there is none). -/
  | define (m : VMods) (name : Str) (f : Flavor) (body : Str)
  | undefine (m : VMods) (name : Str)

/-- What follows the word `define`: a name and an operator, or a name only. -/
def DefineHead (q name : Str) (f : Flavor) : Prop :=
  (∃ v, IsAssignment q name f v) ∨ ¬ Assigns q ∧ name = q ∧ f = .recursive

/-- `VarText posix c ls ss`: the lines `ls` of a makefile are the statements `ss`, with blank lines and comments between them; `c` begins the lines of
recipes. -/
inductive VarText (posix : Bool) (c : Char) : List Str → List VarStmt → Prop
  | nil : VarText posix c [] []
  | blank {l t : Str} {com : Option Str} {ls : List Str} {ss : List VarStmt} :
      CommentRead (collapseContinuations posix l) t com → (∀ x ∈ t, isSpace x = true) → VarText posix c ls ss →
      VarText posix c (l :: ls) ss
  | assign {l t q n v : Str} {com : Option Str} {m : VMods} {f : Flavor} {ls : List Str} {ss : List VarStmt} :
      CommentRead (collapseContinuations posix l) t com → AssignLine t m q → m.defineV = false → m.undefineV = false →
      IsAssignment q n f v → VarText posix c ls ss → VarText posix c (l :: ls) (.assign m n f v :: ss)
  | undefine {l t q : Str} {com : Option Str} {m : VMods} {ls : List Str} {ss : List VarStmt} :
      CommentRead (collapseContinuations posix l) t com → AssignLine t m q → m.defineV = false → m.undefineV = true →
      VarText posix c ls ss → VarText posix c (l :: ls) (.undefine m q :: ss)
  | define {l t q n e : Str} {com : Option Str} {m : VMods} {f : Flavor} {body ls : List Str} {ss : List VarStmt} :
      CommentRead (collapseContinuations posix l) t com → AssignLine t m q → m.defineV = true → DefineHead q n f →
      Nested posix c body → (∀ b ∈ body, ¬ Closes posix c b) → Closes posix c e → VarText posix c ls ss →
      VarText posix c (l :: (body ++ e :: ls))
        (.define m n f (['\n'].intercalate (body.map (collapseContinuations posix))) :: ss)

/-- The value and the flavour that an operator gives to a variable; `none`: it keeps what it has.  `xp` expands a text, `sh` gives the output of a command. -/
def opResult (xp sh : Str → Str) (old : Option Var) : Flavor → Str → Option (Str × Bool)
  | .simple, v => some (xp v, false)
  | .shell, v => some (sh (xp v), true)
  | .conditional, v => if old.isSome then none else some (v, true)
  | .append, v =>
    match old with
    | none => some (v, true)
    | some o =>
      let new := if o.recursive then v else xp v
      if new = [] then none else some (if o.value = [] then new else o.value ++ [' '] ++ new, o.recursive)
  | _, v => some (v, true)

/-- The origin of a variable assigned in a makefile. -/
def stmtOrigin (m : VMods) : Origin := if m.overrideV then .override else .file

/-- A variable before and after an assignment: the value, unless the old one has a stronger origin; the marks `export` and `private` are added. -/
def VarDone (e : Bool) (xp sh : Str → Str) (m : VMods) (f : Flavor) (v : Str) (old new : Option Var) : Prop :=
  ∃ w, new = some w ∧
    (w.exp = if m.exportV then .export_ else old.elim .default (·.exp)) ∧
    (w.priv = true ↔ m.privateV = true ∨ ∃ o, old = some o ∧ o.priv = true) ∧
    match opResult xp sh old f v with
    | none => ∃ o, old = some o ∧ w.value = o.value ∧ w.recursive = o.recursive ∧ w.origin = o.origin
    | some (val, rc) => Assigned e old new val (stmtOrigin m) rc

/-- A variable before and after `undefine`: it is gone, unless it has a stronger origin. -/
def UndefineDone (e : Bool) (m : VMods) (old new : Option Var) : Prop :=
  ((∀ v, old = some v → strength e v.origin ≤ strength e (stmtOrigin m)) → new = none) ∧
  ∀ v, old = some v → strength e (stmtOrigin m) < strength e v.origin → new = some { v with origin := reported e v.origin }

/-- `s` without the white space around it (blanks and tabs at its end). -/
def NameTrimmed (s t : Str) : Prop :=
  ∃ a b, s = a ++ t ++ b ∧ (∀ c ∈ a, isSpace c = true) ∧ (∀ c ∈ b, isBlank c = true) ∧
    t.head?.all (fun c => !isSpace c) = true ∧ t.getLast?.all (fun c => !isBlank c) = true

/-- `StmtDone …  st s r`: the statement `s` leads from `st` to `r`; `none` is the error that a name is empty. -/
inductive StmtDone (e : Bool) (xp sh : DefState → Str → Str) (st : DefState) : VarStmt → Option DefState → Prop
  | assign {m : VMods} {n v : Str} {f : Flavor} {st' : DefState} : xp st n ≠ [] →
      VarDone e (xp st) (sh st) m f v (st.sets 0 (xp st n)) (st'.sets 0 (xp st n)) → SameElsewhere st st' 0 (xp st n) →
      StmtDone e xp sh st (.assign m n f v) (some st')
  | noName {m : VMods} {n v : Str} {f : Flavor} : xp st n = [] → StmtDone e xp sh st (.assign m n f v) none
  | define {m : VMods} {n name body : Str} {f : Flavor} {st' : DefState} : NameTrimmed (xp st n) name → name ≠ [] →
      VarDone e (xp st) (sh st) m f body (st.sets 0 name) (st'.sets 0 name) → SameElsewhere st st' 0 name →
      StmtDone e xp sh st (.define m n f body) (some st')
  | defineNoName {m : VMods} {n body : Str} {f : Flavor} : (∀ c ∈ xp st n, isSpace c = true) →
      StmtDone e xp sh st (.define m n f body) none
  | undefine {m : VMods} {n name : Str} {st' : DefState} : NameTrimmed (xp st n) name → name ≠ [] →
      UndefineDone e m (st.sets 0 name) (st'.sets 0 name) → SameElsewhere st st' 0 name →
      StmtDone e xp sh st (.undefine m n) (some st')
  | undefineNoName {m : VMods} {n : Str} : (∀ c ∈ xp st n, isSpace c = true) → StmtDone e xp sh st (.undefine m n) none

/-- The statements one after the other, up to an error. -/
inductive StmtsDone (e : Bool) (xp sh : DefState → Str → Str) : DefState → List VarStmt → Option DefState → Prop
  | nil {st : DefState} : StmtsDone e xp sh st [] (some st)
  | step {st st1 : DefState} {s : VarStmt} {ss : List VarStmt} {r : Option DefState} : StmtDone e xp sh st s (some st1) →
      StmtsDone e xp sh st1 ss r → StmtsDone e xp sh st (s :: ss) r
  | stop {st : DefState} {s : VarStmt} {ss : List VarStmt} : StmtDone e xp sh st s none → StmtsDone e xp sh st (s :: ss) none

end Remake.Spec
