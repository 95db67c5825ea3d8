import Verif.Direct.Model
import Verif.Print.AssignSpec
/-!
# What `export`, `unexport` and `vpath` lines do
-/
namespace Remake.Spec
open Remake

/-- A statement of a makefile. -/
inductive MkStmt where
  | var (s : VarStmt)
  /-- `export` or `unexport` with the text after it. -/
  | exports (on : Bool) (text : Str)
  /-- `export` or `unexport` alone. -/
  | exportAll (on : Bool)
  | vpath (text : Str)

/-- The line is a word and a text after it, which may be empty. -/
def WordLine (t w text : Str) : Prop :=
  ∃ a b, t = a ++ w ++ b ++ text ∧ (∀ c ∈ a, isSpace c = true) ∧ (∀ c ∈ b, isSpace c = true) ∧ (b = [] → text = []) ∧
    text.head?.all (fun c => !isSpace c) = true

/-- The words. -/
inductive DirectiveStmt : Str → Str → MkStmt → Prop
  | exports {text : Str} : text ≠ [] → DirectiveStmt "export".toList text (.exports true text)
  | unexports {text : Str} : text ≠ [] → DirectiveStmt "unexport".toList text (.exports false text)
  | all : DirectiveStmt "export".toList [] (.exportAll true)
  | none : DirectiveStmt "unexport".toList [] (.exportAll false)
  | vpath {text : Str} : DirectiveStmt "vpath".toList text (.vpath text)

/-- The lines are the statements. -/
inductive MkText (posix : Bool) (c : Char) : List Str → List MkStmt → Prop
  | nil : MkText posix c [] []
  | vars {ls1 ls2 : List Str} {ss1 : List VarStmt} {ss2 : List MkStmt} : VarText posix c ls1 ss1 → MkText posix c ls2 ss2 →
      MkText posix c (ls1 ++ ls2) (ss1.map .var ++ ss2)
  | directive {l t w text : Str} {com : Option Str} {s : MkStmt} {ls : List Str} {ss : List MkStmt} :
      CommentRead (collapseContinuations posix l) t com → (∀ m q, ¬ AssignLine t m q) → WordLine t w text →
      DirectiveStmt w text s → MkText posix c ls ss → MkText posix c (l :: ls) (s :: ss)

/-- Marking variables: those named are marked and keep all else; one that was not defined is defined as empty.  Nothing else
changes. -/
def MarksDone (mark : Export) (names : List Str) (st st' : DefState) : Prop :=
  st'.chain = st.chain ∧ (∀ j, j ≠ 0 → st'.sets j = st.sets j) ∧
  (∀ n, n ∉ names → st'.sets 0 n = st.sets 0 n) ∧
  ∀ n, n ∈ names →
    (∀ v, st.sets 0 n = some v → st'.sets 0 n = some { v with exp := mark }) ∧
    (st.sets 0 n = none → ∃ x, st'.sets 0 n = some { value := [], recursive := false, origin := .file, exp := mark, exportable := x })

/-- The variables and whether all are exported. -/
structure MkVars where
  vars : DefState
  exportAll : Bool

/-- A statement; the list has the text of a `vpath` line after expansion. -/
inductive MkDone (e : Bool) (xp sh : DefState → Str → Str) (s : MkVars) : MkStmt → List Str → Option MkVars → Prop
  | var {v : VarStmt} {st' : DefState} : StmtDone e xp sh s.vars v (some st') →
      MkDone e xp sh s (.var v) [] (some { s with vars := st' })
  | varStop {v : VarStmt} : StmtDone e xp sh s.vars v none → MkDone e xp sh s (.var v) [] none
  | exports {on : Bool} {text : Str} {st' : DefState} :
      MarksDone (if on then .export_ else .noexport) (wordsOf (xp s.vars text)) s.vars st' →
      MkDone e xp sh s (.exports on text) [] (some { s with vars := st' })
  | exportAll {on : Bool} : MkDone e xp sh s (.exportAll on) [] (some { s with exportAll := on })
  | vpath {text : Str} : MkDone e xp sh s (.vpath text) [xp s.vars text] (some s)

/-- The statements one after the other, up to an error. -/
inductive MksDone (e : Bool) (xp sh : DefState → Str → Str) : MkVars → List MkStmt → List Str → Option MkVars → Prop
  | nil {s : MkVars} : MksDone e xp sh s [] [] (some s)
  | step {s s1 : MkVars} {t : MkStmt} {ts : List MkStmt} {a b : List Str} {r : Option MkVars} : MkDone e xp sh s t a (some s1) →
      MksDone e xp sh s1 ts b r → MksDone e xp sh s (t :: ts) (a ++ b) r
  | stop {s : MkVars} {t : MkStmt} {ts : List MkStmt} : MkDone e xp sh s t [] none → MksDone e xp sh s (t :: ts) [] none

/-- The lines are carried out on variables and search paths. -/
structure CarriesOutAll (E : RdEnv (Option LinesState)) (D : DefEnv) : Prop where
  assign : ∀ s m q, E.assign s m q = s.bind fun k => (assignLine D k.vars m q).map fun v => { k with vars := v }
  define : ∀ s m q b, E.define s m q b = s.bind fun k => (defineLine D k.vars m q b).map fun v => { k with vars := v }
  directive : ∀ s w t, w ∈ ["export".toList, "unexport".toList, "vpath".toList] →
    E.directive s w t = s.map fun k => directiveLine D k w t

end Remake.Spec
