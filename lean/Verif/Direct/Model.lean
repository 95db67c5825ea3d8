import Verif.Print.Model
import Verif.Text.Model
import Verif.Vpath.Model
/-!
# The directives `export`, `unexport` and `vpath`

Models what `eval` does on these lines (`src/read.c` 832-894).  Simplified: `lookup_variable` does not
compute special variables (`.VARIABLES` and the like); where variables are defined is left out.
-/
namespace Remake

/-- What reading a makefile changes, as far as modelled here: the variables, `export_all_variables` and the list `vpaths`
(newest first). -/
structure LinesState where
  vars : DefState
  exportAll : Bool := false
  vpaths : List VpathEntry := []

/-- The mark (read.c 860). -/
def exportMark (on : Bool) : Export := if on then .export_ else .noexport

/-- One name (read.c 857-860); `tail` is the text after it: `define_variable_global` is given the length of the name, but the
test whether the name can be exported goes on to the end of the text (variable.c 322-336). -/
def exportOne (envOv on : Bool) (st : DefState) (name tail : Str) : DefState :=
  match locateGo st false st.chain name with
  | some i =>
    { st with sets := fun j =>
        if j = i then (st.sets i).put name ((st.sets i name).map fun v => { v with exp := exportMark on }) else st.sets j }
  | none =>
    { st with sets := fun j =>
        if j = 0 then
          (st.sets 0).put name (some { defineVar envOv (st.sets 0 name) name tail [] .file false with exp := exportMark on })
        else st.sets j }

/-- The loop over the names (read.c 854-861). -/
def exportNames (envOv on : Bool) (st : DefState) (text : Str) : DefState :=
  match h : findNextToken text with
  | none => st
  | some (t, r) => exportNames envOv on (exportOne envOv on st t r) r
termination_by text.length
decreasing_by exact findNextToken_lt h

/-- `export` and `unexport` (read.c 834-866) with the text after the word. -/
def exportLine (D : DefEnv) (on : Bool) (s : LinesState) (text : Str) : LinesState :=
  if text = [] then { s with exportAll := on }
  else
    let r := D.expand s.vars text
    { s with vars := exportNames D.envOv on r.1 r.2 }

/-- The directives (read.c 834-894); the others are not modelled here. -/
def directiveLine (D : DefEnv) (s : LinesState) (word text : Str) : LinesState :=
  if word = "export".toList then exportLine D true s text
  else if word = "unexport".toList then exportLine D false s text
  else if word = "vpath".toList then
    let r := D.expand s.vars text
    { s with vars := r.1, vpaths := vpathLine r.2 s.vpaths }
  else s

end Remake
