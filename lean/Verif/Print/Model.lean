import Verif.Reader.Model
import Verif.Var.Model
import Verif.Expand.Model
/-!
# Printing the variables, and what assignment lines do

Models `print_variable` (`src/variable.c` 1706-1778), the variable part of
`print_variable_set` and `print_variable_data_base` (1854-1872), and from `src/read.c` the part of `eval`
that carries out assignments (763-794), `do_undefine` (1461-1477), the naming and storing parts of
`do_define` (1497-1518, 1578-1588; its loop is in `Verif/Read/CondModel.lean`); from `src/variable.c`
`assign_variable_definition` (1648-1665) and `try_variable_definition` (1681-1701).

Simplifications: messages are not translated; the statistics of the hash table are a parameter; setting
special variables (`set_special_var`) and the locations of definitions are left out.
-/
namespace Remake

/-! ## Printing -/

/-- What `print_variable` looks at: the name, the definition, and the file and line of `fileinfo`. -/
structure PrintedVar where
  name : Str
  var : Var
  loc : Option (Str × Nat) := none

/-- The names of the origins (variable.c 1713-1741); `none`: `abort`. -/
def originWords : Origin → Option Str
  | .automatic => some "automatic".toList
  | .default => some "default".toList
  | .env => some "environment".toList
  | .file => some "makefile".toList
  | .envOverride => some "environment under -e".toList
  | .command => some "command line".toList
  | .override => some "'override' directive".toList
  | .debugger => some "debugger".toList
  | .invalid => none

/-- Dollar signs doubled (variable.c 1769-1775). -/
def doubleDollars : Str → Str
  | [] => []
  | c :: cs => if c = '$' then '$' :: '$' :: doubleDollars cs else c :: doubleDollars cs

/-- The definition as it is printed (variable.c 1752-1777). -/
def printDefinition (name : Str) (v : Var) : Str :=
  if v.recursive ∧ '\n' ∈ v.value then
    "define ".toList ++ name ++ '\n' :: v.value ++ "\nendef\n".toList
  else
    name ++ ' ' :: (if v.recursive then (if v.append then ['+'] else []) else [':']) ++ "= ".toList ++
      (if v.value ≠ [] ∧ nextToken v.value = [] then "$(subst ,,".toList ++ v.value ++ [')']
       else if v.recursive then v.value
       else doubleDollars v.value) ++ ['\n']

/-- `print_variable` (variable.c 1706-1778). -/
def printVariable (pre : Str) (p : PrintedVar) : Option Str :=
  (originWords p.var.origin).map fun o =>
    "# ".toList ++ o ++ (if p.var.priv then " private".toList else []) ++
      (match p.loc with
       | none => []
       | some (f, n) => " (from '".toList ++ f ++ "', line ".toList ++ Nat.toDigits 10 n ++ [')']) ++
      '\n' :: pre ++ printDefinition p.name p.var

/-- The calls `hash_map_arg` makes (variable.c 1856-1857), in the order of the table. -/
def printVariables (pre : Str) : List PrintedVar → Option Str
  | [] => some []
  | p :: ps => (printVariable pre p).bind fun a => (printVariables pre ps).map fun b => a ++ b

/-- The global variables in `print_variable_data_base` (variable.c 1870-1872) with
`print_variable_set` (1854-1863); `stats` is what `hash_print_stats` prints. -/
def printGlobals (stats : Str) (ps : List PrintedVar) : Option Str :=
  (printVariables [] ps).map fun t =>
    "\n# Variables\n\n".toList ++ t ++ "# variable set hash-table stats:\n# ".toList ++ stats ++ ['\n']

/-! ## Carrying out assignments -/

/-- The end of a name (read.c 1470-1473, 1515-1518): blanks at the end are dropped, but not the first
character. -/
def chopBlanks : Str → Str
  | [] => []
  | c :: cs => c :: (cs.reverse.dropWhile isBlank).reverse

/-- The set holding the variable that `do_variable_definition` returns (variable.c 1264-1266, 1292-1328,
1486-1496). -/
def returnedSet (E : DefEnv) (st : DefState) (name value : Str) (flavor : Flavor) : Nat :=
  match flavor with
  | .conditional => (locateGo st false st.chain name).getD 0
  | .append | .appendValue =>
    match locateGo st false st.chain name with
    | none => 0
    | some i =>
      match st.sets i name with
      | none => 0
      | some v =>
        let val := if v.recursive then value else if flavor ≠ .appendValue then (E.expand st value).2 else value
        if val = [] then i else 0
  | _ => 0

/-- `export` and `private` (read.c 788-791). -/
def applyMods (m : VMods) (v : Var) : Var :=
  let v := if m.exportV then { v with exp := .export_ } else v
  if m.privateV then { v with priv := true } else v

/-- The variable changed (read.c 788-791). -/
def applyModsIn (st : DefState) (m : VMods) (i : Nat) (n : Str) : DefState :=
  { st with sets := fun j => if j = i then (st.sets i).put n ((st.sets i n).map (applyMods m)) else st.sets j }

/-- `origin` (read.c 764). -/
def lineOrigin (m : VMods) : Origin := if m.overrideV then .override else .file

/-- `do_undefine` (read.c 1461-1477); `none`: fatal, an empty name. -/
def doUndefine (E : DefEnv) (st : DefState) (text : Str) (origin : Origin) : Option DefState :=
  let (st, var) := E.expand st text
  let name := nextToken var
  if name = [] then none
  else
    some { st with sets := fun j => if j = 0 then (st.sets 0).undefine E.envOv (chopBlanks name) origin else st.sets j }

/-- An assignment or `undefine` (read.c 763-794) with `try_variable_definition` (variable.c 1648-1701).
`none`: fatal, an empty name, or undefined. -/
def assignLine (E : DefEnv) (st : DefState) (m : VMods) (q : Str) : Option DefState :=
  if m.undefineV then doUndefine E st q (lineOrigin m)
  else
    match parseVariableDefinition q with
    | none => none
    | some a =>
      let (st, name) := E.expand st a.name
      if name = [] then none
      else
        (doVariableDefinition E st name a.value (lineOrigin m) a.flavor false).map fun st' =>
          applyModsIn st' m (returnedSet E st name a.value a.flavor) name

/-- The operator and the name in the line of a `define` (read.c 1497-1508). -/
def defineHead (q : Str) : Flavor × Str :=
  match parseVariableDefinition q with
  | none => (.recursive, q)
  | some a => (a.flavor, a.name)

/-- `define` (read.c 781-782, 788-791, 1497-1518, 1578-1588): the text after the word and the body. -/
def defineLine (E : DefEnv) (st : DefState) (m : VMods) (q body : Str) : Option DefState :=
  let (flavor, text) := defineHead q
  let (st, n) := E.expand st text
  let name := nextToken n
  if name = [] then none
  else
    let name := chopBlanks name
    (doVariableDefinition E st name body (lineOrigin m) flavor false).map fun st' =>
      applyModsIn st' m (returnedSet E st name body flavor) name

end Remake
