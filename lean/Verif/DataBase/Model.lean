import Verif.Reader.Model
set_option linter.unusedVariables false
/-!
# The rules in the printed data base

Models what `-p` prints about files and pattern rules: `print_prereqs` and `print_file` (`src/file.c` lines 945-1082),
`print_commands` (`src/commands.c` lines 781-821, without expansion) and `print_rule` (`src/rule.c` lines 518-536).

Simplifications.  A file has no variables of its own (lines 992-993 and 1072-1073; variables are C114).  Most comment lines
about a file (lines 1000-1070) are lists of texts.  The files of one double-colon target follow each
other in the list of files, as `prev` leads from one to the next (1080-1081).  Files built in that are not shown with `-r`
(978-979) are not in the list.
-/
namespace Remake

/-- A recipe: its text, the prefix it was read with, and the text of the comment that says where it is from
(commands.h 27-37; commands.c 787-791). -/
structure DbCmds where
  text : Str
  pfx : Char
  place : Str
deriving DecidableEq, Repr

/-- What is printed of a file (filedef.h 34-123). -/
structure DbFile where
  name : Str
  double : Bool
  isTarget : Bool
  deps : List PreReq
  /-- The comment lines after the rule line that precede those on the stem and the group, without `#`. -/
  notes : List Str
  /-- `stem`. -/
  stem : Option Str := none
  /-- The names in `also_make`: the other targets of a grouped rule. -/
  also : List Str := []
  /-- The comment lines on the times and the state, without `#`. -/
  state : List Str := []
  cmds : Option DbCmds
deriving DecidableEq, Repr

/-- The comment lines after the rule line, without `#` (file.c 1000-1070). -/
def dbNotes (f : DbFile) : List Str :=
  f.notes ++ (match f.stem with
    | none => []
    | some t => ["  Implicit/static pattern stem: '".toList ++ t ++ ['\'']]) ++
  (if f.also = [] then [] else ["  Also makes:".toList ++ f.also.flatMap fun n => ' ' :: n]) ++ f.state

/-- `print_prereqs` (file.c 945-967), without the newline. -/
def printPrereqs (ds : List PreReq) : Str :=
  let normal := ds.filter fun d => !d.orderOnly
  let after := ds.filter fun d => d.orderOnly
  normal.flatMap (fun d => ' ' :: d.name) ++
    match after with
    | [] => []
    | o :: os => ' ' :: '|' :: ' ' :: o.name ++ os.flatMap fun d => ' ' :: d.name

/-- One logical line of a recipe and what follows its newline (commands.c 808-819); `bs` tells that the last character is a
backslash which is not itself escaped. -/
def dbCmdLine (bs : Bool) : Str → Str × Str
  | [] => ([], [])
  | c :: cs =>
    if c = '\n' ∧ bs = false then ([], cs)
    else
      let r := dbCmdLine (c == '\\' && !bs) cs
      (c :: r.1, r.2)

theorem dbCmdLine_length (bs : Bool) (s : Str) : (dbCmdLine bs s).2.length ≤ s.length - 1 := by
  induction s generalizing bs with
  | nil => simp [dbCmdLine]
  | cons c cs ih =>
    rw [dbCmdLine]
    split
    · simp
    · have := ih (c == '\\' && !bs)
      simp only [List.length_cons]
      omega

/-- The recipe lines (commands.c 803-820). -/
def dbCmdLines (pfx : Char) (s : Str) : Str :=
  if h : s = [] then [] else pfx :: ((dbCmdLine false s).1 ++ '\n' :: dbCmdLines pfx (dbCmdLine false s).2)
termination_by s.length
decreasing_by
  have := dbCmdLine_length false s
  have h2 : 0 < s.length := List.length_pos_iff.2 h
  omega

/-- The comment before the recipe (commands.c 785). -/
def dbRecipeNote : Str := "#  recipe to execute".toList

/-- The comment before what is only mentioned (file.c 995-996). -/
def dbNotTarget : Str := "# Not a target:".toList

/-- `print_commands` (commands.c 781-821): `pfx` is `cmd_prefix`. -/
def printCommands (pfx : Char) (c : DbCmds) : Str :=
  dbRecipeNote ++ c.place ++ '\n' :: dbCmdLines pfx c.text

/-- The line that changes the recipe prefix (file.c 983-990), and the prefix from then on. -/
def dbPrefix (pfx : Char) (f : DbFile) : Char × Str :=
  match f.cmds with
  | none => (pfx, [])
  | some c =>
    if c.pfx = pfx then (pfx, [])
    else (c.pfx, ".RECIPEPREFIX = ".toList ++ (if c.pfx = '\t' then [] else [c.pfx]) ++ ['\n'])

/-- `print_file` (file.c 969-1082): `cmd_prefix` afterwards, and the text. -/
def printFile (pfx : Char) (f : DbFile) : Char × Str :=
  let p := dbPrefix pfx f
  (p.1, '\n' :: p.2 ++ (if f.isTarget then [] else dbNotTarget ++ ['\n']) ++
    f.name ++ ':' :: (if f.double then [':'] else []) ++ printPrereqs f.deps ++ '\n' ::
    (dbNotes f).flatMap (fun n => '#' :: n ++ ['\n']) ++
    match f.cmds with
    | none => []
    | some c => printCommands p.1 c)

/-- The files, one after the other (file.c 1094-1103). -/
def printFiles (pfx : Char) : List DbFile → Char × Str
  | [] => (pfx, [])
  | f :: fs =>
    let a := printFile pfx f
    let b := printFiles a.1 fs
    (b.1, a.2 ++ b.2)

/-- A pattern rule (rule.h 25-38). -/
structure DbRule where
  targets : List Str
  terminal : Bool
  deps : List PreReq
  cmds : Option DbCmds
deriving DecidableEq, Repr

/-- `print_rule` with recipe (rule.c 518-536): the prefix of the recipe is not looked at. -/
def printDbRule (pfx : Char) (r : DbRule) : Str :=
  [' '].intercalate r.targets ++ ':' :: (if r.terminal then [':'] else []) ++ printPrereqs r.deps ++ '\n' :: '\n' ::
    match r.cmds with
    | none => []
    | some c => printCommands pfx c

/-- The comment before the pattern rules (rule.c 545). -/
def dbRulesNote : Str := "# Implicit Rules".toList

/-- `print_rule_data_base` up to the statistics (rule.c 538-556). -/
def printDbRules (pfx : Char) (rs : List DbRule) : Str :=
  '\n' :: dbRulesNote ++ '\n' :: rs.flatMap (printDbRule pfx)

end Remake
