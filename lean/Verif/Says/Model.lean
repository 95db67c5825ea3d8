import Verif.Output.Message
import Verif.Read.LineModel
import Verif.Cmds.Model
set_option linter.unusedVariables false
/-!
# What makefiles say, and the places that messages name

Models `src/function.c` `func_error` 1041-1090; `src/output.c` 605-610 and 637-642 (which place is named); `src/read.c`
`eval_makefile` 327-329 and 434-435, `eval_buffer` 451-488, and of `eval` how lines are numbered (668-674, `readstring` 2589-2630) and how
a recipe gets its place (695-735, 1323-1342, 2003-2011); `src/job.c` 1612-1628 and `src/expand.c` 106-149, 457-481, as far as they
set the place.
-/
namespace Remake

/-- A place, `gmk_floc` (gnumake.h): `filenm`, `lineno` and `offset`. -/
structure SayFloc where
  file : Option Str
  line : Nat
  offset : Nat
deriving DecidableEq, Repr

/-- What is named of a place, if there is one and it has a file (output.c 605-606, 637-638). -/
def sayLoc : Option SayFloc → Option (Str × Nat)
  | some ⟨some f, n, o⟩ => some (f, n + o)
  | _ => none

/-- `$(info)`, `$(warning)` and `$(error)` (function.c 2203-2205). -/
inductive SayFn where
  | info | warning | error
deriving DecidableEq, Repr

/-- What is written on standard output and on standard error, and the status if make ends. -/
structure Said where
  out : Str
  err : Str
  status : Option Nat
deriving DecidableEq, Repr

/-- The arguments put together again (function.c 1051-1067). -/
def sayJoin : List Str → Str
  | [] => []
  | [a] => a
  | a :: as => a ++ ", ".toList ++ sayJoin as

/-- `func_error` (function.c 1044-1089) with `reading`, `reading_file`.  `stop` is the text `.  Stop.` with a newline; the status is
`MAKE_FAILURE` (makeint.h). -/
def funcError (program : Str) (level : Nat) (stop : Str) (reading : Option SayFloc) (fn : SayFn) (argv : List Str) : Said :=
  match fn with
  | .error => ⟨[], (fatalText program level stop (sayLoc reading) (sayJoin argv).length [.str (sayJoin argv)]).2, some 2⟩
  | .warning => ⟨[], (errorText program level (sayLoc reading) (sayJoin argv).length [.str (sayJoin argv)]).2, none⟩
  | .info => ⟨sayJoin argv ++ ['\n'], [], none⟩

/-- The numbers that the lines get (read.c 668-674): with each line what `readline` returned. -/
def numberLines : Nat → List (Str × Int) → List (Str × Nat)
  | _, [] => []
  | n, (l, c) :: ls => (l, n) :: numberLines (n + c.toNat) ls

/-- The lines of a makefile with the places that are `reading_file` while they are evaluated (read.c 327-329, 434-437). -/
def makefilePlaces (file text : Str) : Option (List (Str × SayFloc)) :=
  (readFile text).map fun ls => (numberLines 1 ls).map fun l => (l.1, ⟨some file, l.2, 0⟩)

/-- The place at which `eval_buffer` starts (read.c 465-474): given, or where make is reading, or nowhere. -/
def evalFloc (given reading : Option SayFloc) : SayFloc :=
  match given with
  | some p => p
  | none =>
    match reading with
    | some p => p
    | none => ⟨none, 1, 0⟩

/-- The lines of an evaluated text with their numbers (read.c 668-674): `readstring` returns 0 (2614, 2629). -/
def evalNumbered (p : SayFloc) (text : Str) : List (Str × Nat) := numberLines p.line ((readString text).map fun l => (l, 0))

/-- The lines of an evaluated text with their places. -/
def evalPlaces (given reading : Option SayFloc) (text : Str) : List (Str × SayFloc) :=
  let p := evalFloc given reading
  (evalNumbered p text).map fun l => (l.1, ⟨p.file, l.2, p.offset⟩)

/-- A line that is empty or holds only a comment (read.c 695-697, 748-757, 795-797; then it is skipped without ending the rule).
Simplified: lines that become so only when continuations are collapsed are not counted. -/
def rcSkip (l : Str) : Bool := (l.dropWhile isSpace).head? = none || (l.dropWhile isSpace).head? = some '#'

/-- The lines after a rule line (read.c 695-735): `cmds_started` and the recipe.  Lines of other kinds end it here; conditionals inside
recipes, which do not end them in `eval`, are not followed. -/
def takeRecipe (pre : Char) (start : Nat) (cmds : Str) : List (Str × Nat) → Nat × Str
  | [] => (start, cmds)
  | ([], _) :: ls => takeRecipe pre start cmds ls
  | (c :: t, n) :: ls =>
    if c = pre then takeRecipe pre (if cmds = [] then n else start) (cmds ++ t ++ ['\n']) ls
    else if rcSkip (c :: t) then takeRecipe pre start cmds ls
    else (start, cmds)

/-- The lines of the recipe (commands.c 319-431) with the places that are `reading_file` when they are expanded (read.c 2003-2011; job.c
1612-1624; expand.c 469-473). -/
def recipePlaces (pre : Char) (file : Option Str) (start : Nat) (cmds : Str) (ls : List (Str × Nat)) : List (Str × SayFloc) :=
  let r := takeRecipe pre start cmds ls
  (chopCommands false r.2).mapIdx fun i l => (l, ⟨file, r.1, i⟩)

/-- `reading_file` while a recipe line is expanded (expand.c 469-473): the place of the recipe if it has a file. -/
def fileReading (p : SayFloc) : Option SayFloc := if p.file.isSome then some p else none

/-- `reading_file` while a recursive variable that is defined at `v` is expanded (expand.c 113-118). -/
def varReading (reading : Option SayFloc) (v : SayFloc) : Option SayFloc :=
  match reading with
  | some p => some p
  | none => some v

end Remake
