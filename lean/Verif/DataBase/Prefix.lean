import Verif.DataBase.Model
import Verif.Var.Model
set_option linter.unusedVariables false
set_option linter.unusedSimpArgs false
/-!
# C145: changes of the recipe prefix in the printed data base
-/
namespace Remake

/-- The prefix that a value of `.RECIPEPREFIX` gives: its first character, a tab if it is empty. -/
def Spec.prefixGiven (v : Str) : Char := v.headD '\t'

/-- The prefix of the last recipe, if there is one. -/
def Spec.lastPrefix (p : Char) (fs : List DbFile) : Char := ((fs.filterMap (·.cmds)).getLast?.map (·.pfx)).getD p
open Spec

/-- **C145** Each recipe is printed with the prefix that it was read with; where that is not the one in force, a line comes before that gives
`.RECIPEPREFIX` a value with that prefix, and where it is, there is none. -/
theorem C145_prefix (pfx : Char) (f : DbFile) (c : DbCmds) (h : f.cmds = some c) :
    ∃ v middle, (printFile pfx f).2 =
        '\n' :: ((if c.pfx = pfx then [] else ".RECIPEPREFIX = ".toList ++ v ++ ['\n']) ++ middle ++ dbRecipeNote ++ c.place ++ '\n' :: dbCmdLines c.pfx c.text) ∧
      prefixGiven v = c.pfx := by
  refine ⟨if c.pfx = '\t' then [] else [c.pfx], (if f.isTarget then [] else dbNotTarget ++ ['\n']) ++
    f.name ++ ':' :: (if f.double then [':'] else []) ++ printPrereqs f.deps ++ '\n' ::
    (dbNotes f).flatMap (fun n => '#' :: n ++ ['\n']), ?_, ?_⟩
  · unfold printFile
    simp only [h, printCommands]
    by_cases hp : c.pfx = pfx
    · have e : dbPrefix pfx f = (pfx, []) := by simp [dbPrefix, h, hp]
      rw [e, if_pos hp, hp]
      simp only [List.append_assoc, List.cons_append, List.nil_append]
    · have e : dbPrefix pfx f = (c.pfx, ".RECIPEPREFIX = ".toList ++ (if c.pfx = '\t' then [] else [c.pfx]) ++ ['\n']) := by
        simp only [dbPrefix, h, if_neg hp]
      rw [e, if_neg hp]
      simp only [List.append_assoc, List.cons_append, List.nil_append]
  · by_cases ht : c.pfx = '\t'
    · simp [prefixGiven, ht]
    · simp [prefixGiven, ht]

/-- **C145** The prefix in force at each file is that of the last recipe before it. -/
theorem C145_prefix_in_force (pfx : Char) (fs : List DbFile) (f : DbFile) :
    (printFiles pfx (fs ++ [f])).2 = (printFiles pfx fs).2 ++ (printFile (lastPrefix pfx fs) f).2 := by
  have step : ∀ (p : Char) (g : DbFile), (printFile p g).1 = (g.cmds.map (·.pfx)).getD p := by
    intro p g
    unfold printFile dbPrefix
    cases hg : g.cmds with
    | none => rfl
    | some c =>
      simp only [Option.map_some, Option.getD_some]
      split
      · rename_i e; exact e.symm
      · rfl
  induction fs generalizing pfx with
  | nil => simp [printFiles, lastPrefix]
  | cons g fs ih =>
    rw [List.cons_append, printFiles, printFiles]
    simp only
    rw [ih, List.append_assoc]
    congr 3
    rw [step]
    unfold lastPrefix
    cases hg : g.cmds with
    | none => simp [hg]
    | some c =>
      simp only [List.filterMap_cons, hg, Option.map_some, Option.getD_some]
      rw [List.getLast?_cons]
      cases hl : (fs.filterMap (·.cmds)).getLast? <;> simp

/-- **C145** (negative) A blank as recipe prefix cannot be read back: the line that is printed for it gives an empty value, which stands for a tab. -/
theorem C145_blank_prefix (f : DbFile) (c : DbCmds) (h : f.cmds = some c) (hc : c.pfx = ' ') :
    dbPrefix '\t' f = (' ', ".RECIPEPREFIX =  \n".toList) ∧
    (parseVariableDefinition ".RECIPEPREFIX =  ".toList).map (·.value) = some [] := by
  constructor
  · simp only [dbPrefix, h, hc]
    decide
  · decide +kernel

end Remake
