import Verif.Update.Model
/-!
# Updating targets: the state at the beginning

The dependency graph as data, and the state in which `update_goal_chain` finds it.
-/
namespace Remake

/-- What the makefiles say about a file (read.c 1975-2311, `record_files`): the prerequisites with a
mark for the order-only ones, whether there is a recipe and of which kind, whether the file is a
target, whether it is a prerequisite of `.PHONY` or `.INTERMEDIATE`; for an entry of a double-colon
rule a number that stands for the name; for a target of a grouped rule (`&:`) a number that stands
for the group.  Files that are not described have no rule. -/
structure Rule where
  prereqs : List (Nat × Bool) := []
  cmds : Bool := false
  emptyCmds : Bool := false
  allRecurse : Bool := false
  isTarget : Bool := false
  phony : Bool := false
  intermediate : Bool := false
  colons : Option Nat := none
  group : Option Nat := none
deriving Repr

/-- A dependency graph.  The files are numbered by their place. -/
abbrev Graph := List Rule

/-- What is said about a file. -/
def Graph.rule (G : Graph) (f : Nat) : Rule := G.getD f {}

/-- The prerequisites of a file. -/
def Graph.pre (G : Graph) (f : Nat) : List Nat := (G.rule f).prereqs.map Prod.fst

/-- The entries for the name of a file: several for a double-colon rule (filedef.h 50-52,
`prev`). -/
def Graph.entries (G : Graph) (f : Nat) : List Nat :=
  match (G.rule f).colons with
  | none => [f]
  | some k => (List.range G.length).filter fun x => decide ((G.rule x).colons = some k)

/-- The targets made together with a file, itself among them, the last one first (filedef.h 49,
`also_make`; read.c 2215-2222, 2289-2309). -/
def Graph.mates (G : Graph) (f : Nat) : List Nat :=
  match (G.rule f).group with
  | none => []
  | some k => ((List.range G.length).filter fun x => decide ((G.rule x).group = some k)).reverse

/-- More than the length of any list of prerequisites; used for numbering the struct deps. -/
def Graph.width (G : Graph) : Nat := (G.map fun r => r.prereqs.length).foldr max 0 + 1

/-- The state before `update_goal_chain` (main.c 2437): nothing has been looked at (the struct files
are zeroed in file.c, `enter_file`), but phony files are known to be targets that do not exist (file.c
601-610, `snap_deps`). -/
def Graph.initial (G : Graph) : UState where
  file x :=
    { deps := if (G.rule x).prereqs = [] then none else some (x * G.width)
      cmds := (G.rule x).cmds
      emptyCmds := (G.rule x).emptyCmds
      allRecurse := (G.rule x).allRecurse
      isTarget := (G.rule x).isTarget || (G.rule x).phony
      mtime := if (G.rule x).phony then 1 else 0
      phony := (G.rule x).phony
      intermediate := (G.rule x).intermediate
      dcolon := (G.rule x).colons.isSome
      head := (G.entries x).headD x
      chain := G.entries x
      alsoMake := G.mates x }
  dep n :=
    match (G.rule (n / G.width)).prereqs[n % G.width]? with
    | none => none
    | some p => some
      { file := p.1
        ignoreMtime := p.2
        next := if n % G.width + 1 < (G.rule (n / G.width)).prereqs.length then some (n + 1) else none }
  considered := 0
  tick := 0
  running := []
  log := []

end Remake
