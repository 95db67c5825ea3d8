import Verif.Rename.Model
/-! What a user means by two names being one file, apart from the functions of the model. -/
namespace Remake
namespace Spec

/-- A reference to record `i` means record `j`: the records on the way were renamed into the next one. -/
inductive Denotes (s : RState) : Nat → Nat → Prop where
  | here (i : Nat) (h : (s.node i).renamed = none) : Denotes s i i
  | step (i k j : Nat) (h : (s.node i).renamed = some k) (h' : Denotes s k j) : Denotes s i j

/-- The value of a variable in a list of sets: that of the first set which has it. -/
inductive ValueIn : List FScope → Str → Str → Prop where
  | first (f : FScope) (fs : List FScope) (v x : Str) (h : f.lookup v = some x) : ValueIn (f :: fs) v x
  | later (f : FScope) (fs : List FScope) (v x : Str) (h : f.lookup v = none) (h' : ValueIn fs v x) :
      ValueIn (f :: fs) v x

/-- The records of a double-colon file in the order of its rules: `c` starts at `i` and each one points to the next. -/
inductive RulesOf (s : RState) : Option Nat → List Nat → Prop where
  | nil : RulesOf s none []
  | cons (i : Nat) (c : List Nat) (h : RulesOf s (s.node i).prev c) : RulesOf s (some i) (i :: c)

end Spec

/-- What can happen to the records in a run (all calls of `enter_file`, `rehash_file` and `rename_file`): a name is entered;
anything about a record but its names and pointers is changed; a record that some reference means is found under another name
for good, or for the time being.  The callers use `check_renamed` before (remake.c 342, 500, 567, 1069). -/
inductive ROp where
  | enter (name : Str)
  | edit (i : Nat) (g : FNode → FNode)
  | rehash (i : Nat) (to : Str)
  | rename (i : Nat) (to : Str)

/-- Change all but names and pointers. -/
def editNode (g : FNode → FNode) (n : FNode) : FNode :=
  { g n with name := n.name, hname := n.hname, prev := n.prev, last := n.last, renamed := n.renamed, doubleColon := n.doubleColon }

/-- One event; a number that is no record has no effect. -/
def rstep (s : RState) : ROp → RRes
  | .enter n => .ok (enterNode s n).1 []
  | .edit i g => .ok (s.upd i (editNode g (s.node i))) []
  | .rehash i to =>
    if i < s.count then
      match followRenamed s (s.count + 1) i with
      | none => .hang
      | some r => rehashFile s r to
    else .ok s []
  | .rename i to =>
    if i < s.count then
      match followRenamed s (s.count + 1) i with
      | none => .hang
      | some r => renameFile s r to
    else .ok s []

/-- A run. -/
def rrun (s : RState) : List ROp → RRes
  | [] => .ok s []
  | op :: ops => match rstep s op with
    | .ok s' ms => match rrun s' ops with
      | .ok s'' ms' => .ok s'' (ms ++ ms')
      | r => r
    | r => r

/-- A state of a run in which no double-colon rule was read. -/
def Spec.Reached (s : RState) : Prop := ∃ ops ms, rrun RState.empty ops = .ok s ms

end Remake
