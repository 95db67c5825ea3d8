import Verif.Var.Model
/-!
# Specification vocabulary for variables
-/
namespace Remake.Spec
open Remake

/-- A definition as the user wrote it. -/
structure Def where
  value : Str
  origin : Origin
  recursive : Bool
deriving DecidableEq, Repr

/-- The strength of an origin, when `-e` is given (`true`) or not: default, environment,
makefile, environment under `-e`, command line, override, automatic, debugger. -/
def strength (e : Bool) : Origin → Nat
  | .default => 0
  | .env => if e then 3 else 1
  | .file => 2
  | .envOverride => 3
  | .command => 4
  | .override => 5
  | .automatic => 6
  | .debugger => 7
  | .invalid => 8

/-- The origin reported for a definition. -/
def reported (e : Bool) : Origin → Origin
  | .env => if e then .envOverride else .env
  | o => o

/-- The definitions of `n` in a history, in order. -/
def defsOf (n : Str) : List VarOp → List Def
  | [] => []
  | .define _ m v o r :: ops => if m = n then ⟨v, o, r⟩ :: defsOf n ops else defsOf n ops
  | .undefine .. :: ops => defsOf n ops

/-- Only definitions, made while the `-e` flag has the given value. -/
def OnlyDefs (e : Bool) (ops : List VarOp) : Prop :=
  ∀ op ∈ ops, ∃ n v o r, op = .define e n v o r

/-- `d` is the last of the strongest definitions in `ds`. -/
def Wins (e : Bool) (ds : List Def) (d : Def) : Prop :=
  ∃ pre post, ds = pre ++ d :: post ∧ (∀ x ∈ pre, strength e x.origin ≤ strength e d.origin) ∧
    ∀ x ∈ post, strength e x.origin < strength e d.origin

/-- The variable has the value, origin and flavour of the definition. -/
def Holds (e : Bool) (v : Option Var) (d : Def) : Prop :=
  ∃ w, v = some w ∧ w.value = d.value ∧ w.origin = reported e d.origin ∧ w.recursive = d.recursive

/-! ## Visibility -/

/-- The first definition in the sets that is not private. -/
def firstPublic : List VarSet → Str → Option Var
  | [], _ => none
  | s :: rest, n =>
    match s n with
    | some v => if v.priv then firstPublic rest n else some v
    | none => firstPublic rest n

/-- The sets of a target, innermost first: its own, then that of the matching patterns; a
double-colon rule is inside its root. -/
def ownSets : FileScope → List VarSet
  | .dcolon own root => own :: ownSets root
  | .top own pat => own :: pat.toList
  | .child own pat _ => own :: pat.toList

/-- The sets of the targets it inherits from, innermost first, and at last the global ones. -/
def outerSets (global : List VarSet) : FileScope → List VarSet
  | .dcolon _ root => outerSets global root
  | .top _ _ => global
  | .child _ _ parent => ownSets parent ++ outerSets global parent

/-- The definition in the first set that has one. -/
def firstDef : List VarSet → Str → Option Var
  | [], _ => none
  | s :: rest, n => match s n with
    | some v => some v
    | none => firstDef rest n

/-- What a reference to `n` in a target means. -/
def visible (global : List VarSet) (f : FileScope) (n : Str) : Option Var :=
  match firstDef (ownSets f) n with
  | some v => some v
  | none => firstPublic (outerSets global f) n

/-! ## Scope operations -/

/-- Operations between a push and the corresponding pop. -/
inductive ScopeOp where
  | push
  | pop
  /-- A definition in the current scope. -/
  | defCur (envOv : Bool) (name value : Str) (origin : Origin) (recursive : Bool)
  /-- A definition in a set named explicitly. -/
  | defIn (set : Nat) (envOv : Bool) (name value : Str) (origin : Origin) (recursive : Bool)

/-- One operation. -/
def ScopeOp.run (st : Scopes) : ScopeOp → Option Scopes
  | .push => some (pushScope st)
  | .pop => popScope st
  | .defCur e n v o r => some (defineCurrent e st n v o r)
  | .defIn i e n v o r => some (defineIn e st i n v o r)

/-- All operations. -/
def ScopeOp.runAll : List ScopeOp → Scopes → Option Scopes
  | [], st => some st
  | op :: ops, st =>
    match op.run st with
    | none => none
    | some st => runAll ops st

/-- Every push has its pop. -/
inductive Balanced : List ScopeOp → Prop
  | nil : Balanced []
  | defCur {ops} (e n v o r) : Balanced ops → Balanced (.defCur e n v o r :: ops)
  | defIn {ops} (i e n v o r) : Balanced ops → Balanced (.defIn i e n v o r :: ops)
  | scope {a b} : Balanced a → Balanced b → Balanced (.push :: a ++ .pop :: b)

/-- The explicit definitions in set `i` made by the operations. -/
def explicit (i : Nat) : List ScopeOp → VarSet → VarSet
  | [], s => s
  | .defIn j e n v o r :: ops, s =>
    if j = i then explicit i ops (s.define e n v o r) else explicit i ops s
  | .push :: ops, s => explicit i ops s
  | .pop :: ops, s => explicit i ops s
  | .defCur .. :: ops, s => explicit i ops s

/-- The state of the scopes is sound: everything reachable exists. -/
structure ScopesOk (st : Scopes) : Prop where
  pos : 0 < st.fresh
  cur : st.current < st.fresh
  set : ∀ i < st.fresh, (st.lists i).set < st.fresh
  next : ∀ i < st.fresh, ∀ n, (st.lists i).next = some n → n < st.fresh
  global : (st.lists 0).nextIsParent = false

/-- The sets reached from a list, with the flag that the next belongs to a parent. -/
inductive ChainOf (st : Scopes) : Nat → List (Nat × Bool) → Prop
  | last {i} : (st.lists i).next = none → ChainOf st i [((st.lists i).set, (st.lists i).nextIsParent)]
  | cons {i j l} : (st.lists i).next = some j → ChainOf st j l →
      ChainOf st i (((st.lists i).set, (st.lists i).nextIsParent) :: l)

/-- Following the links from list `i` leads to list `k`. -/
inductive Reaches (st : Scopes) (k : Nat) : Nat → Prop
  | here : Reaches st k k
  | step {i j} : (st.lists i).next = some j → Reaches st k j → Reaches st k i

/-! ## Patterns -/

/-- A pattern matches a target: the `%` stands for a non-empty stem. -/
def PatMatches (p : PatVar) (target : Str) : Prop :=
  ∃ stem, stem ≠ [] ∧ target = p.pre ++ stem ++ p.post

/-- Length of a pattern. -/
def patLength (p : PatVar) : Nat := (p.pre ++ '%' :: p.post).length

/-- The order in which pattern variables apply. -/
def PatBefore (p q : PatVar) : Prop :=
  patLength p < patLength q ∨ patLength p = patLength q ∧ p.id < q.id

/-- The state after a series of definitions, numbered from `m`. -/
def createAll (m : Nat) (st : PatVars) : List (Str × Str) → PatVars
  | [] => st
  | (pre, post) :: ps => createAll (m + 1) (createPatternVar st ⟨m, pre, post⟩) ps

/-- No pattern-specific variables yet. -/
def noPatVars : PatVars := ⟨[], fun _ => none⟩

/-! ## Assignments -/

/-- The outcome of an assignment to a variable that was `old`: the new value and flavour take
effect unless the variable has a stronger origin. -/
def Assigned (e : Bool) (old new : Option Var) (value : Str) (o : Origin) (recursive : Bool) : Prop :=
  ∃ w, new = some w ∧
    ((∃ v, old = some v ∧ strength e o < strength e v.origin ∧ w.value = v.value ∧
        w.recursive = v.recursive ∧ w.origin = reported e v.origin) ∨
     ((∀ v, old = some v → strength e v.origin ≤ strength e o) ∧ w.value = value ∧
        w.recursive = recursive ∧ w.origin = reported e o))

/-- The number of the set an assignment goes to: the global set, or that of the target. -/
def destination (st : DefState) (targetVar : Bool) : Nat :=
  match targetVar, st.chain with
  | true, (i, _) :: _ => i
  | _, _ => 0

/-- Nothing but the variable `n` of set `i` differs. -/
def SameElsewhere (st st' : DefState) (i : Nat) (n : Str) : Prop :=
  st'.chain = st.chain ∧ ∀ j m, ¬ (j = i ∧ m = n) → st'.sets j m = st.sets j m

/-- The definitions visible in a chain of scopes, innermost first. -/
def visibleDefs (isParent : Bool) : List (VarSet × Bool) → Str → List Var
  | [], _ => []
  | (s, nip) :: rest, n =>
    ((s n).toList.filter fun v => !isParent || !v.priv) ++ visibleDefs (isParent || nip) rest n

/-- The definitions that make up the value of an appending variable: all up to the first
that does not append. -/
def contributions : List Var → List Var
  | [] => []
  | v :: vs => if v.append then v :: contributions vs else [v]

/-- Text in which the brackets match. -/
inductive Matched (o c : Char) : Str → Prop
  | nil : Matched o c []
  | char {a s} : a ≠ o → a ≠ c → Matched o c s → Matched o c (a :: s)
  | nest {s t} : Matched o c s → Matched o c t → Matched o c (o :: s ++ c :: t)

/-- The assignment operators. -/
inductive Op : Str → Flavor → Prop
  | rec_ : Op ['='] .recursive
  | simple : Op [':', '='] .simple
  | posix : Op [':', ':', '='] .simple
  | append : Op ['+', '='] .append
  | cond : Op ['?', '='] .conditional
  | shell : Op ['!', '='] .shell

/-- The text starts with an operator. -/
def StartsOp (s : Str) : Prop := ∃ op f r, Op op f ∧ s = op ++ r

/-- `NameText name rest`: `name`, followed by `rest`, is passed over as a variable name: it
is made of references, and of characters other than blanks, `#` and `:` at which no
operator starts. -/
inductive NameText : Str → Str → Prop
  | nil {rest} : NameText [] rest
  | paren {b s rest} : Matched '(' ')' b → NameText s rest → NameText ('$' :: '(' :: b ++ ')' :: s) rest
  | brace {b s rest} : Matched '{' '}' b → NameText s rest → NameText ('$' :: '{' :: b ++ '}' :: s) rest
  | dollar {c s rest} : c ≠ '(' → c ≠ '{' → NameText s rest → NameText ('$' :: c :: s) rest
  | char {c s rest} : c ≠ '$' → c ≠ '#' → c ≠ ':' → isBlank c = false → ¬ StartsOp (c :: s ++ rest) →
      NameText s rest → NameText (c :: s) rest

/-- `line` is an assignment to `name` with the given flavour and right-hand side. -/
def IsAssignment (line name : Str) (f : Flavor) (value : Str) : Prop :=
  ∃ lead gap op rest, line = lead ++ name ++ gap ++ op ++ rest ∧
    (∀ c ∈ lead, isSpace c = true) ∧ (name ++ gap ++ op).head?.all (fun c => !isSpace c) = true ∧
    (gap = [] ∨ ∃ b sp, gap = b :: sp ∧ isBlank b = true ∧ ∀ c ∈ sp, isSpace c = true) ∧
    NameText name (gap ++ op ++ rest) ∧ Op op f ∧ value = rest.dropWhile isSpace

/-! ## Environment -/

/-- A definition is exported: by an explicit `export`, or from the command line or the
environment (or `export` without names) unless it is unexported or its name does not fit. -/
def Exported (exportAll : Bool) (gexp : Option Export) (v : Var) : Prop :=
  let x := if v.perTarget = true ∧ v.exp = .default then gexp.getD .default else v.exp
  x = .export_ ∨ (x = .ifset ∧ v.origin ≠ .default) ∨
  (x = .default ∧ v.exportable = true ∧
    (v.origin = .command ∨ v.origin = .env ∨ v.origin = .envOverride ∨
     (exportAll = true ∧ v.origin ≠ .default ∧ v.origin ≠ .automatic)))

/-- The exported definition in the first set that has one. -/
def firstExported (exportAll : Bool) (g : VarSet) : List VarSet → Str → (Var → Prop) → Prop
  | [], _, _ => False
  | s :: rest, n, P =>
    (∃ v, s n = some v ∧ Exported exportAll ((g n).map (·.exp)) v ∧ P v) ∨
    ((∀ v, s n = some v → ¬ Exported exportAll ((g n).map (·.exp)) v) ∧ firstExported exportAll g rest n P)

/-- A list of the definitions of a set. -/
def Enumerates (l : List (Str × Var)) (s : VarSet) : Prop :=
  ∀ n v, (n, v) ∈ l ↔ s n = some v

/-- Lists of the definitions of all the sets. -/
def EnumAll : List (List (Str × Var)) → List VarSet → Prop
  | [], [] => True
  | l :: ls, s :: ss => Enumerates l s ∧ EnumAll ls ss
  | _, _ => False

end Remake.Spec
