import Verif.Reader.Model
import Verif.Var.Model
/-!
# Target-specific variables

Models `record_target_var` (read.c 1873-1962) and the part of `initialize_file_variables` that defines pattern-specific
variables for a target (variable.c 601-699).

Simplifications: while makefiles are read a target has no parent, so that its list of sets is its own set and the
global one (true unless `$(eval)` is called from a recipe); set 0 is the global set; the root of a double-colon
rule stands for all its entries (read.c 1926-1927); variables whose assignment has effects of its own (`set_special_var`) are as
others.
-/
namespace Remake

/-- The variable of a `struct pattern_var` (variable.h 107-114). -/
structure PatDef where
  name : Str
  value : Str
  flavor : Flavor
  origin : Origin
  perTarget : Bool := false
  priv : Bool := false
  exp : Export := .default
deriving DecidableEq, Repr

/-- The definitions: the sets of variables and the current list, the number of the next set, the set of each target, the
patterns and their variables by number. -/
structure TvState where
  defs : DefState
  fresh : Nat
  own : Str → Option Nat
  pats : PatVars
  patDef : Nat → Option PatDef
  patFresh : Nat

/-- How `record_target_var` ends. -/
inductive TvRes where
  | done (t : TvState)
  /-- Malformed definition, or an empty name (read.c 1934, variable.c 1662). -/
  | fatal
  /-- A null pointer is followed (read.c 1907-1909: `assert` is off), or `do_variable_definition` aborts. -/
  | undef

/-- The set of variables of a target, made if it is not there (read.c 1923-1929, variable.c 606-615). -/
def targetSet (t : TvState) (name : Str) : TvState × Nat :=
  match t.own name with
  | some i => (t, i)
  | none =>
    ({ t with defs := { t.defs with sets := fun j => if j = t.fresh then .empty else t.defs.sets j }
              fresh := t.fresh + 1
              own := fun n => if n = name then some t.fresh else t.own n }, t.fresh)

/-- The set that holds the variable `do_variable_definition` returns for a target (variable.c 1264-1266, 1486-1496): that of the
target, except for `?=` and a variable that is already defined. -/
def definedIn (st : DefState) (name : Str) (flavor : Flavor) : Nat :=
  match flavor, locateGo st false st.chain name with
  | .conditional, some i => i
  | _, _ => (st.chain.head?.map (·.1)).getD 0

/-- A definition from the command line, or from the environment under `-e` (read.c 1952). -/
def Origin.wins (o : Origin) : Bool := o = .envOverride || o = .command

/-- The flags of the variable and the check for a definition that wins (read.c 1939-1960), for the variable `n` in set `i`. -/
def settleVar (st : DefState) (i : Nat) (n : Str) (m : VMods) : DefState :=
  match st.sets i n with
  | none => st
  | some v =>
    let v := { v with perTarget := true, priv := m.privateV, exp := if m.exportV then .export_ else .default }
    let put (st : DefState) (v : Var) : DefState :=
      { st with sets := fun j => if j = i then (st.sets i).put n (some v) else st.sets j }
    let st := put st v
    if v.origin = .override then st
    else
      match locateGo st false st.chain n with
      | none => st
      | some j =>
        match st.sets j n with
        | none => st
        | some gv =>
          if j ≠ i ∧ gv.origin.wins then
            put st { v with value := gv.value, origin := gv.origin, recursive := gv.recursive, append := false }
          else st

/-- One plain target (read.c 1917-1960). -/
def recordPlain (E : DefEnv) (t : TvState) (name defn : Str) (origin : Origin) (m : VMods) : TvRes :=
  let (t, i) := targetSet t name
  let global := t.defs.chain
  match parseVariableDefinition defn with
  | none => .fatal
  | some a =>
    let (st, n) := E.expand { t.defs with chain := [(i, true), (0, false)] } a.name
    if n = [] then .fatal
    else
      let at_ := definedIn st n a.flavor
      match doVariableDefinition E st n a.value origin a.flavor true with
      | none => .undef
      | some st => .done { t with defs := settleVar { st with chain := global } at_ n m }

/-- One pattern (read.c 1902-1913, 1939-1960). -/
def recordPattern (E : DefEnv) (t : TvState) (pre post defn : Str) (origin : Origin) (m : VMods) : TvRes :=
  match parseVariableDefinition defn with
  | none => .undef
  | some a =>
    let (st, n) := E.expand t.defs a.name
    if n = [] then .fatal
    else
      let (st, value) := if a.flavor = .simple then E.expand st a.value else (st, a.value)
      let d : PatDef := { name := n, value := value, flavor := a.flavor, origin := origin, perTarget := true, priv := m.privateV,
                          exp := if m.exportV then .export_ else .default }
      let d :=
        if origin = .override then d
        else
          match lookupVariable st.scopes n with
          | none => d
          | some gv => if gv.origin.wins then { d with value := gv.value, origin := gv.origin } else d
      .done { t with defs := st, pats := createPatternVar t.pats ⟨t.patFresh, pre, post⟩
                     patDef := fun k => if k = t.patFresh then some d else t.patDef k, patFresh := t.patFresh + 1 }

/-- One target of `record_target_var` (read.c 1886-1961). -/
def recordOneVar (E : DefEnv) (t : TvState) (name defn : Str) (m : VMods) : TvRes :=
  let origin := if m.overrideV then Origin.override else .file
  match (findPercentCached name).1 with
  | .found pre _ post => recordPattern E t pre post defn origin m
  | .none name => recordPlain E t name defn origin m

/-- `record_target_var` (read.c 1873-1962), with the origin chosen by its caller (read.c 1233-1235). -/
def recordTargetVar (E : DefEnv) (t : TvState) (names : List Str) (defn : Str) (m : VMods) : TvRes :=
  match names with
  | [] => .done t
  | n :: ns =>
    match recordOneVar E t n defn m with
    | .done t => recordTargetVar E t ns defn m
    | r => r

/-- One pattern-specific variable, when it is defined for a target (variable.c 657-681); the set that collects them is `i`. -/
def applyPattern (E : DefEnv) (st : DefState) (i : Nat) (d : PatDef) : Option DefState :=
  let mark (st : DefState) (at_ : Nat) : DefState :=
    match st.sets at_ d.name with
    | none => st
    | some v => { st with sets := fun j => if j = at_ then (st.sets at_).put d.name (some { v with perTarget := d.perTarget, exp := d.exp, priv := d.priv }) else st.sets j }
  if d.flavor = .simple then
    some (mark { st with sets := fun j => if j = i then (st.sets i).define E.envOv d.name d.value d.origin false else st.sets j } i)
  else
    (doVariableDefinition E st d.name d.value d.origin d.flavor true).map fun st' => mark st' (definedIn st d.name d.flavor)

/-- The pattern-specific variables of a target (variable.c 639-688): the set that collects them is new and is put before
the current list meanwhile. -/
def patternSet (E : DefEnv) (t : TvState) (target : Str) : Option (TvState × Nat) :=
  let i := t.fresh
  let global := t.defs.chain
  let st0 : DefState := { sets := fun j => if j = i then .empty else t.defs.sets j, chain := (i, false) :: global }
  let r := (patternVarsFor target t.pats.list).foldl
    (fun st p => st.bind fun st => match t.patDef p.id with
      | none => some st
      | some d => applyPattern E st i d) (some st0)
  r.map fun st => ({ t with defs := { st with chain := global }, fresh := i + 1 }, i)

end Remake
