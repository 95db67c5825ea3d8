import Verif.Reader.TargetModel
import Verif.Var.Spec
import Verif.Text.Spec
/-!
# What target-specific definitions do

A definition is described by the variable each target has of its own before and after, without sets and their numbers.
-/
namespace Remake.Spec

/-- The variable a target has of its own. -/
def ownVar (t : TvState) (target n : Str) : Option Var := (t.own target).bind fun i => t.defs.sets i n

/-- Sets and targets belong together: no two targets share a set, and neither the global set nor those of the
current list belong to a target. -/
structure TvOk (t : TvState) : Prop where
  pos : 0 < t.fresh
  own : ∀ x i, t.own x = some i → 0 < i ∧ i < t.fresh
  inj : ∀ x y i, t.own x = some i → t.own y = some i → x = y
  chain : ∀ p ∈ t.defs.chain, p.1 < t.fresh ∧ ∀ x, t.own x ≠ some p.1

/-- Expanding a text and running a command define no variables. -/
def PureEnv (E : DefEnv) : Prop := ∀ st s, (E.expand st s).1 = st ∧ (E.shell st s).1 = st

/-- `st` is what expansions see while a variable is defined for the target: its own variables, then the global ones. -/
def TargetScope (t : TvState) (target : Str) (st : DefState) : Prop :=
  ∃ i, st.chain = [(i, true), (0, false)] ∧ i ≠ 0 ∧ st.sets 0 = t.defs.sets 0 ∧ ∀ n, st.sets i n = ownVar t target n

/-- What the operators store, given the variable `old` the target had: `=` the text, `:=` its expansion, `!=` the output,
`?=` the text if there is no definition; `+=` appends to the target's own definition and, if there is none, marks
the variable as appending to what the global one says. -/
def Stores (E : DefEnv) (st : DefState) (old : Option Var) (flavor : Flavor) (value : Str) (o : Origin) (u : Var) : Prop :=
  match flavor with
  | .bogus => False
  | .recursive => u.append = false ∧ Assigned E.envOv old (some u) value o true
  | .simple => u.append = false ∧ Assigned E.envOv old (some u) (E.expand st value).2 o false
  | .shell => u.append = false ∧ Assigned E.envOv old (some u) (E.shell st (E.expand st value).2).2 o true
  | .conditional => (old = none → u.append = false ∧ Assigned E.envOv old (some u) value o true) ∧ ∀ v, old = some v → u = v
  | .append | .appendValue =>
    (old = none → u.append = true ∧ Assigned E.envOv old (some u) value o true) ∧
    ∀ v, old = some v →
      let x := if v.recursive then value else if flavor = .append then (E.expand st value).2 else value
      (x = [] → u = v) ∧
      (x ≠ [] → u.append = v.append ∧ Assigned E.envOv old (some u) (if v.value = [] then x else v.value ++ [' '] ++ x) o v.recursive)

/-- The variable `v` of the target, when the assignment stores `u` and `g` is the definition seen outside the target: the
modifiers of the line hold, and a definition from the command line or the environment under `-e` wins unless `override`
is given. -/
def Effective (g : Option Var) (m : VMods) (u v : Var) : Prop :=
  v.perTarget = true ∧ v.priv = m.privateV ∧ v.exp = (if m.exportV then .export_ else .default) ∧
  ((u.origin ≠ .override ∧ ∃ w, g = some w ∧ (w.origin = .command ∨ w.origin = .envOverride) ∧
      v.value = w.value ∧ v.origin = w.origin ∧ v.recursive = w.recursive ∧ v.append = false) ∨
   ((u.origin = .override ∨ ∀ w, g = some w → w.origin ≠ .command ∧ w.origin ≠ .envOverride) ∧
      v.value = u.value ∧ v.origin = u.origin ∧ v.recursive = u.recursive ∧ v.append = u.append))

/-- What is kept for a pattern, when `g` is the definition seen outside: the text, for `:=` its expansion, unless a definition
from the command line or the environment under `-e` wins. -/
def PatKept (E : DefEnv) (st : DefState) (g : Option Var) (m : VMods) (n value : Str) (fl : Flavor) (o : Origin) (d : PatDef) : Prop :=
  d.name = n ∧ d.flavor = fl ∧ d.perTarget = true ∧ d.priv = m.privateV ∧ d.exp = (if m.exportV then .export_ else .default) ∧
  ((o ≠ .override ∧ ∃ w, g = some w ∧ (w.origin = .command ∨ w.origin = .envOverride) ∧ d.value = w.value ∧ d.origin = w.origin) ∨
   ((o = .override ∨ ∀ w, g = some w → w.origin ≠ .command ∧ w.origin ≠ .envOverride) ∧
      d.value = (if fl = .simple then (E.expand st value).2 else value) ∧ d.origin = o))

/-- The patterns among written names, in order. -/
inductive PatNames : List Str → List (Str × Str) → Prop
  | nil : PatNames [] []
  | lit {w x : Str} {ws : List Str} {qs : List (Str × Str)} : ReadsAs '%' w (.lit x) → PatNames ws qs → PatNames (w :: ws) qs
  | pat {w pre post : Str} {ws : List Str} {qs : List (Str × Str)} : ReadsAs '%' w (.pat pre post) → PatNames ws qs →
      PatNames (w :: ws) ((pre, post) :: qs)

/-- The origin of a definition in a makefile. -/
def lineOrigin (m : VMods) : Origin := if m.overrideV then .override else .file

end Remake.Spec
