import Verif.Reader.Model
import Verif.Read.CondSpec
/-! Specification vocabulary for the reading of makefiles: stanzas (C87). -/
namespace Remake.Spec
open Remake

variable {σ : Type}

/-- A line that starts with the recipe prefix. -/
def IsRecipeLine (c : Char) (l : Str) : Prop := l.head? = some c
instance (c : Char) (l : Str) : Decidable (IsRecipeLine c l) := inferInstanceAs (Decidable (_ = _))

/-- A line without text: empty, white space, or only a comment. -/
def NoText (posix : Bool) (l : Str) : Prop := evalText posix l = []

/-- The recipe made of the recipe lines among `ls`: each without its prefix, and ended by a newline. -/
def recipeText (c : Char) (ls : List Str) : Str :=
  (ls.filter fun l => decide (IsRecipeLine c l)).flatMap fun l => l.tail ++ ['\n']

/-- The command after a semicolon. -/
def firstCommand : Option Str → Str
  | none => []
  | some c => c ++ ['\n']

/-- A line with its continuation: the lines of the body of a `define`, and the lines after it up to the next stanza. -/
structure Stanza where
  head : Str
  inner : List Str := []
  trail : List Str := []

/-- The lines of a stanza. -/
def Stanza.lines (z : Stanza) : List Str := z.head :: (z.inner ++ z.trail)

/-- The first line of a stanza has text and is no conditional, and its text is the assignment `a`, if any. -/
def Heads (E : RdEnv σ) (z : Stanza) (a : Option (VMods × Str)) : Prop :=
  z.head ≠ [] ∧ parseVarAssignment (evalText E.posix z.head) = a ∧
    (a = none → evalText E.posix z.head ≠ [] ∧ ¬ Reserved (firstWord (evalText E.posix z.head)))

/-- The first line of a stanza is neither assignment nor directive; read in state `s` it is `out`. -/
def ReadsRule (E : RdEnv σ) (s : σ) (z : Stanza) (e : σ) (out : RuleOut) : Prop :=
  Heads E z none ∧ firstWord (evalText E.posix z.head) ∉ directiveWords ∧
    z.head.head? ≠ some (E.cmdPrefix s) ∧ z.inner = [] ∧
    ruleLine E s (cutLine E z.head).1 (cutLine E z.head).2.1 (cutLine E z.head).2.2 = (e, out)

/-- The tests of conditionals in the state of make. -/
def testEnv (E : RdEnv σ) : EvalEnv σ where
  posix := E.posix
  recipe _ _ := false
  cmdPrefix := E.cmdPrefix
  assign _ := none
  addRecipe s _ := s
  doAssign s _ := s
  doDefine s _ _ := s
  other s _ _ := s
  expand := E.expand
  defined := E.defined

/-- One recipe after the other. -/
def Then (r : Option (σ × Str)) (f : σ → Option (σ × Str)) : Option (σ × Str) :=
  match r with
  | none => none
  | some (s, x) => (f s).map fun q => (q.1, x ++ q.2)

mutual
/-- The recipe lines of a block that has only recipe lines, lines without text and conditionals: those of the branches
taken, as recipe text, and the state after the tests.  `none` if the block has other lines or a test is malformed. -/
def Blk.recipe (E : RdEnv σ) (s : σ) : Blk → Option (σ × Str)
  | .nil => some (s, [])
  | .plain l b =>
    if IsRecipeLine (E.cmdPrefix s) l then Then (some (s, l.tail ++ ['\n'])) fun s => b.recipe E s
    else if evalText E.posix l = [] then b.recipe E s
    else none
  | .define _ _ _ _ => none
  | .cond h k body t b =>
    match condTest (testEnv E) s k (afterWord (evalText E.posix h)) with
    | (_, none) => none
    | (s, some true) => Then (body.recipe E s) fun s => b.recipe E s
    | (s, some false) => Then (t.recipe E s) fun s => b.recipe E s
/-- The same for what follows a branch not taken. -/
def Tail.recipe (E : RdEnv σ) (s : σ) : Tail → Option (σ × Str)
  | .endif _ => some (s, [])
  | .els _ body _ => body.recipe E s
  | .elif l k body t =>
    match condTest (testEnv E) s k (afterWord (afterWord (evalText E.posix l))) with
    | (_, none) => none
    | (s, some true) => body.recipe E s
    | (s, some false) => t.recipe E s
end

/-- `StanzaMeans E s z e o`: in the state `s` the stanza `z` leads to the state `e`; `o` says whether lines that start with
the recipe prefix still belong to it. -/
inductive StanzaMeans (E : RdEnv σ) (s : σ) (z : Stanza) : σ → Bool → Prop where
  | assign {m : VMods} {q : Str} : Heads E z (some (m, q)) → m.defineV = false → z.inner = [] →
      (∀ l ∈ z.trail, NoText E.posix l) → StanzaMeans E s z (E.assign s m q) false
  | define {m : VMods} {q : Str} {body : List Str} : Heads E z (some (m, q)) → m.defineV = true →
      (∀ rest, takeDefine E.posix (E.cmdPrefix s) 1 (z.inner ++ rest) = some (body, rest)) →
      (∀ l ∈ z.trail, NoText E.posix l) →
      StanzaMeans E s z (E.define s m q (['\n'].intercalate body)) false
  | directive : Heads E z none → firstWord (evalText E.posix z.head) ∈ directiveWords → z.inner = [] →
      (∀ l ∈ z.trail, NoText E.posix l) →
      StanzaMeans E s z (E.directive s (firstWord (evalText E.posix z.head)) (afterWord (evalText E.posix z.head))) false
  | nothing {e : σ} : ReadsRule E s z e .nothing → (∀ l ∈ z.trail, NoText E.posix l) → StanzaMeans E s z e false
  | targetVar {e : σ} {names : List Str} {m : VMods} {d : Str} : ReadsRule E s z e (.targetVar names m d) →
      (∀ l ∈ z.trail, NoText E.posix l) → StanzaMeans E s z (E.targetVar e names m d) false
  | noTargets {e : σ} : ReadsRule E s z e .noTargets →
      (∀ l ∈ z.trail, IsRecipeLine (E.cmdPrefix e) l ∨ NoText E.posix l) → StanzaMeans E s z e true
  | rule {e : σ} {w : Waiting} {cmd : Option Str} : ReadsRule E s z e (.rule w cmd) →
      (∀ l ∈ z.trail, IsRecipeLine (E.cmdPrefix e) l ∨ NoText E.posix l) →
      StanzaMeans E s z (E.record e w (firstCommand cmd ++ recipeText (E.cmdPrefix e) z.trail)) true
  /-- A recipe with conditionals. -/
  | ruleCond {e e' : σ} {w : Waiting} {cmd : Option Str} {b : Blk} {text : Str} : ReadsRule E s z e (.rule w cmd) →
      z.trail = b.lines → b.WF (readerEnv E) → b.recipe E e = some (e', text) →
      StanzaMeans E s z (E.record e' w (firstCommand cmd ++ text)) true

/-- A makefile as a sequence of stanzas: each in the state that those before it lead to.  After a rule the next
stanza does not start with the recipe prefix. -/
inductive Stanzas (E : RdEnv σ) : Bool → σ → List Stanza → σ → Prop where
  | nil {o : Bool} {s : σ} : Stanzas E o s [] s
  | cons {o o' : Bool} {s e s' : σ} {z : Stanza} {zs : List Stanza} :
      (o = true → ¬ IsRecipeLine (E.cmdPrefix s) z.head) → StanzaMeans E s z e o' → Stanzas E o' e zs s' →
      Stanzas E o s (z :: zs) s'

/-- The prefix is changed only by assignments, directives and expansions: not by recording a rule. -/
def StablePrefix (E : RdEnv σ) : Prop := ∀ s w c, E.cmdPrefix (E.record s w c) = E.cmdPrefix s

end Remake.Spec
