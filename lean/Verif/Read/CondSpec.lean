import Verif.Read.CondModel
/-!
# What conditionals mean

A makefile is a tree of blocks.  Its meaning executes the plain lines in order and, of each
conditional, the first branch whose test holds; the tests of later branches and of
conditionals inside branches not taken are not evaluated.  Nothing here mentions levels,
stacks or flags.
-/
namespace Remake.Spec
open Remake

variable {σ : Type}

mutual
/-- A sequence of lines and complete conditionals. -/
inductive Blk where
  | nil
  | plain (line : Str) (next : Blk)
  | define (head : Str) (body : List Str) (endef : Str) (next : Blk)
  | cond (head : Str) (k : CondKind) (body : Blk) (tail : Tail) (next : Blk)
/-- What follows the first branch of a conditional. -/
inductive Tail where
  | endif (line : Str)
  | els (line : Str) (body : Blk) (endif : Str)
  | elif (line : Str) (k : CondKind) (body : Blk) (tail : Tail)
end

mutual
/-- The lines of a block. -/
def Blk.lines : Blk → List Str
  | .nil => []
  | .plain l b => l :: b.lines
  | .define h body e b => h :: (body ++ e :: b.lines)
  | .cond h _ body t b => h :: (body.lines ++ (t.lines ++ b.lines))
/-- The lines of a tail. -/
def Tail.lines : Tail → List Str
  | .endif l => [l]
  | .els l body e => l :: (body.lines ++ [e])
  | .elif l _ body t => l :: (body.lines ++ t.lines)
end

/-- The first word of a line's text, and the text after it. -/
def firstWord (p : Str) : Str := p.takeWhile fun c => !isSpace c
/-- The text after the first word and the white space following it. -/
def afterWord (p : Str) : Str := (p.dropWhile fun c => !isSpace c).dropWhile isSpace

/-- The spelling of the opening keywords. -/
def keyword : CondKind → Str
  | .ifdef => "ifdef".toList
  | .ifndef => "ifndef".toList
  | .ifeq => "ifeq".toList
  | .ifneq => "ifneq".toList

/-- The six words that make a line a conditional directive. -/
def Reserved (w : Str) : Prop :=
  (∃ k, w = keyword k) ∨ w = "else".toList ∨ w = "endif".toList

/-- A line that is neither empty, nor in a recipe, nor an assignment. -/
def Directive (E : EvalEnv σ) (l : Str) : Prop :=
  l ≠ [] ∧ (∀ s, E.recipe s l = false) ∧ E.assign (evalText E.posix l) = none

/-- An `if...` line of kind `k`. -/
def IsOpen (E : EvalEnv σ) (l : Str) (k : CondKind) : Prop :=
  Directive E l ∧ firstWord (evalText E.posix l) = keyword k
/-- An `endif` line. -/
def IsEndif (E : EvalEnv σ) (l : Str) : Prop :=
  Directive E l ∧ firstWord (evalText E.posix l) = "endif".toList
/-- An `else` line with nothing after it. -/
def IsElse (E : EvalEnv σ) (l : Str) : Prop :=
  Directive E l ∧ firstWord (evalText E.posix l) = "else".toList ∧ afterWord (evalText E.posix l) = []
/-- An `else if...` line. -/
def IsElif (E : EvalEnv σ) (l : Str) (k : CondKind) : Prop :=
  Directive E l ∧ firstWord (evalText E.posix l) = "else".toList ∧
    firstWord (afterWord (evalText E.posix l)) = keyword k

/-- A line that is no directive and does not begin a `define`. -/
def IsPlain (E : EvalEnv σ) (l : Str) : Prop :=
  l ≠ [] → ∀ s, E.recipe s l = false → E.assign (evalText E.posix l) ≠ some true ∧
    (E.assign (evalText E.posix l) = none → ¬ Reserved (firstWord (evalText E.posix l)))

/-- The first line of a `define`. -/
def IsDefine (E : EvalEnv σ) (l : Str) : Prop :=
  l ≠ [] ∧ (∀ s, E.recipe s l = false) ∧ E.assign (evalText E.posix l) = some true

/-- A body line of a `define` that neither opens nor closes one, in either of the two ways
the code looks for that. -/
def IsBody (E : EvalEnv σ) (l : Str) : Prop :=
  (∀ c, defineMark E.posix c l = 0) ∧
  (l ≠ [] → E.assign (evalText E.posix l) = none → skipsEndef (evalText E.posix l) = false)

/-- A line that closes a `define` in both ways. -/
def IsEndef (E : EvalEnv σ) (l : Str) : Prop :=
  Directive E l ∧ (∀ s, defineMark E.posix (E.cmdPrefix s) l = -1) ∧ skipsEndef (evalText E.posix l) = true

mutual
/-- The lines of a block are what the tree says they are. -/
def Blk.WF (E : EvalEnv σ) : Blk → Prop
  | .nil => True
  | .plain l b => IsPlain E l ∧ b.WF E
  | .define h body e b => IsDefine E h ∧ (∀ l ∈ body, IsBody E l) ∧ IsEndef E e ∧ b.WF E
  | .cond h k body t b => IsOpen E h k ∧ body.WF E ∧ t.WF E ∧ b.WF E
/-- The lines of a tail are what the tree says they are. -/
def Tail.WF (E : EvalEnv σ) : Tail → Prop
  | .endif l => IsEndif E l
  | .els l body e => IsElse E l ∧ body.WF E ∧ IsEndif E e
  | .elif l k body t => IsElif E l k ∧ body.WF E ∧ t.WF E
end

/-- Sequencing. -/
def andThen : EvalRes σ → (σ → EvalRes σ) → EvalRes σ
  | .done s, f => f s
  | .fatal, _ => .fatal
  | .undef, _ => .undef

/-- The effect of a plain line. -/
def runPlain (E : EvalEnv σ) (s : σ) (l : Str) : σ :=
  if l = [] then s
  else if E.recipe s l then E.addRecipe s l
  else if E.assign (evalText E.posix l) = some false then E.doAssign s (evalText E.posix l)
  else if evalText E.posix l = [] then s
  else E.other s l (evalText E.posix l)

mutual
/-- The meaning of a block. -/
def Blk.run (E : EvalEnv σ) (s : σ) : Blk → EvalRes σ
  | .nil => .done s
  | .plain l b => b.run E (runPlain E s l)
  | .define h body _ b =>
    b.run E (E.doDefine s (evalText E.posix h)
      (['\n'].intercalate (body.map (collapseContinuations E.posix))))
  | .cond h k body t b =>
    match condTest E s k (afterWord (evalText E.posix h)) with
    | (_, none) => .fatal
    | (s, some true) => andThen (body.run E s) fun s => b.run E s
    | (s, some false) => andThen (t.run E s) fun s => b.run E s
/-- The meaning of a tail when no earlier test held. -/
def Tail.run (E : EvalEnv σ) (s : σ) : Tail → EvalRes σ
  | .endif _ => .done s
  | .els _ body _ => body.run E s
  | .elif l k body t =>
    match condTest E s k (afterWord (afterWord (evalText E.posix l))) with
    | (_, none) => .undef
    | (s, some true) => body.run E s
    | (s, some false) => t.run E s
end

/-- No comma outside parentheses (a `)` too many counts as outside). -/
def NoTopComma (a : Str) : Prop :=
  ∀ x y, a = x ++ ',' :: y → x.count ')' < x.count '('
/-- Every `)` closes an earlier `(`. -/
def NoLooseClose (b : Str) : Prop :=
  ∀ x y, b = x ++ ')' :: y → x.count ')' < x.count '('

/-- A line (continuations joined) that opens a nested `define`: it does not start with the
recipe prefix, and its first word, followed by a blank or the end, is `define`. -/
def Opens (posix : Bool) (c : Char) (l : Str) : Prop :=
  ∃ ws r, collapseContinuations posix l = ws ++ "define".toList ++ r ∧ (∀ x ∈ ws, isSpace x = true) ∧
    (r = [] ∨ r.head? = some ' ' ∨ r.head? = some '\t') ∧
    (collapseContinuations posix l).head? ≠ some c
/-- The same for `endef`. -/
def Closes (posix : Bool) (c : Char) (l : Str) : Prop :=
  ∃ ws r, collapseContinuations posix l = ws ++ "endef".toList ++ r ∧ (∀ x ∈ ws, isSpace x = true) ∧
    (r = [] ∨ r.head? = some ' ' ∨ r.head? = some '\t') ∧
    (collapseContinuations posix l).head? ≠ some c

/-- Lines in which every `define` has its `endef` and the other way round. -/
inductive Nested (posix : Bool) (c : Char) : List Str → Prop
  | nil : Nested posix c []
  | text {l : Str} {ls : List Str} : ¬ Opens posix c l → ¬ Closes posix c l →
      Nested posix c ls → Nested posix c (l :: ls)
  | pair {l e : Str} {b ls : List Str} : Opens posix c l → Nested posix c b → Closes posix c e →
      Nested posix c ls → Nested posix c (l :: (b ++ e :: ls))

/-- Expanding two texts one after the other and comparing the results. -/
def expandEq (E : EvalEnv σ) (s : σ) (a b : Str) : σ × Bool :=
  let r := E.expand s a
  let q := E.expand r.1 b
  (q.1, decide (r.2 = q.2))

end Remake.Spec
