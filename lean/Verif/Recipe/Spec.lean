import Verif.Recipe.Model
import Verif.Cmds.Spec
/-! What running a recipe means. -/
namespace Remake.Spec
open Remake

/-- A text without the recipe prefix after newlines; `nl`: a newline was just before and it was not left out. -/
def unprefixed (pre : Char) : (nl : Bool) → Str → Str
  | _, [] => []
  | nl, c :: s => if nl ∧ c = pre then unprefixed pre false s else c :: unprefixed pre (c = '\n') s

/-- A command of a recipe. -/
structure RecipeCmd where
  /-- the arguments; none if there is nothing to run -/
  argv : Option (List Str)
  /-- what is shown -/
  text : Str
  silent : Bool
  noerror : Bool
  recursive : Bool
deriving DecidableEq, Repr

theorem unprefixed_length (pre : Char) (nl : Bool) (s : Str) : (unprefixed pre nl s).length ≤ s.length := by
  induction s generalizing nl with
  | nil => simp [unprefixed]
  | cons c s ih =>
    rw [unprefixed]
    split
    · have := ih false; simp; omega
    · have := ih (c = '\n'); simp; omega

/-- The commands of an expanded line: characters `@`, `-`, `+` before a command belong to it and `+` also to
those after it on the same line; `f` are the characters before the line was expanded and the
attributes of the target. -/
def lineCommands (sp : Splitter) (pre : Char) (file f : LineFlags) (t : Str) : List RecipeCmd :=
  if t = [] then []
  else
    let marks := linePrefix t
    let a := sp.f (unprefixed pre false (t.drop marks.length))
    let recursive := file.recurse || f.recurse || marks.contains '+'
    { argv := a.1
      text := a.2.1
      silent := file.silent || f.silent || marks.contains '@'
      noerror := file.noerror || f.noerror || marks.contains '-'
      recursive := recursive } ::
    match h : a.2.2 with
    | none => []
    | some r => lineCommands sp pre file { f with recurse := recursive } r
termination_by t.length
decreasing_by
  have h1 := sp.shorter _ _ _ r (show sp.f (unprefixed pre false (t.drop (linePrefix t).length)) =
    (a.1, a.2.1, some r) by rw [← h])
  have h2 := unprefixed_length pre false (t.drop (linePrefix t).length)
  simp at h2
  omega

/-- The commands of a recipe. -/
def recipeCommands (o : RunOpts) (sp : Splitter) (lines : List RecipeLine) : List RecipeCmd :=
  lines.flatMap fun l => lineCommands sp o.recipePrefix o.file l.flags l.text

/-- A Bourne shell is asked to do nothing. -/
def noop : List Str → Bool
  | [sh, f, c] =>
    (["sh", "bash", "ksh", "rksh", "zsh", "ash", "dash"].map String.toList).any (fun b =>
      sh == b || ('/' :: b).isSuffixOf sh || ('\\' :: b).isSuffixOf sh)
      && (f == "-c".toList || f == "-ec".toList) && c == ":".toList
  | _ => false

/-- Is the command considered at all under `-t`? -/
def considered (o : RunOpts) (c : RecipeCmd) : Bool := c.argv.isSome && (c.recursive || !o.touch)

/-- Is the command shown? -/
def isShown (o : RunOpts) (c : RecipeCmd) : Bool :=
  considered o c && (o.justPrint || o.trace || !(c.silent || o.runSilent))

/-- Is the command run? -/
def runs (o : RunOpts) (c : RecipeCmd) : Bool :=
  considered o c && (c.recursive || !o.justPrint) && !noop (c.argv.getD [])

/-- `-q` stops here. -/
def asks (o : RunOpts) (c : RecipeCmd) : Bool := c.argv.isSome && o.question && !c.recursive

/-- What is seen of a command. -/
def steps (o : RunOpts) (c : RecipeCmd) : List RunEvent :=
  (if isShown o c then [.print c.text] else []) ++ (if runs o c then [.exec (c.argv.getD [])] else [])

/-- A command that may be followed by others: it succeeded or its failure is ignored. -/
def passes (o : RunOpts) (c : RecipeCmd) (e : CmdExit) : Prop :=
  e = .code 0 ∨ c.noerror = true ∨ o.ignoreErrors = true

/-- The commands that were executed. -/
def executed (ev : List RunEvent) : List (List Str) :=
  ev.filterMap fun e => match e with | .exec a => some a | _ => none

/-- How a run ends, after the commands `pre`, with the commands `suf` left. -/
structure RunEnded (o : RunOpts) (w : RunWorld) (k : Nat) (pre suf : List RecipeCmd) (e : RunEnd) : Prop where
  /-- the commands before the last one that ran have passed, and make was not dying -/
  passed : ∀ i c, ((pre.filter (runs o))[i]?) = some c → i + 1 < (pre.filter (runs o)).length →
    passes o c (w.exit (k + i)) ∧ w.dying (k + i) = false
  noAsk : ∀ c ∈ pre, asks o c = false
  success : e.status = .success → suf = [] ∧
    (∀ i c, ((pre.filter (runs o))[i]?) = some c → passes o c (w.exit (k + i)))
  failed : e.status = .failed → ∃ c p, pre = p ++ [c] ∧ runs o c = true ∧
    (¬ passes o c (w.exit (k + (p.filter (runs o)).length)) ∨
      suf ≠ [] ∧ w.dying (k + (p.filter (runs o)).length) = true)
  question : e.status = .question → o.question = true ∧
    ((∃ c s, suf = c :: s ∧ asks o c = true) ∨
     ∃ c p, pre = p ++ [c] ∧ runs o c = true ∧ c.recursive = true ∧
       w.exit (k + (p.filter (runs o)).length) = .code 1 ∧ ¬ passes o c (.code 1))
  quit : e.status = .quit → o.debugger = true ∧ ∃ c p, pre = p ++ [c] ∧ runs o c = true ∧
    w.exit (k + (p.filter (runs o)).length) = .code 77

end Remake.Spec
