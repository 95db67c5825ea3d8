import Verif.Levels.Model

/-!
# Specification: the kinds of messages asked for
-/

namespace Remake.Spec
open Remake

/-- The letters of `--debug` that the manual knows. -/
def dbKnown : List Char := ['a', 'b', 'i', 'j', 'm', 'n', 'v', 'A', 'B', 'I', 'J', 'M', 'N', 'V']

/-- The letters that switch everything off. -/
def DbOff (c : Char) : Prop := c = 'n' ∨ c = 'N'

/-- The kinds of messages that a letter switches on, as the manual lists them. -/
inductive DbGives : Char → Lv → Prop
  | a (c : Char) (h : c = 'a' ∨ c = 'A') (l : Lv) : DbGives c l
  | b (c : Char) (h : c = 'b' ∨ c = 'B') : DbGives c .basic
  | v (c : Char) (h : c = 'v' ∨ c = 'V') (l : Lv) (hl : l = .basic ∨ l = .verbose) : DbGives c l
  | i (c : Char) (h : c = 'i' ∨ c = 'I') (l : Lv) (hl : l = .basic ∨ l = .implicit) : DbGives c l
  | j (c : Char) (h : c = 'j' ∨ c = 'J') : DbGives c .jobs
  | m (c : Char) (h : c = 'm' ∨ c = 'M') (l : Lv) (hl : l = .basic ∨ l = .makefiles) : DbGives c l

/-- A kind of message is on after options that switch on (`G`) and off (`R`): it was on before and nothing was switched off, or an
option switched it on and nothing was switched off behind that. -/
def LvOn {α : Type} (G : α → Lv → Prop) (R : α → Prop) (xs : List α) (before : Lv → Prop) (l : Lv) : Prop :=
  (before l ∧ ∀ x ∈ xs, ¬ R x) ∨ ∃ pre x post, xs = pre ++ x :: post ∧ G x l ∧ ∀ y ∈ post, ¬ R y

/-- The first letters of the items of an argument of `--debug`: items are separated by one comma or blank, and one more may stand at
the end. -/
inductive DbList : Str → List Char → Prop
  | last (c : Char) (t : Str) (h : ',' ∉ t ∧ ' ' ∉ t) : DbList (c :: t) [c]
  | trail (c : Char) (t : Str) (s : Char) (h : ',' ∉ t ∧ ' ' ∉ t) (hs : s = ',' ∨ s = ' ') : DbList (c :: (t ++ [s])) [c]
  | cons (c : Char) (t : Str) (s : Char) (q : Str) (cs : List Char) (h : ',' ∉ t ∧ ' ' ∉ t) (hs : s = ',' ∨ s = ' ')
      (hq : DbList q cs) : DbList (c :: (t ++ s :: q)) (c :: cs)

/-- The letters of several arguments. -/
inductive DbLists : List Str → List Char → Prop
  | nil : DbLists [] []
  | cons (p : Str) (ps : List Str) (cs ds : List Char) (h : DbList p cs) (hs : DbLists ps ds) : DbLists (p :: ps) (cs ++ ds)

/-- The types of `--trace`. -/
def traceKnown : List Str := ["command".toList, "full".toList, "normal".toList, "noshell".toList, "read".toList]

/-- What a type of `--trace` switches on. -/
inductive TraceGives : Str → Lv → Prop
  | full (l : Lv) (h : l = .verbose ∨ l = .readMakefiles) : TraceGives "full".toList l
  | normal : TraceGives "normal".toList .basic
  | noshell (l : Lv) (h : l = .basic ∨ l = .trace) : TraceGives "noshell".toList l
  | read : TraceGives "read".toList .readMakefiles

end Remake.Spec
