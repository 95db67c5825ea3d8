import Verif.Times.Model
/-! Specification vocabulary for touching and for symbolic links (C110, C111). -/
namespace Remake.Spec
open Remake

/-- A target is touched instead of made: it has a recipe, is not phony, and the recipe has a line that is not recursive or
no line at all. -/
def TouchTarget (phony : Bool) (lines : Option (List Bool)) : Prop :=
  phony = false ∧ ∃ ls, lines = some ls ∧ (ls = [] ∨ ∃ l ∈ ls, l = false)

/-- What there is under a name. -/
inductive LinkNode where
  | missing
  | file (mtime : Nat)
  | link (mtime : Nat) (target : Str)
deriving DecidableEq

/-- The name that a link `p` to `target` leads to: relative to the directory of the link. -/
def LeadsTo (p target q : Str) : Prop :=
  (target.head? = some '/' ∧ q = target) ∨
  (target.head? ≠ some '/' ∧ '/' ∉ p ∧ q = target) ∨
  (target.head? ≠ some '/' ∧ ∃ dir base, p = dir ++ '/' :: base ∧ '/' ∉ base ∧ q = dir ++ '/' :: target)

/-- `LinkChain node p ts e`: from the name `p` links with the times `ts` lead to something with the time `e` (`none`: to a
name under which there is nothing). -/
inductive LinkChain (node : Str → LinkNode) : Str → List Nat → Option Nat → Prop where
  | missing {p : Str} : node p = .missing → LinkChain node p [] none
  | file {p : Str} {t : Nat} : node p = .file t → LinkChain node p [] (some t)
  | link {p q target : Str} {t : Nat} {ts : List Nat} {e : Option Nat} : node p = .link t target → LeadsTo p target q →
      LinkChain node q ts e → LinkChain node p (t :: ts) e

/-- `LinkNames node p qs`: the names that are gone through after `p`. -/
inductive LinkNames (node : Str → LinkNode) : Str → List Str → Prop where
  | stop {p : Str} : (∀ t target, node p ≠ .link t target) → LinkNames node p []
  | link {p q target : Str} {t : Nat} {qs : List Str} : node p = .link t target → LeadsTo p target q →
      LinkNames node q qs → LinkNames node p (q :: qs)

/-- The system calls answer as the names are; at most `limit` links are followed, names of `PATH_MAX` characters or more are
refused, and what a link leads to is a shorter name. -/
structure Kernel (fs : LinkFs) (node : Str → LinkNode) (limit pathMax : Nat) : Prop where
  short : ∀ p t target, node p = .link t target → target.length < pathMax
  lstat_missing : ∀ p, p.length < pathMax → node p = .missing → ∃ e, fs.lstat p = .error e
  lstat_file : ∀ p t, p.length < pathMax → node p = .file t → fs.lstat p = .ok (false, t)
  lstat_link : ∀ p t target, p.length < pathMax → node p = .link t target → fs.lstat p = .ok (true, t)
  readlink : ∀ p t target, p.length < pathMax → node p = .link t target → fs.readlink p = .ok target
  found : ∀ p ts t, p.length < pathMax → LinkChain node p ts (some t) → ts.length ≤ limit → fs.stat p = .ok t
  dangling : ∀ p ts, p.length < pathMax → LinkChain node p ts none → ts.length ≤ limit → fs.stat p = .error .missing
  endless : ∀ p, (∀ ts e, LinkChain node p ts e → limit < ts.length) → fs.stat p = .error .other
  long : ∀ p, pathMax ≤ p.length → fs.stat p = .error .other

/-- The latest of the times. -/
def Latest (ts : List Nat) (m : Nat) : Prop := m ∈ ts ∧ ∀ t ∈ ts, t ≤ m

end Remake.Spec
