import Verif.Output.Model

/-! # What synchronised output should look like -/
namespace Remake.Spec
open Remake

/-- What the job of a context has written, to standard output or error; if these are the same, the two together. -/
def writtenTo (c : OutConfig) (m j : Nat) (err : Bool) : List OutLabel → Str
  | [] => []
  | .write m' j' e s :: l =>
    (if m' = m ∧ j' = j ∧ (e && !c.combined) = err then s else []) ++ writtenTo c m j err l
  | _ :: l => writtenTo c m j err l

/-- A piece of the terminal that comes from one context: its texts for standard output and error, and whether it is all of them. -/
structure Block where
  make : Nat
  ctx : Nat
  events : List OutEvent
  whole : Bool

/-- The text of a list of events, on standard output or error, without messages on the directory. -/
def textOf (err : Bool) (es : List OutEvent) : Str := ((es.filter (fun e => e.err == err && !e.log)).map (·.text)).flatten

/-- All events of the block belong to its context. -/
def Block.Own (b : Block) : Prop := ∀ e ∈ b.events, e.make = b.make ∧ e.ctx = some b.ctx

/-- The texts of the whole blocks of a context. -/
def blocksText (m j : Nat) (err : Bool) (bs : List Block) : Str :=
  ((bs.filter (fun b => b.make == m && b.ctx == j && b.whole)).map (fun b => textOf err b.events)).flatten

/-- What is on the terminal and was captured. -/
def capturedEvents (t : List OutEvent) : List OutEvent := t.filter (fun e => e.ctx.isSome)

/-- The make is writing out the context, or was when it was killed. -/
def busyWith : DumpPc → Nat → Bool
  | .idle, _ => false
  | .wait j .., i => j == i
  | .enter j .., i => j == i
  | .out j .., i => j == i
  | .err j .., i => j == i
  | .leave j _, i => j == i
  | .unlock j _, i => j == i
  | .trunc j, i => j == i
  | .dead p, i => busyWith p i

/-- Locks do not fail, and no job writes while its context is written out: its commands have ended by then. -/
def Disciplined (c : OutConfig) : List OutLabel → OutSys → Prop
  | [], _ => True
  | l :: ls, s =>
    (match l with
      | .write m j _ _ => busyWith (s.pc m) j = false
      | .lockFail _ => False
      | _ => True) ∧ ∀ s', outStep c s l = some s' → Disciplined c ls s'

end Remake.Spec
