import Verif.Misc.Model
/-! Specification vocabulary for C48, C56, C59 and C60. -/
namespace Remake.Spec
open Remake

/-- A time: seconds and nanoseconds, the latter below 10⁹. -/
structure Time where
  sec : Int
  ns : Nat
  ok : ns < 10 ^ 9

/-- The time is before another one. -/
def Time.before (a b : Time) : Prop := a.sec < b.sec ∨ a.sec = b.sec ∧ a.ns < b.ns

/-- The time can be represented: from 1970 to 2514. -/
def Time.inRange (a : Time) : Prop := 0 ≤ a.sec ∧ a.sec < 2 ^ 34

/-- What `read` promises: at most the length asked for, no more than there is, and nothing only
at the end. -/
def ReadOk : Nat → Str → List SysRes → Prop
  | _, _, [] => True
  | len, src, .eintr :: rs => ReadOk len src rs
  | _, _, .fail :: _ => True
  | len, src, .bytes n :: rs =>
    n ≤ len ∧ n ≤ src.length ∧ (n = 0 → src = [] ∨ len = 0) ∧ ReadOk (len - n) (src.drop n) rs

/-- The number of bytes that calls transfer. -/
def transferred : List SysRes → Nat
  | [] => 0
  | .bytes n :: rs => n + transferred rs
  | _ :: rs => transferred rs

/-- The text between the quotes of a JSON string (RFC 8259, section 7), decoded; `none` if it is
not well formed.  The `\u` escapes are left out. -/
def jsonDecode : Str → Option Str
  | [] => some []
  | [c] => if c = '"' ∨ c = '\\' ∨ c.toNat < 0x20 then none else some [c]
  | c :: d :: cs =>
    if c = '\\' then
      if d = '"' ∨ d = '\\' ∨ d = '/' then (jsonDecode cs).map (d :: ·)
      else if d = 'b' then (jsonDecode cs).map ('\x08' :: ·)
      else if d = 'f' then (jsonDecode cs).map ('\x0c' :: ·)
      else if d = 'n' then (jsonDecode cs).map ('\n' :: ·)
      else if d = 'r' then (jsonDecode cs).map ('\r' :: ·)
      else if d = 't' then (jsonDecode cs).map ('\t' :: ·)
      else none
    else if c = '"' ∨ c.toNat < 0x20 then none
    else (jsonDecode (d :: cs)).map (c :: ·)

/-- The four control characters that are printed as blanks. -/
def softControl : List Char := ['\x08', '\t', '\n', '\r']

end Remake.Spec
