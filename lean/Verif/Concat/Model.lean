import Verif.Member.Model

/-!
# Putting texts together

Models `concat` (misc.c 133-174), whose static memory is used again by each call.  Writing outside of the memory, and reading bytes that were not
written, give `none` (`mbPut`, `mbGet`).  Simplified: `xrealloc` succeeds, and lengths do not overflow a `size_t`.
-/
namespace Remake

/-- `xrealloc` (misc.c 154, 168): the old bytes, then bytes that were not written. -/
def ccGrow (buf : List (Option Char)) (n : Nat) : List (Option Char) := buf ++ List.replicate (n - buf.length) none

/-- `rlen ? rlen : 60` (misc.c 153, 167). -/
def ccBase (rlen : Nat) : Nat := if rlen ≠ 0 then rlen else 60

/-- The loop (misc.c 143-159): `buf` is the memory at `result`, its length `rlen`.  A null pointer counts as an empty text. -/
def ccLoop : List (Option Str) → List (Option Char) → Nat → Option (List (Option Char) × Nat)
  | [], buf, ri => some (buf, ri)
  | a :: as, buf, ri =>
    let s := a.getD []
    if s.length = 0 then ccLoop as buf ri
    else
      let buf := if ri + s.length > buf.length then ccGrow buf ((ccBase buf.length + s.length) * 2) else buf
      (mbPut buf ri s).bind fun b => ccLoop as b (ri + s.length)

/-- `concat` (misc.c 133-174): the text that is returned, and the static memory afterwards. -/
def concatStr (buf : List (Option Char)) (args : List (Option Str)) : Option (Str × List (Option Char)) :=
  (ccLoop args buf 0).bind fun (b, ri) =>
  let b := if ri = b.length then ccGrow b (ccBase b.length * 2) else b
  (mbPut b ri [Char.ofNat 0]).bind fun b => (mbGet b).map fun s => (s, b)

/-- A history of calls, from the start of the program (misc.c 136-137): the texts they return. -/
def concatAll : List (Option Char) → List (List (Option Str)) → Option (List Str)
  | _, [] => some []
  | buf, c :: cs => (concatStr buf c).bind fun (s, b) => (concatAll b cs).map (s :: ·)

end Remake
