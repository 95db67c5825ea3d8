import Verif.Files.Model
import Verif.FileFn.Model

/-!
# Putting in the stem, with the addresses of the buffer

Models the first part of `enter_prereqs` (file.c 314-372) together with the buffer that the names are built in: `buffer` is the address from
before the loop and is not set again, whereas `variable_buffer_output` (expand.c 55-72; `outPut`) may move the buffer when it grows.  Reading
through `buffer` after such a move is undefined.  Simplified: a buffer that `xrealloc` moved away and back to its old address is as good as one
that did not move; names have no NUL.
-/
namespace Remake

/-- The calls of `variable_buffer_output` for one prerequisite `pre % post` (file.c 343-350): one with the terminating NUL for an empty stem, and
otherwise those of `patsubst_expand_pat` (function.c 179-232) for the pattern `%`, which matches each word of the stem. -/
def stemPieces (stem pre post : Str) : List Str :=
  if stem = [] then [pre ++ post ++ [Char.ofNat 0]]
  else (tokens stem).flatMap fun t => [pre, t, post, [' ']]

/-- The text before the pointer `o` that is handed to `strcache_add_len` (function.c 233-235, file.c 365): without the last space, and as a C
string it ends at the NUL. -/
def stemResult (stem text : Str) : Str :=
  if stem = [] then text.takeWhile (· ≠ Char.ofNat 0) else text.dropLast

/-- What the loop does: it reads through an address that is not the one of the buffer any more, or gives a list. -/
inductive StaleRes where
  | undefined
  | done (ps : List PreReq)
deriving DecidableEq, Repr

/-- A prerequisite before those that follow. -/
def StaleRes.cons (d : PreReq) : StaleRes → StaleRes
  | .undefined => .undefined
  | .done ps => .done (d :: ps)

/-- The loop of `enter_prereqs` (file.c 329-371).  `len` is the length of the buffer, `first` is `buffer[0]`, which keeps what the prerequisite
before left there if nothing is put out. -/
def stemLoop (move : Nat → Nat → Nat) (stem : Str) (buffer : Nat) : Nat → Char → List PreReq → StaleRes
  | _, _, [] => .done []
  | len, first, d :: ds =>
    match findPercent d.name with
    | .none _ => (stemLoop move stem buffer len first ds).cons d
    | .found pre _ post =>
      let b := (stemPieces stem pre post).foldl (outPut move) ⟨buffer, len, []⟩
      if b.base ≠ buffer then .undefined
      else
        let first' := b.text.head?.getD first
        if first' = Char.ofNat 0 then stemLoop move stem buffer b.len first' ds
        else (stemLoop move stem buffer b.len first' ds).cons { d with name := stemResult stem b.text }

/-- `enter_prereqs` up to line 372 for a stem: `variable_expand ("")` has put a NUL into the buffer (file.c 325-326, expand.c 405-417). -/
def stemInBuffer (move : Nat → Nat → Nat) (stem : Str) (buffer len : Nat) (ps : List PreReq) : StaleRes :=
  stemLoop move stem buffer len (Char.ofNat 0) ps

end Remake
