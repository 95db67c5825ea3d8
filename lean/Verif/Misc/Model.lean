import Verif.Base.Chars
/-!
# Time stamps, transfers, archive names, JSON text and command states

Models `src/file.c` 683-723 with `src/filedef.h` 82-92, 156-168 and 216-239, `src/misc.c` 256-298,
`src/ar.c` 32-67, `src/json_format.c` 72-97.
-/
namespace Remake

/-! ## Time stamps -/

/-- A `FILE_TIMESTAMP` has 64 bits (filedef.h 156-160): numbers below this. -/
def stampMod : Nat := 2 ^ 64

/-- `UNKNOWN_MTIME` (filedef.h 218). -/
def unknownMtime : Nat := 0

/-- `NONEXISTENT_MTIME` (filedef.h 221). -/
def nonexistentMtime : Nat := 1

/-- `OLD_MTIME` (filedef.h 225). -/
def oldMtime : Nat := 2

/-- `NEW_MTIME` (filedef.h 239). -/
def newMtime : Nat := stampMod - 1

/-- `ORDINARY_MTIME_MIN` (filedef.h 228). -/
def ordinaryMin : Nat := oldMtime + 1

/-- Subtraction of `uintmax_t`. -/
def stampSub (a b : Nat) : Nat := (a + stampMod - b) % stampMod

/-- `FILE_TIMESTAMP_S` (filedef.h 164-165), with nanoseconds (`FILE_TIMESTAMP_HI_RES`). -/
def stampSec (ts : Nat) : Nat := stampSub ts ordinaryMin / 2 ^ 30

/-- `FILE_TIMESTAMP_NS` (filedef.h 166-167). -/
def stampNs (ts : Nat) : Nat := stampSub ts ordinaryMin % 2 ^ 30

/-- `ORDINARY_MTIME_MAX` (filedef.h 229-231). -/
def ordinaryMax : Nat := (stampSec newMtime * 2 ^ 30 + ordinaryMin + 10 ^ 9 - 1) % stampMod

/-- `file_timestamp_cons` (file.c 703-723): `stamp` is a 64-bit `time_t`, the nanoseconds are
not negative. -/
def timestampCons (stamp : Int) (ns : Nat) : Nat :=
  let offset := ordinaryMin + ns
  let s := (stamp % (stampMod : Int)).toNat
  let product := s * 2 ^ 30 % stampMod
  let ts := (product + offset) % stampMod
  if s ≤ stampSec ordinaryMax ∧ product ≤ ts ∧ ts ≤ ordinaryMax then ts
  else if s ≤ oldMtime then ordinaryMin else ordinaryMax

/-! ## Transfers -/

/-- What one `write` or `read` system call does. -/
inductive SysRes where
  /-- Interrupted: `EINTRLOOP` (makeint.h 752) tries again. -/
  | eintr
  /-- Fails otherwise. -/
  | fail
  /-- Transfers so many bytes. -/
  | bytes (n : Nat)
deriving DecidableEq, Repr

/-- How a transfer ends: by its return value, or not within the calls given. -/
inductive IoEnd where
  | ret (n : Int)
  | running
deriving DecidableEq, Repr

/-- `writebuf` (misc.c 256-274): what the given system calls write, and the end. `len` is the
length asked for, `msg` what is still to be written. -/
def writebufGo (len : Nat) : (msg : Str) → List SysRes → Str × IoEnd
  | [], _ => ([], .ret len)
  | _ :: _, [] => ([], .running)
  | msg, .eintr :: rs => writebufGo len msg rs
  | _, .fail :: _ => ([], .ret (-1))
  | msg, .bytes n :: rs =>
    let r := writebufGo len (msg.drop n) rs
    (msg.take n ++ r.1, r.2)

/-- `writebuf` (misc.c 256-274). -/
def writebuf (msg : Str) (calls : List SysRes) : Str × IoEnd := writebufGo msg.length msg calls

/-- `readbuf` (misc.c 279-298): `src` is what can be read, `len` how much is still wanted,
`got` how much there is already.  The result is what has been put into the buffer. -/
def readbufGo : (len got : Nat) → (src : Str) → List SysRes → Str × IoEnd
  | 0, got, _, _ => ([], .ret got)
  | _ + 1, _, _, [] => ([], .running)
  | len + 1, got, src, .eintr :: rs => readbufGo (len + 1) got src rs
  | _ + 1, _, _, .fail :: _ => ([], .ret (-1))
  | len + 1, got, src, .bytes n :: rs =>
    if n = 0 then ([], .ret got)
    else
      let r := readbufGo (len + 1 - n) (got + n) (src.drop n) rs
      (src.take n ++ r.1, r.2)

/-- `readbuf` (misc.c 279-298). -/
def readbuf (len : Nat) (src : Str) (calls : List SysRes) : Str × IoEnd := readbufGo len 0 src calls

/-! ## Archive members -/

/-- The result of `ar_name`: 0, 1 or a fatal error. -/
inductive ArName where
  | no | yes | unsupported
deriving DecidableEq, Repr

/-- `ar_name` (ar.c 32-50). -/
def arName (name : Str) : ArName :=
  match name.dropWhile (· ≠ '(') with
  | [] => .no
  | p :: r =>
    if p :: r = name then .no
    else
      -- `end` points to the last character of `p`; `end == p + 1` means one character follows
      if (p :: r).getLast? ≠ some ')' ∨ r.length = 1 then .no
      else if r.head? = some '(' ∧ r.dropLast.getLast? = some ')' then .unsupported
      else .yes

/-- `ar_parse_name` (ar.c 56-67), for names with a parenthesis. -/
def arParseName (name : Str) : Str × Str :=
  (name.takeWhile (· ≠ '('), ((name.dropWhile (· ≠ '(')).drop 1).dropLast)

/-! ## JSON -/

/-- `escape_print` (json_format.c 72-97): what is printed. -/
def escapePrint : Str → Str
  | [] => []
  | c :: cs =>
    if c = '\x08' ∨ c = '\t' ∨ c = '\n' ∨ c = '\r' then ' ' :: escapePrint cs
    else if c = '"' ∨ c = '\\' then '\\' :: c :: escapePrint cs
    else c :: escapePrint cs

/-! ## Command states -/

/-- `enum cmd_state` (filedef.h 87-93). -/
inductive CmdState where
  | notStarted | depsRunning | running | finished
deriving DecidableEq, Repr

/-- The order of the enumeration. -/
def CmdState.rank : CmdState → Nat
  | .notStarted => 0
  | .depsRunning => 1
  | .running => 2
  | .finished => 3

/-- The loop of `set_command_state` over `also_make` (file.c 690-694). -/
def raiseStates (s : CmdState) : List Nat → (Nat → CmdState) → Nat → CmdState
  | [], st => st
  | d :: ds, st =>
    raiseStates s ds fun f => if f = d ∧ (st d).rank < s.rank then s else st f

/-- `set_command_state` (file.c 683-699): files are numbered, `also` is the `also_make` list. -/
def setCommandState (also : Nat → List Nat) (st : Nat → CmdState) (file : Nat) (s : CmdState) :
    Nat → CmdState :=
  raiseStates s (also file) fun f => if f = file then s else st f

end Remake
