import Verif.Archive.Model
import Verif.Misc.Model

/-!
# Times of archive members

Models the part of `f_mtime` for references to archive members (remake.c 1311-1375), with the block of memory that `ar_parse_name` (ar.c 56-66)
allocates for both names.  What `f_mtime` and `check_renamed` do for the archive itself is a parameter, and so are the contents of files and the
conversion of dates to time stamps.  Reading a block after `free` is undefined.  Simplified: the member's `hname` is its name before the call.
-/
namespace Remake

/-- A C string at the start of some memory: up to the NUL. -/
def mbString (s : Str) : Str := s.takeWhile (· ≠ Char.ofNat 0)

/-- The block of `ar_parse_name`: its bytes, the offset of the member's name, and whether it has not been freed. -/
structure MbBlock where
  bytes : Str
  mem : Nat
  live : Bool
deriving DecidableEq, Repr

/-- `ar_parse_name` (ar.c 56-66): the first parenthesis and the last character are overwritten. -/
def mbParse (name : Str) : MbBlock :=
  let i := (name.takeWhile (· ≠ '(')).length
  let s := (name ++ [Char.ofNat 0]).set i (Char.ofNat 0)
  ⟨s.set (i + 1 + (mbString (s.drop (i + 1))).length - 1) (Char.ofNat 0), i + 1, true⟩

/-- Reading a string of the block: `none` if it has been freed. -/
def MbBlock.read (b : MbBlock) (off : Nat) : Option Str := if b.live then some (mbString (b.bytes.drop off)) else none

/-- Writing into memory from `alloca` (remake.c 1342-1347): `none` outside of it.  Bytes not written yet are `none`. -/
def mbPut (buf : List (Option Char)) (i : Nat) (s : Str) : Option (List (Option Char)) :=
  if i + s.length ≤ buf.length then some (buf.take i ++ s.map some ++ buf.drop (i + s.length)) else none

/-- The C string there; `none` if bytes are read that were not written or are outside. -/
def mbGet : List (Option Char) → Option Str
  | [] => none
  | none :: _ => none
  | some c :: r => if c = Char.ofNat 0 then some [] else (mbGet r).map (c :: ·)

/-- The new name of the member (remake.c 1339-1347). -/
def mbRename (hname mem : Str) : Option Str :=
  (mbPut (List.replicate (hname.length + 1 + mem.length + 2) none) 0 hname).bind fun b =>
  (mbPut b hname.length ['(']).bind fun b =>
  (mbPut b (hname.length + 1) mem).bind fun b =>
  (mbPut b (hname.length + 1 + mem.length) [')']).bind fun b =>
  (mbPut b (hname.length + 1 + mem.length + 1) [Char.ofNat 0]).bind mbGet

/-- What is known of the archive after `f_mtime` and `check_renamed` (remake.c 1326-1330): its time (`none`: it does not exist), `name` and
`hname`. -/
structure MbArchive where
  time : Option Nat
  name : Str
  hname : Str
deriving DecidableEq, Repr

/-- The archive of a name, looked at with or without search; contents of files; `file_timestamp_cons`. -/
structure MbWorld where
  archive : Str → Bool → MbArchive
  bytes : Str → Option Str
  stamp : Str → Int → Nat

/-- The time (`none`: it does not exist) and the name of the member, and the warnings about date 0 with the archive and the member they name. -/
inductive MbRes where
  | running
  | undefined
  | done (time : Option Nat) (hname : Str) (warned : List (Str × Str))
deriving DecidableEq, Repr

/-- `f_mtime` for a reference to a member (remake.c 1311-1375); `fuel` bounds the members scanned, see `arScan`. -/
def mbTime (W : MbWorld) (fuel : Nat) (search : Bool) (name : Str) : MbRes :=
  let b := mbParse name
  match b.read 0, b.read b.mem with
  | some arname, some memname =>
    let a := W.archive arname search
    match (if search ∧ a.hname ≠ arname then mbRename a.hname memname else some name) with
    | none => .undefined
    | some hname =>
      let b := { b with live := false }
      if a.time = none then .done none hname []
      else
        match arMemberDate fuel (W.bytes (arParseName hname).1) (arParseName hname).2 with
        | .running => .running
        | .undefined => .undefined
        | .val d =>
          if d = some 0 then
            match b.read b.mem with
            | none => .undefined
            | some m => .done (some (W.stamp hname 0)) hname [(a.name, m)]
          else .done (d.map (W.stamp hname)) hname []
  | _, _ => .undefined

end Remake
