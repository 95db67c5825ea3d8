import Verif.Start.Model
import Verif.Misc.Model
/-!
# Archives

Models `ar_scan` (arscan.c 277-652), `ar_name_equal` (659-709), `ar_member_touch` (731-785), and from ar.c
`ar_member_date` (70-132), `ar_touch` (135-176) and `ar_glob` (178-295), for the common archive format (`ARMAG`, `ARFMAG` defined, `AIAMAG` not).

The contents of a file are the list of its bytes.  Reads return all that is there (`readbuf`, C56).  Offsets are unbounded integers: an
offset is at most 10^10 + 60 beyond a place in the file, so `long` does not overflow.  The size of the stack (`alloca`) is not
modelled.  User, group and mode of a member are not modelled: no caller of `ar_scan` uses them.
-/
set_option linter.unusedVariables false
namespace Remake

/-- `atol` (`strtol (s, 0, 10)` in glibc): white space, a sign, digits; saturates. -/
def atol (s : Str) : Int :=
  match s.dropWhile isSpace with
  | '-' :: r => max (-(digitsVal (r.takeWhile isDigitC) : Int)) (-(2 ^ 63))
  | '+' :: r => min (digitsVal (r.takeWhile isDigitC) : Int) (2 ^ 63 - 1)
  | r => min (digitsVal (r.takeWhile isDigitC) : Int) (2 ^ 63 - 1)

/-- The string that starts at a place in memory. -/
def cstr (mem : Str) : Str := mem.takeWhile (· ≠ nulChar)

/-- `lseek` to `off` and `readbuf` of `n` bytes (misc.c 279-298). -/
def readAt (bytes : Str) (off n : Nat) : Str := (bytes.drop off).take n

/-- What the function given to `ar_scan` is told about a member (arscan.c 573-579): its name, whether that may be truncated, the position
of its header, its size and its date. -/
structure ArVisit where
  mem : Str
  truncated : Bool
  pos : Int
  size : Int
  date : Int
deriving DecidableEq, Repr

/-- `ar_name` of a header without the blanks at its end (arscan.c 504-510): the loop stops at the last byte that is no blank. -/
def trimBlanks (raw : Str) : Str := (raw.reverse.dropWhile (· == ' ')).reverse

/-- The removal of a slash at the end (arscan.c 523-525). -/
def chopSlash (t : Str) : Str := if t.getLast? = some '/' then t.dropLast else t

/-- What the reading of a header gives. -/
inductive ArHeader where
  /-- The end of the file. -/
  | eof
  /-- `goto invalid`. -/
  | invalid
  /-- A member; `isMap` is `is_namemap`. -/
  | found (v : ArVisit) (isMap : Bool)
deriving DecidableEq, Repr

/-- The name of a member (arscan.c 527-568), and whether it is a long name: `off` is the position of the header, `name` its name without blanks
and the slash, `map` is the memory `namemap` points to (without the NUL after it).  `none` is `goto invalid`. -/
def arMemberName (bytes : Str) (map : Option Str) (off : Nat) (isMap : Bool) (name : Str) : Option (Str × Bool) :=
  match if !isMap && (name.head? == some ' ' || name.head? == some '/') then map else none with
  | some m =>
    let o := atoiSigned name.tail
    if o < 0 || o ≥ m.length then none
    else
      let n := cstr (m.drop o.toNat)
      if n = [] then none else some (n, true)
  | none =>
    if ['#', '1', '/'] <+: name then
      let len := atoiSigned (name.drop 3)
      if len < 1 then none
      else
        let n := readAt bytes (off + 60) len.toNat
        if (n.length : Int) ≠ len then none else some (cstr n, true)
    else some (name, false)

/-- A header (arscan.c 408-410, 480-571).  The fields for the date and the size have no NUL: `atol` reads on in the header. -/
def arHeader (bytes : Str) (map : Option Str) (off : Int) : ArHeader :=
  if off < 0 then .invalid
  else
    let h := readAt bytes off.toNat 60
    if h = [] then .eof
    else if h.length ≠ 60 || h.drop 58 ≠ ['`', '\n'] then .invalid
    else
      let t := trimBlanks (h.take 16)
      let isMap := cstr t == ['/', '/'] || cstr t == "ARFILENAMES/".toList
      match arMemberName bytes map off.toNat isMap (cstr (chopSlash t)) with
      | none => .invalid
      | some (n, long) => .found ⟨n, !long, off, atol (h.drop 48), atol (h.drop 16)⟩ isMap

/-- The loop over the name map (arscan.c 624-633), apart from a newline at its start. -/
def clearMap : Str → Str
  | [] => []
  | '/' :: '\n' :: r => nulChar :: nulChar :: clearMap r
  | c :: r => (if c = '\n' then nulChar else c) :: clearMap r

/-- What comes after a member. -/
inductive ArNext where
  | invalid
  | undefined
  /-- The next header and the name map. -/
  | go (off : Int) (map : Option Str)
deriving DecidableEq, Repr

/-- The rest of the loop (arscan.c 605-641).  A negative size makes `readbuf` write without limit; a newline at the start of
the map is looked at together with the byte before the map (630). -/
def arNext (bytes : Str) (map : Option Str) (v : ArVisit) (isMap : Bool) : ArNext :=
  let next : Int := if (v.pos + 60 + v.size) % 2 ≠ 0 then v.pos + 60 + v.size + 1 else v.pos + 60 + v.size
  if isMap then
    if v.size > 2 ^ 31 - 1 then .invalid
    else if v.size < 0 then .undefined
    else
      let m := readAt bytes (v.pos + 60).toNat v.size.toNat
      if (m.length : Int) ≠ v.size then .invalid
      else if m.head? = some '\n' then .undefined
      else .go next (some (clearMap m))
  else .go next map

/-- What `ar_scan` returns, if it returns. -/
inductive ArResult where
  | code (n : Int)
  | undefined
deriving DecidableEq, Repr

/-- The loop over the members (arscan.c 382-643): `f` is the function, with its effect on the state `σ` and the value it returns.
`none`: the loop has not ended after so many members. -/
def arLoop {σ : Type} (bytes : Str) (f : σ → ArVisit → σ × Int) : Nat → Option Str → Int → σ → Option (σ × ArResult)
  | 0, _, _, _ => none
  | fuel + 1, map, off, s =>
    match arHeader bytes map off with
    | .eof => some (s, .code 0)
    | .invalid => some (s, .code (-2))
    | .found v isMap =>
      if (f s v).2 ≠ 0 then some ((f s v).1, .code (f s v).2)
      else
        match arNext bytes map v isMap with
        | .invalid => some ((f s v).1, .code (-2))
        | .undefined => some ((f s v).1, .undefined)
        | .go off' map' => arLoop bytes f fuel map' off' (f s v).1

/-- The string at the start of an archive (`ARMAG`). -/
def arMagic : Str := "!<arch>\n".toList

/-- `ar_scan` (arscan.c 277-652); the file does not exist (or cannot be opened) if there are no contents. -/
def arScan {σ : Type} (file : Option Str) (f : σ → ArVisit → σ × Int) (fuel : Nat) (s : σ) : Option (σ × ArResult) :=
  match file with
  | none => some (s, .code (-1))
  | some bytes => if bytes.take 8 ≠ arMagic then some (s, .code (-2)) else arLoop bytes f fuel none 8 s

/-- What follows the last slash of a name (`strrchr`). -/
def afterSlash (name : Str) : Str := (name.reverse.takeWhile (· ≠ '/')).reverse

/-- `ar_name_equal` (arscan.c 659-709). -/
def arNameEqual (name mem : Str) (truncated : Bool) : Bool :=
  if truncated then (afterSlash name).take 15 == mem.take 15 else afterSlash name == mem

/-- `ar_member_date_1` (ar.c 78-92): the state is the date found. -/
def arDateFunc (name : Str) (s : Option Int) (v : ArVisit) : Option Int × Int :=
  if arNameEqual name v.mem v.truncated then (some v.date, 1) else (s, 0)

/-- The result of a function that scans an archive. -/
inductive ArOutcome (α : Type) where
  /-- The scan has not ended after so many members. -/
  | running
  | undefined
  | val (a : α)
deriving DecidableEq, Repr

/-- `ar_member_date` (ar.c 96-132) for member `memname` of an archive with these contents: the date, if the member exists. -/
def arMemberDate (fuel : Nat) (file : Option Str) (memname : Str) : ArOutcome (Option Int) :=
  match arScan file (arDateFunc memname) fuel none with
  | none => .running
  | some (_, .undefined) => .undefined
  | some (d, .code n) => .val (if n = 1 then d else none)

/-- `ar_member_pos` (arscan.c 713-722). -/
def arPosFunc (name : Str) (s : Unit) (v : ArVisit) : Unit × Int :=
  ((), if arNameEqual name v.mem v.truncated then v.pos else 0)

/-- The header of a member with the date `mtime` (arscan.c 763-766); `none`: the digits and the NUL of `sprintf` do not fit into the field
of 12 bytes. -/
def stampHeader (h : Str) (mtime : Int) : Option Str :=
  let ds := Nat.toDigits 10 (mtime % 2 ^ 64).toNat
  if ds.length ≥ 12 then none else some (h.take 16 ++ ds ++ List.replicate (12 - ds.length) ' ' ++ h.drop 28)

/-- `ar_member_touch` (arscan.c 731-785): the value returned and the contents of the archive.  `writable`: the archive can be opened for writing; `mtime` is the time of its
last change.  Other failures of system calls are not modelled. -/
def arMemberTouch (fuel : Nat) (file : Option Str) (writable : Bool) (mtime : Int) (memname : Str) :
    ArOutcome (Int × Option Str) :=
  match arScan file (arPosFunc memname) fuel () with
  | none => .running
  | some (_, .undefined) => .undefined
  | some (_, .code pos) =>
    if pos < 0 then .val (pos, file)
    else if pos = 0 then .val (1, file)
    else if !writable then .val (-3, file)
    else
      let bytes := file.getD []
      let h := readAt bytes pos.toNat 60
      if h.length ≠ 60 then .val (-3, file)
      else
        match stampHeader h mtime with
        | none => .undefined
        | some h' => .val (0, some (bytes.take pos.toNat ++ h' ++ bytes.drop (pos.toNat + 60)))

/-- `ar_touch` (ar.c 135-176), in `touch_file` (remake.c 1204-1205): whether it was successful. -/
def arTouch (fuel : Nat) (file : Option Str) (writable : Bool) (mtime : Int) (memname : Str) : ArOutcome (Bool × Option Str) :=
  match arMemberTouch fuel file writable mtime memname with
  | .running => .running
  | .undefined => .undefined
  | .val (n, b) => .val (n == 0, b)

/-- `ar_glob_pattern_p` (ar.c 223-252) with `quote` nonzero: `opened` is set after a bracket.  A backslash as the last
character makes the loop step over the NUL; there is another NUL after that one, since `ar_parse_name` stored the first in place of
the parenthesis (ar.c 65). -/
def arGlobPattern (opened : Bool) : Str → Bool
  | [] => false
  | '?' :: _ => true
  | '*' :: _ => true
  | ['\\'] => false
  | '\\' :: _ :: r => arGlobPattern opened r
  | '[' :: r => arGlobPattern true r
  | ']' :: r => if opened then true else arGlobPattern opened r
  | _ :: r => arGlobPattern opened r

/-- `ar_glob_match` (ar.c 194-219): `fnmatch` is the match with the pattern; the chain is built from its end. -/
def arGlobFunc (fnmatch : Str → Bool) (arname : Str) (chain : List Str) (v : ArVisit) : List Str × Int :=
  (if fnmatch v.mem then (arname ++ '(' :: v.mem ++ [')']) :: chain else chain, 0)

/-- `ar_glob` (ar.c 257-295): a result with `names`.  The sorting leaves open which of the sorted orders results. -/
def ArGlobs (fuel : Nat) (file : Option Str) (fnmatch : Str → Bool) (arname pattern : Str) (names : List Str) : Prop :=
  if arGlobPattern false pattern then
    ∃ chain r, arScan file (arGlobFunc fnmatch arname) fuel [] = some (chain, r) ∧ r ≠ .undefined ∧ QsortResult chain names
  else names = []

end Remake
