import Verif.Hash.Model
import Verif.Base.Chars
/-!
# The string cache

Models `src/strcache.c` lines 24-260 (everything but the statistics).

Simplifications.  An address is a pair of a block number and an offset in that block;
every allocation gets a new block number.  The part of a buffer that has been written
is kept as a list of bytes including the NULs.  A write beyond the end of a buffer
is the outcome `none`.  The hash table stores addresses and compares the bytes found
there; the model's table items carry these bytes along (`SItem.str`), and
`C03_strings_partial` shows that the memory at the address always holds them.  The counters
`total_buffers`, `total_adds` and `count`, used for statistics only, are left out.
-/
namespace Remake

/-- An address: block number and offset. -/
structure SPtr where
  blk : Nat
  off : Nat
deriving DecidableEq, Repr

/-- `struct strcache` (strcache.c 30-36); `bytes` is the written part of `buffer`. -/
structure SBlock where
  id : Nat
  buflen : Nat
  bytes : Str
  endOff : Nat
  bytesFree : Nat

/-- `BUFSIZE` (strcache.c 41-45) on an LP64 system: 8192 - 2*8 - 14. -/
def scBufsize : Nat := 8162

/-- An item of the hash table `strings`: an address and the string there. -/
structure SItem where
  ptr : SPtr
  str : Str
deriving DecidableEq

/-- The file-level variables of strcache.c (47-52, 143, 178); `next` numbers allocations. -/
structure SCache where
  next : Nat
  cache : List SBlock
  full : List SBlock
  huge : List (Nat × Str)
  totalStrings : Nat
  totalSize : Nat
  strings : HTable SItem

/-- `strcache_init` (strcache.c 256-260). -/
def scInit : SCache :=
  { next := 0, cache := [], full := [], huge := [], totalStrings := 0, totalSize := 0,
    strings := hashInit 8000 }

/-- `new_cache` (strcache.c 59-72): the new block. -/
def newBlock (id buflen : Nat) : SBlock :=
  { id := id, buflen := buflen, bytes := [], endOff := 0, bytesFree := buflen }

/-- `copy_string` (strcache.c 74-87): the block after the copy and the offset of the copy.
`none` is a write past the end of the buffer. -/
def copyString (b : SBlock) (s : Str) : Option (SBlock × Nat) :=
  let len := (s.length + 1) % 2 ^ 16
  if b.buflen < b.endOff + s.length + 1 then none
  else some
    ({ b with
        bytes := b.bytes.take b.endOff ++ s ++ ['\x00'],
        endOff := (b.endOff + len) % 2 ^ 16,
        bytesFree := (b.bytesFree + 2 ^ 16 - len) % 2 ^ 16 }, b.endOff)

/-- The search of `add_string` for the first buffer with enough space (strcache.c
109-113): the buffers before it, it, and the buffers after it. -/
def splitCache (sz : Nat) : List SBlock → Option (List SBlock × SBlock × List SBlock)
  | [] => none
  | b :: bs =>
    if sz < b.bytesFree then some ([], b, bs)
    else (splitCache sz bs).map fun (pre, b', post) => (b :: pre, b', post)

/-- `add_string` (strcache.c 89-135). -/
def addString (st : SCache) (s : Str) : Option (SCache × SPtr) :=
  let sz := (s.length + 1) % 2 ^ 16
  let st := { st with totalStrings := st.totalStrings + 1, totalSize := st.totalSize + sz }
  if scBufsize < sz then
    match copyString (newBlock st.next sz) s with
    | none => none
    | some (b, off) =>
      some ({ st with next := st.next + 1, full := b :: st.full }, ⟨b.id, off⟩)
  else
    let (next, pre, b, post) :=
      match splitCache sz st.cache with
      | some (pre, b, post) => (st.next, pre, b, post)
      | none => (st.next + 1, [], newBlock st.next scBufsize, st.cache)
    match copyString b s with
    | none => none
    | some (b, off) =>
      if 20 < st.totalStrings && b.bytesFree < st.totalSize / st.totalStrings + 1 then
        some ({ st with next := next, cache := pre ++ post, full := b :: st.full }, ⟨b.id, off⟩)
      else
        some ({ st with next := next, cache := pre ++ b :: post }, ⟨b.id, off⟩)

/-- `add_hugestring` (strcache.c 145-156). -/
def addHuge (st : SCache) (s : Str) : SCache × SPtr :=
  ({ st with next := st.next + 1, huge := (st.next, s) :: st.huge }, ⟨st.next, 0⟩)

/-- `str_hash_1`, `str_hash_2`, `str_hash_cmp` (strcache.c 160-176): any function of the
bytes as first hash (`jhash_string`), 0 as second (hash.h 101-103), comparison of the
bytes. -/
def strFns (h : Str → Nat) : HashFns SItem :=
  { hash1 := fun x => h x.str, hash2 := fun _ => 0, eq := fun x y => x.str == y.str }

/-- `add_hash` (strcache.c 181-206) = `strcache_add` (234-238).  `none`: undefined
behaviour or no return. -/
def strcacheAdd (h : Str → Nat) (st : SCache) (s : Str) : Option (SCache × SPtr) :=
  if 65535 - 1 < s.length then some (addHuge st s)
  else
    match findSlot (strFns h) st.strings ⟨⟨0, 0⟩, s⟩ with
    | none => none
    | some i =>
      match st.strings.vec i with
      | .item x => some (st, x.ptr)
      | _ =>
        match addString st s with
        | none => none
        | some (st, p) =>
          match insertAt (strFns h) st.strings ⟨p, s⟩ i with
          | none => none
          | some (t, _) => some ({ st with strings := t }, p)

/-- `strcache_add_len` (strcache.c 240-254): adds the first `len` bytes.  (A copy with a
NUL is made if one is not there already.) -/
def strcacheAddLen (h : Str → Nat) (st : SCache) (s : Str) (len : Nat) : Option (SCache × SPtr) :=
  strcacheAdd h st (s.take len)

/-- `strcache_iscached` (strcache.c 209-229). -/
def strcacheIscached (st : SCache) (p : SPtr) : Bool :=
  st.cache.any (fun b => b.id == p.blk && p.off < b.endOff) ||
  st.full.any (fun b => b.id == p.blk && p.off < b.endOff) ||
  st.huge.any (fun h => h.1 == p.blk && p.off == 0)

/-- The bytes of a block. -/
def SCache.bytesOf (st : SCache) (id : Nat) : Option Str :=
  match (st.cache ++ st.full).find? (fun b => b.id == id) with
  | some b => some b.bytes
  | none => (st.huge.find? (fun h => h.1 == id)).map fun h => h.2 ++ ['\x00']

/-- Reading the C string at an address: the bytes up to the first NUL. -/
def SCache.read (st : SCache) (p : SPtr) : Option Str :=
  (st.bytesOf p.blk).map fun bs => (bs.drop p.off).takeWhile (· != '\x00')

/-- A sequence of additions and the addresses they return. -/
def strcacheAddAll (h : Str → Nat) : List Str → SCache → Option (SCache × List SPtr)
  | [], st => some (st, [])
  | s :: ss, st =>
    match strcacheAdd h st s with
    | none => none
    | some (st, p) =>
      match strcacheAddAll h ss st with
      | none => none
      | some (st, ps) => some (st, p :: ps)

end Remake
