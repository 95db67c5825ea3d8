/-!
# The open-addressing hash table

Models `src/hash.c` lines 29-330 (everything except the statistics printer) and
the macro `HASH_VACANT` of `src/hash.h`.

Simplifications.  The vector `ht_vec` of `ht_size` pointers is a function from
indices to slots, only the indices below `size` being part of the vector (the
indices produced are shown to be in range).  A stored pointer is the item it
points to.  The comparison `key == *slot` of pointers (hash.c 107) is subsumed by
the comparison function, which is reflexive in every caller.  The counters
`ht_collisions`, `ht_lookups` and `ht_rehashes` are only used for statistics and
are left out.  Allocation does not fail.  `unsigned int` is 32 bits and
`unsigned long` 64 bits wide.
-/
namespace Remake

/-- A slot of `ht_vec`: `0`, `hash_deleted_item`, or an item (hash.c 36, hash.h 79-80). -/
inductive Slot (α : Type) where
  | empty
  | deleted
  | item (x : α)
deriving DecidableEq, Repr

/-- The item in a slot; `HASH_VACANT` (hash.h 80) is `slot.item? = none`. -/
def Slot.item? {α : Type} : Slot α → Option α
  | .item x => some x
  | _ => none

/-- The user-supplied functions `ht_hash_1`, `ht_hash_2`, `ht_compare` (hash.h 36-37, 44-46).
The hash functions return `unsigned long`; `hash_find_slot` stores the values in `unsigned
int` variables (hash.c 89-90, 114), which truncates them to 32 bits.  `eq k x` is `ht_compare (k, x) == 0`. -/
structure HashFns (α : Type) where
  hash1 : α → Nat
  hash2 : α → Nat
  eq : α → α → Bool

/-- `struct hash_table` (hash.h 41-54) without statistics. -/
structure HTable (α : Type) where
  vec : Nat → Slot α
  size : Nat
  capacity : Nat
  fill : Nat
  emptySlots : Nat

/-- `round_up_2` (hash.c 315-330), on 64-bit `unsigned long`. -/
def roundUp2 (n : Nat) : Nat :=
  let n := n ||| (n >>> 1)
  let n := n ||| (n >>> 2)
  let n := n ||| (n >>> 4)
  let n := n ||| (n >>> 8)
  let n := n ||| (n >>> 16)
  let n := n ||| (n >>> 32)
  (n + 1) % 2 ^ 64

/-- `hash_init` (hash.c 41-63). -/
def hashInit {α : Type} (size : Nat) : HTable α :=
  let sz := roundUp2 size
  { vec := fun _ => .empty, size := sz, capacity := sz - sz / 16, fill := 0,
    emptySlots := sz }

/-- The loop of `hash_find_slot` (hash.c 93-116), run for at most `fuel` turns; `none`
if it has not returned by then.  `h1` and `h2` are the local variables `hash_1` and
`hash_2`, `del` is `deleted_slot`.  `hash_2` is `0` until first needed. -/
def findLoop {α : Type} (F : HashFns α) (t : HTable α) (k : α) :
    (fuel : Nat) → (h1 h2 : Nat) → (del : Option Nat) → Option Nat
  | 0, _, _, _ => none
  | fuel + 1, h1, h2, del =>
    let i := h1 &&& (t.size - 1)
    match t.vec i with
    | .empty => some (del.getD i)
    | .deleted =>
      let h2 := if h2 = 0 then (F.hash2 k ||| 1) % 2 ^ 32 else h2
      findLoop F t k fuel ((i + h2) % 2 ^ 32) h2 (some (del.getD i))
    | .item x =>
      if F.eq k x then some i
      else
        let h2 := if h2 = 0 then (F.hash2 k ||| 1) % 2 ^ 32 else h2
        findLoop F t k fuel ((i + h2) % 2 ^ 32) h2 del

/-- `hash_find_slot` (hash.c 84-117).  The C loop has no bound; `none` stands for "not
returned after `size` turns", which `C01_diverges` shows to mean that it never
returns. -/
def findSlot {α : Type} (F : HashFns α) (t : HTable α) (k : α) : Option Nat :=
  findLoop F t k t.size (F.hash1 k % 2 ^ 32) 0 none

/-- `hash_find_item` (hash.c 119-124).  Outer `none`: does not return. -/
def findItem {α : Type} (F : HashFns α) (t : HTable α) (k : α) : Option (Option α) :=
  (findSlot F t k).map fun i => (t.vec i).item?

/-- The store `*slot = v`. -/
def HTable.put {α : Type} (t : HTable α) (i : Nat) (v : Slot α) : HTable α :=
  { t with vec := fun j => if j = i then v else t.vec j }

/-- The items of a table in slot order: the loops of `hash_map` (hash.c 222-233),
`hash_map_arg` (235-246) and `hash_dump` (303-305) visit exactly these. -/
def HTable.items {α : Type} (t : HTable α) : List α :=
  (List.range t.size).filterMap fun i => (t.vec i).item?

/-- The re-insertion loop of `hash_rehash` (hash.c 265-272). -/
def reinsert {α : Type} (F : HashFns α) : List α → HTable α → Option (HTable α)
  | [], t => some t
  | x :: xs, t =>
    match findSlot F t x with
    | none => none
    | some i => reinsert F xs (t.put i (.item x))

/-- `hash_rehash` (hash.c 250-275). -/
def rehash {α : Type} (F : HashFns α) (t : HTable α) : Option (HTable α) :=
  let grow := decide (t.capacity ≤ t.fill)
  let size := if grow then 2 * t.size % 2 ^ 64 else t.size
  let capacity := if grow then size - size >>> 4 else t.capacity
  let t' : HTable α :=
    { vec := fun _ => .empty, size := size, capacity := capacity, fill := t.fill,
      emptySlots := t.emptySlots }
  (reinsert F t.items t').map fun t' => { t' with emptySlots := t'.size - t'.fill }

/-- `hash_insert_at` (hash.c 135-154); the returned slot is that of the second
component.  `none`: does not return. -/
def insertAt {α : Type} (F : HashFns α) (t : HTable α) (x : α) (slot : Nat) :
    Option (HTable α × Nat) :=
  let old := t.vec slot
  let t :=
    match old with
    | .item _ => t
    | .deleted => { t with fill := t.fill + 1 }
    | .empty => { t with fill := t.fill + 1, emptySlots := t.emptySlots - 1 }
  let t := t.put slot (.item x)
  if t.emptySlots < t.size - t.capacity then
    match rehash F t with
    | none => none
    | some t' => (findSlot F t' x).map fun i => (t', i)
  else some (t, slot)

/-- `hash_insert` (hash.c 126-133): new table and old item. -/
def insert {α : Type} (F : HashFns α) (t : HTable α) (x : α) :
    Option (HTable α × Option α) :=
  match findSlot F t x with
  | none => none
  | some i =>
    let old := (t.vec i).item?
    (insertAt F t x i).map fun r => (r.1, old)

/-- `hash_delete_at` (hash.c 163-175). -/
def deleteAt {α : Type} (t : HTable α) (slot : Nat) : HTable α × Option α :=
  match t.vec slot with
  | .item x => ({ t.put slot .deleted with fill := t.fill - 1 }, some x)
  | _ => (t, none)

/-- `hash_delete` (hash.c 156-161). -/
def delete {α : Type} (F : HashFns α) (t : HTable α) (k : α) :
    Option (HTable α × Option α) :=
  (findSlot F t k).map fun i => deleteAt t i

/-- `hash_delete_items` (hash.c 193-205) and, but for freeing the items,
`hash_free_items` (hash.c 177-191). -/
def deleteItems {α : Type} (t : HTable α) : HTable α :=
  { t with vec := fun _ => .empty, fill := 0, emptySlots := t.size }

/-- `hash_load` (hash.c 67-77): insert the elements of an array one after the other. -/
def hashLoad {α : Type} (F : HashFns α) : List α → HTable α → Option (HTable α)
  | [], t => some t
  | x :: xs, t =>
    match insert F t x with
    | none => none
    | some (t', _) => hashLoad F xs t'

/-- `hash_dump` (hash.c 292-311): the vector of items, in slot order if no comparison
function is given.  The C code allocates `ht_fill + 1` pointers for it. -/
def hashDump {α : Type} (t : HTable α) : List α := t.items

/-- The calls of the interface. -/
inductive HOp (α : Type) where
  | find (k : α)
  | insert (x : α)
  /-- `slot = hash_find_slot (k); if (vacant) hash_insert_at (k, slot)`: the idiom of
  most callers (e.g. variable.c 799-802, 1117-1119; strcache.c 193-204). -/
  | addNew (x : α)
  | delete (k : α)
  | deleteItems

/-- One call on a table; the result is the item the call returns (the item found, or
the old item).  `none`: the call does not return. -/
def HOp.run {α : Type} (F : HashFns α) (t : HTable α) : HOp α → Option (HTable α × Option α)
  | .find k => (findItem F t k).map fun r => (t, r)
  | .insert x => Remake.insert F t x
  | .addNew x =>
    match findSlot F t x with
    | none => none
    | some i =>
      match t.vec i with
      | .item y => some (t, some y)
      | _ => (insertAt F t x i).map fun r => (r.1, none)
  | .delete k => Remake.delete F t k
  | .deleteItems => some (Remake.deleteItems t, none)

/-- A sequence of calls; the results in order. -/
def HOp.runAll {α : Type} (F : HashFns α) :
    List (HOp α) → HTable α → Option (HTable α × List (Option α))
  | [], t => some (t, [])
  | o :: os, t =>
    match o.run F t with
    | none => none
    | some (t', r) =>
      match HOp.runAll F os t' with
      | none => none
      | some (t'', rs) => some (t'', r :: rs)

end Remake
