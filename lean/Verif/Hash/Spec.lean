import Verif.Hash.Model
/-!
# What a hash table should be: a finite map

Independent of the table: a key-indexed store of items, as a function from keys to the
item stored under an equal key.
-/
namespace Remake.Spec

/-- The map after storing `x` under its own key. -/
def mapPut {α : Type} (eq : α → α → Bool) (m : α → Option α) (x : α) : α → Option α :=
  fun k => if eq k x then some x else m k

/-- The map after removing the key `k`. -/
def mapDel {α : Type} (eq : α → α → Bool) (m : α → Option α) (k : α) : α → Option α :=
  fun k' => if eq k' k then none else m k'

/-- What one call does to the map, and what it returns. -/
def mapOp {α : Type} (eq : α → α → Bool) (m : α → Option α) :
    HOp α → (α → Option α) × Option α
  | .find k => (m, m k)
  | .insert x => (mapPut eq m x, m x)
  | .addNew x => (if (m x).isSome then m else mapPut eq m x, m x)
  | .delete k => (mapDel eq m k, m k)
  | .deleteItems => (fun _ => none, none)

/-- What a sequence of calls does. -/
def mapRun {α : Type} (eq : α → α → Bool) :
    List (HOp α) → (α → Option α) → (α → Option α) × List (Option α)
  | [], m => (m, [])
  | o :: os, m =>
    let (m', r) := mapOp eq m o
    let (m'', rs) := mapRun eq os m'
    (m'', r :: rs)

/-- What the callers' functions satisfy: the comparison is an equivalence and equal keys
hash equally. -/
structure GoodFns {α : Type} (F : HashFns α) : Prop where
  refl : ∀ x, F.eq x x = true
  symm : ∀ x y, F.eq x y = true → F.eq y x = true
  trans : ∀ x y z, F.eq x y = true → F.eq y z = true → F.eq x z = true
  hash1 : ∀ x y, F.eq x y = true → F.hash1 x = F.hash1 y
  hash2 : ∀ x y, F.eq x y = true → F.hash2 x = F.hash2 y

end Remake.Spec
