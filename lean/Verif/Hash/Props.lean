import Verif.Hash.Lemmas3
/-!
# C01, C02: the hash table is a finite map

`C01_map_partial` covers every table the program creates with a requested size of at least 8
(all of them except the word table of `$(filter)`); `C01_map_small_partial` covers that one.
`C01_small_diverges` shows that the restriction is needed: a smaller table can be filled
completely and the search for an absent key then never ends.
-/
set_option linter.unusedVariables false
namespace Remake
open Spec

/-- The example keys: numbers compared modulo 10, with a constant hash. -/
def exFns : HashFns Nat := { hash1 := fun x => x % 10 / 5, hash2 := fun _ => 0, eq := fun x y => x % 10 == y % 10 }

theorem exFns_good : GoodFns exFns where
  refl := by simp [exFns]
  symm := by simp [exFns]; intros; simp_all
  trans := by simp [exFns]; intros; simp_all
  hash1 := by simp [exFns]; intros; simp_all
  hash2 := by simp [exFns]

/-- **C01** For every sequence of calls on a table created with a requested size `n ≥ 8`,
every call returns, and the results are those of a finite map. -/
theorem C01_map_partial {α : Type} {F : HashFns α} (hF : GoodFns F) (n : Nat) (h8 : 8 ≤ n)
    (hn : n < 2 ^ 31) (os : List (HOp α)) (hos : os.length ≤ 2 ^ 30) :
    ∃ t, HOp.runAll F os (hashInit n) = some (t, (mapRun F.eq os (fun _ => none)).2) := by
  obtain ⟨h1, h2, h3, h4, h5⟩ := init_inv (F := F) hn
  have h16 : 16 ≤ (hashInit n : HTable α).size := by
    obtain ⟨L, a, b, c, d⟩ := roundUp2_spec (n := n) (by omega)
    have hs : (hashInit n : HTable α).size = 2 ^ L := b
    rw [hs] at h3 ⊢
    have : 4 ≤ L := by
      by_contra hc
      have : 2 ^ L ≤ 2 ^ 3 := Nat.pow_le_pow_right (by omega) (by omega)
      omega
    exact Nat.pow_le_pow_right (n := 2) (by omega) this
  have hadd : addsOf os ≤ os.length := by
    clear hos
    induction os with
    | nil => simp [addsOf]
    | cons o os ih =>
      have : o.adds ≤ 1 := by cases o <;> simp [HOp.adds]
      simp [addsOf] at ih ⊢; omega
  obtain ⟨t, g, _⟩ := runAll_spec hF os (hashInit n) _ h1 h2 ⟨by omega, Or.inl h16⟩
  exact ⟨t, g⟩

example : ∃ (os : List (HOp Nat)), os.length ≤ 2 ^ 30 ∧
    (mapRun exFns.eq os (fun _ => none)).2 = [none, none, some 23, some 13, none, none] :=
  ⟨[.insert 23, .insert 5, .insert 13, .delete 3, .find 33, .addNew 3], by decide, by decide⟩

/-- **C01** (tables of any requested size, such as `$(filter)`'s): the same, if no more
items are added than were requested. -/
theorem C01_map_small_partial {α : Type} {F : HashFns α} (hF : GoodFns F) (n : Nat)
    (hn : n ≤ 2 ^ 30) (os : List (HOp α)) (hos : os.length ≤ n) :
    ∃ t, HOp.runAll F os (hashInit n) = some (t, (mapRun F.eq os (fun _ => none)).2) := by
  obtain ⟨h1, h2, h3, h4, h5⟩ := init_inv (F := F) (n := n) (by omega)
  have hadd : addsOf os ≤ os.length := by
    clear hos
    induction os with
    | nil => simp [addsOf]
    | cons o os ih =>
      have : o.adds ≤ 1 := by cases o <;> simp [HOp.adds]
      simp [addsOf] at ih ⊢; omega
  obtain ⟨t, g, _⟩ := runAll_spec hF os (hashInit n) _ h1 h2 ⟨by omega, Or.inr (by omega)⟩
  exact ⟨t, g⟩

example : ∃ (os : List (HOp Nat)), os.length ≤ 3 ∧
    (mapRun exFns.eq os (fun _ => none)).2 = [none, none, some 5] :=
  ⟨[.insert 4, .insert 5, .find 15], by decide, by decide⟩

/-- **C01** (the meaning of "does not return" in the model): if the search has not ended
after `size` turns, it has not ended after any number of turns. -/
theorem C01_diverges {α : Type} {F : HashFns α} {t : HTable α} {k : α} {n : Nat} (hn : n ≤ 32)
    (hs : t.size = 2 ^ n) (h : findSlot F t k = none) (fuel : Nat) :
    findLoop F t k fuel (F.hash1 k % 2 ^ 32) 0 none = none :=
  findLoop_diverges hn hs h fuel

/-- **C01** (violation for small tables): a table created with requested size 1, into
which two items were inserted, is full, and looking up a third key never ends. -/
theorem C01_small_diverges :
    ∃ t, HOp.runAll exFns [.insert 4, .insert 5] (hashInit 1) = some (t, [none, none]) ∧
      ∀ fuel, findLoop exFns t 6 fuel (exFns.hash1 6 % 2 ^ 32) 0 none = none := by
  refine ⟨_, rfl, fun fuel => C01_diverges (n := 1) (by omega) rfl (by decide) fuel⟩

/-- **C02** After any history, enumerating the table (`hash_map`, `hash_map_arg`,
`hash_dump`) gives every stored item exactly once and nothing else, no two of them have
equal keys, and their number is `ht_fill`, so that the vector of `ht_fill + 1` pointers
`hash_dump` allocates is exactly filled. -/
theorem C02_enumeration_partial {α : Type} {F : HashFns α} (hF : GoodFns F) (n : Nat)
    (hn : n ≤ 2 ^ 30) (os : List (HOp α)) (hos : os.length ≤ 2 ^ 30) (h8 : 8 ≤ n ∨ os.length ≤ n)
    (t : HTable α) (rs : List (Option α)) (h : HOp.runAll F os (hashInit n) = some (t, rs)) :
    (∀ x, x ∈ hashDump t ↔ (mapRun F.eq os (fun _ => none)).1 x = some x) ∧
    (hashDump t).Pairwise (fun x y => F.eq x y = false) ∧
    (hashDump t).Nodup ∧
    (hashDump t).length = t.fill := by
  obtain ⟨h1, h2, h3, h4, h5⟩ := init_inv (F := F) (n := n) (by omega)
  have hadd : addsOf os ≤ os.length := by
    clear hos h h8
    induction os with
    | nil => simp [addsOf]
    | cons o os ih =>
      have : o.adds ≤ 1 := by cases o <;> simp [HOp.adds]
      simp [addsOf] at ih ⊢; omega
  have hroom : Room (hashInit n : HTable α) (addsOf os) := by
    refine ⟨by omega, ?_⟩
    rcases h8 with h8 | h8
    · left
      obtain ⟨L, a, b, c, d⟩ := roundUp2_spec (n := n) (by omega)
      have hs : (hashInit n : HTable α).size = 2 ^ L := b
      rw [hs] at h3 ⊢
      have : 4 ≤ L := by
        by_contra hc
        have : 2 ^ L ≤ 2 ^ 3 := Nat.pow_le_pow_right (by omega) (by omega)
        omega
      exact Nat.pow_le_pow_right (n := 2) (by omega) this
    · right; omega
  obtain ⟨t', g, hI, _, hR⟩ := runAll_spec hF os (hashInit n) _ h1 h2 hroom
  rw [h] at g
  cases g
  have hp := items_pairwise hI.core
  refine ⟨fun x => ?_, hp, hp.imp ?_, hI.fill.symm⟩
  · rw [hR]
    constructor
    · intro hx; exact ⟨hx, hF.refl x⟩
    · exact fun hx => hx.1
  · intro a b hab e; subst e; rw [hF.refl] at hab; cases hab

example : ∃ t rs, HOp.runAll exFns [.insert 23, .insert 5, .insert 13, .insert 7, .delete 5] (hashInit 8)
    = some (t, rs) ∧ hashDump t = [13, 7] :=
  ⟨_, _, rfl, by decide⟩

/-- **C02** (`hash_load`): loading an array of items with pairwise different keys into a
new table and enumerating it gives the same items, in some order. -/
theorem C02_load_partial {α : Type} {F : HashFns α} (hF : GoodFns F) (n : Nat) (h8 : 8 ≤ n)
    (hn : n ≤ 2 ^ 30) (xs : List α) (hxs : xs.length ≤ 2 ^ 30)
    (hd : xs.Pairwise fun x y => F.eq x y = false) :
    ∃ t, hashLoad F xs (hashInit n) = some t ∧ (hashDump t).Perm xs := by
  have hrun : ∀ (xs : List α) (t : HTable α) t' rs,
      HOp.runAll F (xs.map .insert) t = some (t', rs) → hashLoad F xs t = some t' := by
    intro xs
    induction xs with
    | nil => intro t t' rs h; simp [HOp.runAll] at h; simp [hashLoad, h.1]
    | cons x xs ih =>
      intro t t' rs h
      simp only [List.map_cons, HOp.runAll, HOp.run] at h
      simp only [hashLoad]
      cases hi : insert F t x with
      | none => rw [hi] at h; simp at h
      | some p =>
        rw [hi] at h
        simp only at h ⊢
        cases hr : HOp.runAll F (xs.map .insert) p.1 with
        | none => rw [hr] at h; simp at h
        | some p' =>
          rw [hr] at h
          simp only [Option.some.injEq, Prod.mk.injEq] at h
          exact ih _ _ _ (by rw [hr, ← h.1])
  obtain ⟨t, ht⟩ := C01_map_partial hF n h8 (by omega) (xs.map .insert) (by simpa using hxs)
  have hen := C02_enumeration_partial hF n hn (xs.map .insert) (by simpa using hxs) (Or.inl h8) t _ ht
  refine ⟨t, hrun _ _ _ _ ht, ?_⟩
  have hnd : xs.Nodup := hd.imp (by intro a b hab e; subst e; rw [hF.refl] at hab; cases hab)
  rw [List.perm_ext_iff_of_nodup hen.2.2.1 hnd]
  intro x
  rw [hen.1]
  have : ∀ (xs : List α) (m : α → Option α), xs.Pairwise (fun x y => F.eq x y = false) →
      (∀ y, m y = some y → ∀ x ∈ xs, F.eq y x = false) →
      (((mapRun F.eq (xs.map .insert) m).1 x = some x) ↔ x ∈ xs ∨ m x = some x) := by
    intro xs
    induction xs with
    | nil => intro m _ _; simp [mapRun]
    | cons y ys ih =>
      intro m hp hm
      obtain ⟨hy, hys⟩ := List.pairwise_cons.mp hp
      simp only [List.map_cons, mapRun, mapOp]
      rw [ih _ hys]
      · unfold mapPut
        rw [List.mem_cons]
        by_cases e : F.eq x y = true
        · rw [if_pos e]
          constructor
          · rintro (h | h)
            · exact Or.inl (Or.inr h)
            · cases h; exact Or.inl (Or.inl rfl)
          · rintro ((h | h) | h)
            · subst h; exact Or.inr rfl
            · exact Or.inl h
            · have := hm x h y (by simp)
              rw [e] at this; cases this
        · rw [if_neg e]
          constructor
          · rintro (h | h)
            · exact Or.inl (Or.inr h)
            · exact Or.inr h
          · rintro ((h | h) | h)
            · subst h; exact absurd (hF.refl x) e
            · exact Or.inl h
            · exact Or.inr h
      · intro z hz x' hx'
        unfold mapPut at hz
        by_cases e : F.eq z y = true
        · rw [if_pos e] at hz; cases hz; exact hy x' hx'
        · rw [if_neg e] at hz; exact hm z hz x' (by simp [hx'])
  rw [this xs _ hd (by simp)]
  simp

example : [1, 2, 3].Pairwise fun x y => exFns.eq x y = false := by decide

end Remake
