import Verif.Hash.Lemmas
/-!
# Lemmas about the hash table: the invariant
-/
set_option linter.unusedVariables false
set_option linter.unusedSimpArgs false
namespace Remake
open Spec

variable {α : Type}

/-- Empty slots of a table. -/
def HTable.cntE (t : HTable α) : Nat :=
  (List.range t.size).countP fun i => match t.vec i with | .empty => true | _ => false

theorem mem_items {t : HTable α} {x : α} : x ∈ t.items ↔ ∃ p < t.size, t.vec p = .item x := by
  unfold HTable.items
  rw [List.mem_filterMap]
  constructor
  · rintro ⟨p, hp, h⟩
    refine ⟨p, List.mem_range.mp hp, ?_⟩
    cases hv : t.vec p <;> rw [hv] at h <;> simp [Slot.item?] at h
    rw [h]
  · rintro ⟨p, hp, h⟩
    exact ⟨p, List.mem_range.mpr hp, by rw [h]; rfl⟩

/-- The structural invariant. -/
structure Core (F : HashFns α) (t : HTable α) : Prop where
  pow : ∃ n ≤ 32, t.size = 2 ^ n
  chain : ∀ p < t.size, ∀ x, t.vec p = .item x →
    ∃ i, pos F t.size x i = p ∧ ∀ j < i, t.vec (pos F t.size x j) ≠ .empty
  uniq : ∀ p < t.size, ∀ q < t.size, ∀ x y, t.vec p = .item x → t.vec q = .item y →
    F.eq x y = true → p = q

theorem Core.size_pos {F : HashFns α} {t : HTable α} (h : Core F t) : 0 < t.size := by
  obtain ⟨n, _, hs⟩ := h.pow
  rw [hs]; exact Nat.two_pow_pos n

theorem pos_congr {F : HashFns α} (hF : GoodFns F) {x y : α} (h : F.eq x y = true) (sz i : Nat) :
    pos F sz x i = pos F sz y i := by
  unfold pos hstep
  rw [hF.hash1 x y h, hF.hash2 x y h]

theorem hit_free_none {F : HashFns α} (hF : GoodFns F) {t : HTable α} (hC : Core F t) {k : α}
    {J : Nat} (hJ : t.vec (pos F t.size k J) = .empty)
    (hb : ∀ j < J, ¬ Stops F t k (pos F t.size k j)) :
    ∀ x ∈ t.items, F.eq k x = false := by
  intro x hx
  rw [mem_items] at hx
  obtain ⟨p, hp, hv⟩ := hx
  by_contra hne
  have he : F.eq k x = true := by simpa using hne
  obtain ⟨i, hi, hc⟩ := hC.chain p hp x hv
  have hcg := pos_congr hF he t.size
  by_cases hij : i < J
  · apply hb i hij
    rw [hcg i, hi]
    exact Or.inr ⟨x, hv, he⟩
  · by_cases e : i = J
    · subst e
      rw [hcg, hi, hv] at hJ; cases hJ
    · exact hc J (by omega) (by rw [← hcg]; exact hJ)

/-- Outcome of a search in a well-formed table with an empty slot. -/
theorem findSlot_core {F : HashFns α} (hF : GoodFns F) {t : HTable α} (hC : Core F t)
    {e : Nat} (he : e < t.size) (hev : t.vec e = .empty) (k : α) :
    ∃ q, findSlot F t k = some q ∧ q < t.size ∧
      ((∃ x, t.vec q = .item x ∧ F.eq k x = true) ∨
       ((t.vec q = .empty ∨ t.vec q = .deleted) ∧ (∀ x ∈ t.items, F.eq k x = false) ∧
        ∃ i, q = pos F t.size k i ∧ ∀ j < i, t.vec (pos F t.size k j) ≠ .empty)) := by
  obtain ⟨n, hn, hs⟩ := hC.pow
  obtain ⟨q, h1, h2, h3⟩ := findSlot_hit (F := F) (t := t) (k := k) hn hs he hev
  refine ⟨q, h1, h2, ?_⟩
  cases h3 with
  | «match» x h he => exact Or.inl ⟨x, h, he⟩
  | free J i hJ hi hq hv hb =>
    refine Or.inr ⟨hv, hit_free_none hF hC hJ hb, i, hq, fun j hj h => ?_⟩
    exact hb j (by omega) (Or.inl h)

theorem put_vec {t : HTable α} {q : Nat} {v : Slot α} (p : Nat) :
    (t.put q v).vec p = if p = q then v else t.vec p := rfl

theorem put_size {t : HTable α} {q : Nat} {v : Slot α} : (t.put q v).size = t.size := rfl

/-- Storing `x` in the slot the search for it returned. -/
theorem core_put {F : HashFns α} (hF : GoodFns F) {t : HTable α} (hC : Core F t) {x : α} {q : Nat}
    (hq : q < t.size)
    (h : (∃ y, t.vec q = .item y ∧ F.eq x y = true) ∨
       ((t.vec q = .empty ∨ t.vec q = .deleted) ∧ (∀ y ∈ t.items, F.eq x y = false) ∧
        ∃ i, q = pos F t.size x i ∧ ∀ j < i, t.vec (pos F t.size x j) ≠ .empty)) :
    Core F (t.put q (.item x)) ∧
    ∀ z, z ∈ (t.put q (.item x)).items ↔ z = x ∨ (z ∈ t.items ∧ F.eq z x = false) := by
  have hne : ∀ p, t.vec p ≠ .empty → (t.put q (.item x)).vec p ≠ .empty := by
    intro p hp
    rw [put_vec]; split
    · simp
    · exact hp
  -- an equal item can only be at `q`
  have hat : ∀ p < t.size, ∀ y, t.vec p = .item y → F.eq x y = true → p = q := by
    intro p hp y hv he
    rcases h with ⟨y', hv', he'⟩ | ⟨_, hno, _⟩
    · exact hC.uniq p hp q hq y y' hv hv' (hF.trans _ _ _ (hF.symm _ _ he) he')
    · have := hno y (mem_items.mpr ⟨p, hp, hv⟩)
      rw [this] at he; cases he
  have hchx : ∃ i, pos F t.size x i = q ∧ ∀ j < i, t.vec (pos F t.size x j) ≠ .empty := by
    rcases h with ⟨y, hv, he⟩ | ⟨_, _, i, hi, hc⟩
    · obtain ⟨i, hi, hc⟩ := hC.chain q hq y hv
      have hcg := pos_congr hF he t.size
      exact ⟨i, by rw [hcg]; exact hi, fun j hj => by rw [hcg]; exact hc j hj⟩
    · exact ⟨i, hi.symm, hc⟩
  refine ⟨⟨hC.pow, ?_, ?_⟩, ?_⟩
  · intro p hp z hz
    rw [put_vec] at hz
    by_cases e : p = q
    · rw [if_pos e] at hz
      cases hz
      obtain ⟨i, hi, hc⟩ := hchx
      exact ⟨i, by rw [put_size, e]; exact hi, fun j hj => hne _ (hc j hj)⟩
    · rw [if_neg e] at hz
      obtain ⟨i, hi, hc⟩ := hC.chain p hp z hz
      exact ⟨i, hi, fun j hj => hne _ (hc j hj)⟩
  · intro p hp p' hp' a b ha hb hab
    rw [put_vec] at ha hb
    by_cases e : p = q <;> by_cases e' : p' = q
    · rw [e, e']
    · rw [if_pos e] at ha; cases ha
      rw [if_neg e'] at hb
      rw [e]; exact (hat p' hp' b hb hab).symm
    · rw [if_pos e'] at hb; cases hb
      rw [if_neg e] at ha
      rw [e']; exact hat p hp a ha (hF.symm _ _ hab)
    · rw [if_neg e] at ha; rw [if_neg e'] at hb
      exact hC.uniq p hp p' hp' a b ha hb hab
  · intro z
    rw [mem_items, mem_items]
    constructor
    · rintro ⟨p, hp, hv⟩
      rw [put_vec] at hv
      by_cases e : p = q
      · rw [if_pos e] at hv; cases hv; exact Or.inl rfl
      · rw [if_neg e] at hv
        refine Or.inr ⟨⟨p, hp, hv⟩, ?_⟩
        by_contra hh
        have hh : F.eq z x = true := by simpa using hh
        exact e (hat p hp z hv (hF.symm _ _ hh))
    · rintro (e | ⟨⟨p, hp, hv⟩, hh⟩)
      · subst e
        exact ⟨q, hq, by rw [put_vec, if_pos rfl]⟩
      · refine ⟨p, hp, ?_⟩
        rw [put_vec]
        by_cases e : p = q
        · exfalso
          subst e
          rcases h with ⟨y, hv', he'⟩ | ⟨hv' | hv', _⟩
          · rw [hv] at hv'; cases hv'
            rw [hF.symm _ _ he'] at hh; cases hh
          · rw [hv] at hv'; cases hv'
          · rw [hv] at hv'; cases hv'
        · rw [if_neg e]; exact hv

/-- Marking a slot deleted. -/
theorem core_del {F : HashFns α} (hF : GoodFns F) {t : HTable α} (hC : Core F t) {k x : α} {q : Nat}
    (hq : q < t.size) (hv : t.vec q = .item x) (he : F.eq k x = true) :
    Core F (t.put q .deleted) ∧
    ∀ z, z ∈ (t.put q .deleted).items ↔ (z ∈ t.items ∧ F.eq z k = false) := by
  have hne : ∀ p, t.vec p ≠ .empty → (t.put q .deleted).vec p ≠ .empty := by
    intro p hp
    rw [put_vec]; split
    · simp
    · exact hp
  refine ⟨⟨hC.pow, ?_, ?_⟩, ?_⟩
  · intro p hp z hz
    rw [put_vec] at hz
    by_cases e : p = q
    · rw [if_pos e] at hz; cases hz
    · rw [if_neg e] at hz
      obtain ⟨i, hi, hc⟩ := hC.chain p hp z hz
      exact ⟨i, hi, fun j hj => hne _ (hc j hj)⟩
  · intro p hp p' hp' a b ha hb hab
    rw [put_vec] at ha hb
    by_cases e : p = q
    · rw [if_pos e] at ha; cases ha
    · by_cases e' : p' = q
      · rw [if_pos e'] at hb; cases hb
      · rw [if_neg e] at ha; rw [if_neg e'] at hb
        exact hC.uniq p hp p' hp' a b ha hb hab
  · intro z
    rw [mem_items, mem_items]
    constructor
    · rintro ⟨p, hp, hz⟩
      rw [put_vec] at hz
      by_cases e : p = q
      · rw [if_pos e] at hz; cases hz
      · rw [if_neg e] at hz
        refine ⟨⟨p, hp, hz⟩, ?_⟩
        by_contra hh
        have hh : F.eq z k = true := by simpa using hh
        exact e (hC.uniq p hp q hq z x hz hv (hF.trans _ _ _ hh he))
    · rintro ⟨⟨p, hp, hz⟩, hh⟩
      refine ⟨p, hp, ?_⟩
      rw [put_vec]
      by_cases e : p = q
      · exfalso; subst e
        rw [hv] at hz; cases hz
        rw [hF.symm _ _ he] at hh; cases hh
      · rw [if_neg e]; exact hz

/-! ### Counting -/

theorem countP_update {n q : Nat} (f g : Nat → Bool) (hq : q < n) (h : ∀ i, i ≠ q → f i = g i) :
    (List.range n).countP f + (g q).toNat = (List.range n).countP g + (f q).toNat := by
  induction n with
  | zero => omega
  | succ n ih =>
    rw [List.range_succ, List.countP_append, List.countP_append]
    by_cases e : q = n
    · subst e
      have hc : (List.range q).countP f = (List.range q).countP g := by
        apply List.countP_congr
        intro i hi
        have : i < q := List.mem_range.mp hi
        rw [h i (by omega)]
      rw [hc]
      cases hf : f q <;> cases hg : g q <;> simp [List.countP_cons, hf, hg]
    · have := ih (by omega)
      have e2 : List.countP f [n] = List.countP g [n] := by
        simp [List.countP_cons, h n (Ne.symm e)]
      omega

theorem items_length {t : HTable α} :
    t.items.length = (List.range t.size).countP fun i => (t.vec i).item?.isSome := by
  unfold HTable.items
  rw [List.length_filterMap_eq_countP]

theorem put_items_length {t : HTable α} {q : Nat} {v : Slot α} (hq : q < t.size) :
    (t.put q v).items.length + (t.vec q).item?.isSome.toNat
      = t.items.length + v.item?.isSome.toNat := by
  rw [items_length, items_length, put_size]
  have := countP_update (n := t.size) (q := q) (fun i => ((t.put q v).vec i).item?.isSome)
    (fun i => (t.vec i).item?.isSome) hq (by intro i hi; simp [put_vec, hi])
  simpa [put_vec] using this

/-- A slot is empty. -/
def Slot.isEmpty : Slot α → Bool
  | .empty => true
  | _ => false

theorem cntE_eq {t : HTable α} : t.cntE = (List.range t.size).countP fun i => (t.vec i).isEmpty := rfl

theorem put_cntE {t : HTable α} {q : Nat} {v : Slot α} (hq : q < t.size) :
    (t.put q v).cntE + (t.vec q).isEmpty.toNat = t.cntE + v.isEmpty.toNat := by
  rw [cntE_eq, cntE_eq, put_size]
  have := countP_update (n := t.size) (q := q) (fun i => ((t.put q v).vec i).isEmpty)
    (fun i => (t.vec i).isEmpty) hq (by intro i hi; simp [put_vec, hi])
  simpa [put_vec] using this

theorem cntE_exists {t : HTable α} (h : 0 < t.cntE) : ∃ e < t.size, t.vec e = .empty := by
  rw [cntE_eq, List.countP_pos_iff] at h
  obtain ⟨e, he, hv⟩ := h
  refine ⟨e, List.mem_range.mp he, ?_⟩
  cases hh : t.vec e <;> rw [hh] at hv <;> simp [Slot.isEmpty] at hv

/-- Without deleted slots every slot is empty or holds an item. -/
theorem cnt_total {t : HTable α} (h : ∀ p < t.size, t.vec p ≠ .deleted) :
    t.cntE + t.items.length = t.size := by
  rw [cntE_eq, items_length]
  have e : (List.range t.size).countP (fun i => (t.vec i).item?.isSome)
      = (List.range t.size).countP (fun i => !(t.vec i).isEmpty) := by
    apply List.countP_congr
    intro i hi
    have := h i (List.mem_range.mp hi)
    cases hv : t.vec i <;> simp_all [Slot.isEmpty, Slot.item?]
  rw [e]
  have := List.length_eq_countP_add_countP (fun i => (t.vec i).isEmpty) (l := List.range t.size)
  simp only [List.length_range] at this
  have e3 : (List.range t.size).countP (fun i => !(t.vec i).isEmpty)
      = (List.range t.size).countP (fun i => decide (¬ (t.vec i).isEmpty = true)) := by
    apply List.countP_congr; intro i _
    cases (t.vec i).isEmpty <;> simp
  omega

theorem cnt_le {t : HTable α} : t.cntE + t.items.length ≤ t.size := by
  rw [cntE_eq, items_length]
  have := List.length_eq_countP_add_countP (fun i => (t.vec i).isEmpty) (l := List.range t.size)
  simp only [List.length_range] at this
  have h2 : (List.range t.size).countP (fun i => (t.vec i).item?.isSome)
      ≤ (List.range t.size).countP (fun i => decide (¬ (t.vec i).isEmpty = true)) := by
    apply List.countP_mono_left
    intro i _ h
    cases hv : t.vec i <;> rw [hv] at h <;> simp [Slot.isEmpty, Slot.item?] at h ⊢
  omega

theorem items_pairwise {F : HashFns α} {t : HTable α} (hC : Core F t) :
    t.items.Pairwise fun x y => F.eq x y = false := by
  unfold HTable.items
  rw [List.pairwise_filterMap]
  have hr : (List.range t.size).Pairwise (· < ·) := List.pairwise_lt_range
  refine List.Pairwise.imp_of_mem ?_ hr
  intro a b ha hb hlt x hx y hy
  by_contra hh
  have hh : F.eq x y = true := by simpa using hh
  have e1 : t.vec a = .item x := by
    cases hv : t.vec a <;> rw [hv] at hx <;> simp [Slot.item?] at hx
    rw [hx]
  have e2 : t.vec b = .item y := by
    cases hv : t.vec b <;> rw [hv] at hy <;> simp [Slot.item?] at hy
    rw [hy]
  have := hC.uniq a (List.mem_range.mp ha) b (List.mem_range.mp hb) x y e1 e2 hh
  omega

/-! ### Rehashing -/

theorem reinsert_spec {F : HashFns α} (hF : GoodFns F) : ∀ (xs : List α) (t : HTable α), Core F t →
    (∀ p < t.size, t.vec p ≠ .deleted) → t.items.length + xs.length < t.size →
    xs.Pairwise (fun x y => F.eq x y = false) →
    (∀ x ∈ xs, ∀ y ∈ t.items, F.eq x y = false) →
    ∃ t', reinsert F xs t = some t' ∧ Core F t' ∧ (∀ p < t'.size, t'.vec p ≠ .deleted) ∧
      t'.size = t.size ∧ t'.capacity = t.capacity ∧ t'.fill = t.fill ∧
      t'.items.length = t.items.length + xs.length ∧
      ∀ z, z ∈ t'.items ↔ z ∈ t.items ∨ z ∈ xs := by
  intro xs
  induction xs with
  | nil =>
    intro t hC hD hlen _ _
    exact ⟨t, rfl, hC, hD, rfl, rfl, rfl, by simp, by simp⟩
  | cons x xs ih =>
    intro t hC hD hlen hpw hdis
    have htot := cnt_total hD
    obtain ⟨e, he, hev⟩ := cntE_exists (t := t) (by simp only [List.length_cons] at hlen; omega)
    obtain ⟨q, h1, h2, h3⟩ := findSlot_core hF hC he hev x
    have h3' : t.vec q = .empty := by
      rcases h3 with ⟨y, hv, hy⟩ | ⟨hv | hv, _⟩
      · rw [hdis x (by simp) y (mem_items.mpr ⟨q, h2, hv⟩)] at hy; cases hy
      · exact hv
      · exact absurd hv (hD q h2)
    obtain ⟨hC', hit⟩ := core_put hF hC h2 h3
    have hl := put_items_length (t := t) (q := q) (v := .item x) h2
    rw [h3'] at hl
    simp [Slot.item?] at hl
    obtain ⟨hx, hxs⟩ := List.pairwise_cons.mp hpw
    obtain ⟨t', r1, r2, r3, r4, r5, r6, r7, r8⟩ := ih (t.put q (.item x)) hC'
      (by
        intro p hp; rw [put_vec]; split
        · simp
        · exact hD p hp)
      (by rw [put_size, hl]; simp only [List.length_cons] at hlen; omega) hxs
      (by
        intro a ha b hb
        rw [hit] at hb
        rcases hb with hb | hb
        · subst hb
          by_contra hh
          have hh : F.eq a b = true := by simpa using hh
          have := hx a ha
          rw [hF.symm _ _ hh] at this; cases this
        · exact hdis a (by simp [ha]) b hb.1)
    refine ⟨t', ?_, r2, r3, r4, r5, r6, ?_, ?_⟩
    · rw [reinsert, h1]; exact r1
    · rw [r7, hl, List.length_cons]; omega
    · intro z
      rw [r8, hit, List.mem_cons]
      constructor
      · rintro ((a | a) | a)
        · exact Or.inr (Or.inl a)
        · exact Or.inl a.1
        · exact Or.inr (Or.inr a)
      · rintro (a | a | a)
        · refine Or.inl (Or.inr ⟨a, ?_⟩)
          by_contra hh
          have hh : F.eq z x = true := by simpa using hh
          have := hdis x (by simp) z a
          rw [hF.symm _ _ hh] at this; cases this
        · exact Or.inl (Or.inl a)
        · exact Or.inr a

theorem core_fresh {F : HashFns α} {n : Nat} (hn : n ≤ 32) (t : HTable α) (hs : t.size = 2 ^ n)
    (hv : ∀ p, t.vec p = .empty) : Core F t := by
  refine ⟨⟨n, hn, hs⟩, ?_, ?_⟩
  · intro p _ x h; rw [hv] at h; cases h
  · intro p _ q _ x y h; rw [hv] at h; cases h

theorem items_fresh (t : HTable α) (hv : ∀ p, t.vec p = .empty) : t.items = [] := by
  unfold HTable.items
  rw [List.filterMap_eq_nil_iff]
  intro i _; rw [hv]; rfl

theorem cntE_fresh (t : HTable α) (hv : ∀ p, t.vec p = .empty) : t.cntE = t.size := by
  have := cnt_total (t := t) (by intro p _; rw [hv]; simp)
  rw [items_fresh t hv] at this
  simpa using this

/-- The full invariant; `B` bounds the number of items. -/
structure Inv (F : HashFns α) (t : HTable α) : Prop where
  core : Core F t
  cap : t.capacity = t.size - t.size / 16
  fill : t.fill = t.items.length
  empt : t.emptySlots = t.cntE
  small : t.size ≤ 2 ^ 31
  slack : 16 ≤ t.size → t.size / 16 ≤ t.emptySlots

theorem rehash_spec {F : HashFns α} (hF : GoodFns F) {t : HTable α} (hC : Core F t)
    (cap : t.capacity = t.size - t.size / 16) (hf : t.fill = t.items.length)
    (hsz : t.size ≤ 2 ^ 31) (h16 : 16 ≤ t.size) (hfill : t.fill ≤ 2 ^ 30) :
    ∃ t', rehash F t = some t' ∧ Inv F t' ∧ 16 ≤ t'.size ∧ ∀ z, z ∈ t'.items ↔ z ∈ t.items := by
  obtain ⟨n, hn, hs⟩ := hC.pow
  have hle : t.items.length ≤ t.size := by have := cnt_le (t := t); omega
  have hpw := items_pairwise hC
  have key : ∀ (m sz cp : Nat), m ≤ 32 → sz = 2 ^ m → sz ≤ 2 ^ 31 → 16 ≤ sz → cp = sz - sz / 16 →
      t.fill + sz / 16 ≤ sz →
      ∃ t', (reinsert F t.items { vec := fun _ => .empty, size := sz, capacity := cp, fill := t.fill, emptySlots := t.emptySlots }).map
          (fun t' : HTable α => { t' with emptySlots := t'.size - t'.fill }) = some t' ∧
        Inv F t' ∧ 16 ≤ t'.size ∧ ∀ z, z ∈ t'.items ↔ z ∈ t.items := by
    intro m sz cp hm hsm hsz' h16' hcp hfl
    have hfr := items_fresh ({ vec := fun _ => .empty, size := sz, capacity := cp, fill := t.fill, emptySlots := t.emptySlots } : HTable α) (fun _ => rfl)
    obtain ⟨t', r1, r2, r3, r4, r5, r6, r7, r8⟩ := reinsert_spec hF t.items
      { vec := fun _ => .empty, size := sz, capacity := cp, fill := t.fill, emptySlots := t.emptySlots }
      (core_fresh hm _ hsm (fun _ => rfl)) (by intro p _; simp)
      (by rw [hfr]; simp only [List.length_nil]; omega) hpw (by rw [hfr]; simp)
    have htot := cnt_total r3
    rw [hfr] at r7 r8
    simp only at r4 r5 r6
    refine ⟨{ t' with emptySlots := t'.size - t'.fill }, by rw [r1]; rfl, ?_, by simp only [r4]; exact h16', ?_⟩
    · refine ⟨⟨r2.pow, r2.chain, r2.uniq⟩, ?_, ?_, ?_, ?_, ?_⟩
      · simp only [r4, r5]; exact hcp
      · show t'.fill = t'.items.length
        rw [r6, r7, hf]; simp
      · show t'.size - t'.fill = t'.cntE
        rw [r6, hf]; simp at r7; omega
      · simp only [r4]; exact hsz'
      · intro _
        simp only [r4, r6]; omega
    · intro z
      have := r8 z
      simp only [List.not_mem_nil, false_or] at this
      exact this
  unfold rehash
  by_cases hg : t.capacity ≤ t.fill
  · simp only [hg, decide_true, if_true]
    have h31 : t.size < 2 ^ 31 := by omega
    have hn31 : n < 31 := by
      rw [hs] at h31
      exact (Nat.pow_lt_pow_iff_right (by omega)).mp h31
    have e1 : 2 * t.size % 2 ^ 64 = 2 * t.size := Nat.mod_eq_of_lt (by omega)
    rw [e1]
    have e2 : 2 * t.size = 2 ^ (n + 1) := by rw [hs, Nat.pow_succ]; omega
    have h32 : 2 * t.size ≤ 2 ^ 31 := by
      rw [e2]; exact Nat.pow_le_pow_right (by omega) (by omega)
    exact key (n + 1) (2 * t.size) _ (by omega) e2 h32 (by omega)
      (by simp [Nat.shiftRight_eq_div_pow]) (by omega)
  · simp only [hg, decide_false, Bool.false_eq_true, if_false]
    exact key n t.size _ hn hs hsz h16 cap (by omega)

end Remake
