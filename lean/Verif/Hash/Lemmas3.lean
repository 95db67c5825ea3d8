import Verif.Hash.Lemmas2
/-!
# Lemmas about the hash table: operations, and `round_up_2`
-/
set_option linter.unusedVariables false
set_option linter.unusedSimpArgs false
namespace Remake
open Spec

variable {α : Type}

/-- The table holds the map `m`. -/
def Rep (F : HashFns α) (t : HTable α) (m : α → Option α) : Prop :=
  ∀ k x, m k = some x ↔ x ∈ t.items ∧ F.eq k x = true

theorem Rep.none {F : HashFns α} {t : HTable α} {m : α → Option α} (h : Rep F t m) {k : α}
    (hn : ∀ x ∈ t.items, F.eq k x = false) : m k = none := by
  cases hm : m k with
  | none => rfl
  | some x =>
    obtain ⟨h1, h2⟩ := (h k x).mp hm
    rw [hn x h1] at h2; cases h2

theorem Rep.put {F : HashFns α} (hF : GoodFns F) {t t' : HTable α} {m : α → Option α}
    (h : Rep F t m) {x : α}
    (hi : ∀ z, z ∈ t'.items ↔ z = x ∨ (z ∈ t.items ∧ F.eq z x = false)) :
    Rep F t' (mapPut F.eq m x) := by
  intro k z
  unfold mapPut
  rw [hi]
  by_cases e : F.eq k x = true
  · rw [if_pos e]
    constructor
    · intro hz; cases hz; exact ⟨Or.inl rfl, e⟩
    · rintro ⟨rfl | ⟨_, hne⟩, he⟩
      · rfl
      · rw [hF.trans _ _ _ (hF.symm _ _ he) e] at hne; cases hne
  · rw [if_neg e, h]
    constructor
    · rintro ⟨h1, h2⟩
      refine ⟨Or.inr ⟨h1, ?_⟩, h2⟩
      by_contra hh
      have hh : F.eq z x = true := by simpa using hh
      exact e (hF.trans _ _ _ h2 hh)
    · rintro ⟨rfl | ⟨h1, _⟩, h2⟩
      · exact absurd h2 e
      · exact ⟨h1, h2⟩

theorem Rep.del {F : HashFns α} (hF : GoodFns F) {t t' : HTable α} {m : α → Option α}
    (h : Rep F t m) {k : α} (hi : ∀ z, z ∈ t'.items ↔ (z ∈ t.items ∧ F.eq z k = false)) :
    Rep F t' (mapDel F.eq m k) := by
  intro k' z
  unfold mapDel
  rw [hi]
  by_cases e : F.eq k' k = true
  · rw [if_pos e]
    constructor
    · intro hz; cases hz
    · rintro ⟨⟨_, hne⟩, he⟩
      rw [hF.trans _ _ _ (hF.symm _ _ he) e] at hne; cases hne
  · rw [if_neg e, h]
    constructor
    · rintro ⟨h1, h2⟩
      refine ⟨⟨h1, ?_⟩, h2⟩
      by_contra hh
      have hh : F.eq z k = true := by simpa using hh
      exact e (hF.trans _ _ _ h2 hh)
    · rintro ⟨⟨h1, _⟩, h2⟩
      exact ⟨h1, h2⟩

/-- There is room for `r` more insertions. -/
def Room (t : HTable α) (r : Nat) : Prop :=
  t.fill + r ≤ 2 ^ 30 ∧ (16 ≤ t.size ∨ r < t.emptySlots)

theorem Inv.empty_slot {F : HashFns α} {t : HTable α} (h : Inv F t) {r : Nat} (hr : Room t r) :
    ∃ e < t.size, t.vec e = .empty := by
  apply cntE_exists
  have h1 := h.empt
  have h2 := h.slack
  obtain ⟨_, h3 | h3⟩ := hr
  · have := h2 h3; omega
  · omega

theorem insertAt_spec {F : HashFns α} (hF : GoodFns F) {t : HTable α} (hI : Inv F t) {r : Nat}
    (hr : Room t (r + 1)) {x : α} {q : Nat} (hq : q < t.size)
    (h3 : (∃ y, t.vec q = .item y ∧ F.eq x y = true) ∨
       ((t.vec q = .empty ∨ t.vec q = .deleted) ∧ (∀ y ∈ t.items, F.eq x y = false) ∧
        ∃ i, q = pos F t.size x i ∧ ∀ j < i, t.vec (pos F t.size x j) ≠ .empty)) :
    ∃ t' q', insertAt F t x q = some (t', q') ∧ Inv F t' ∧ Room t' r ∧
      (q' < t'.size ∧ ∃ y, t'.vec q' = .item y ∧ F.eq x y = true) ∧
      ∀ z, z ∈ t'.items ↔ z = x ∨ (z ∈ t.items ∧ F.eq z x = false) := by
  obtain ⟨hC', hit⟩ := core_put hF hI.core hq h3
  have hl := put_items_length (t := t) (q := q) (v := .item x) hq
  have he := put_cntE (t := t) (q := q) (v := .item x) hq
  -- the table after the counters are updated
  have key : ∀ t1 : HTable α, t1.vec = (t.put q (.item x)).vec → t1.size = t.size →
      t1.capacity = t.capacity → t1.fill = t1.items.length → t1.emptySlots = t1.cntE →
      t1.fill ≤ t.fill + 1 → t.emptySlots ≤ t1.emptySlots + 1 →
      ∃ t' q', (if t1.emptySlots < t1.size - t1.capacity then
          match rehash F t1 with
          | none => none
          | some t' => (findSlot F t' x).map fun i => (t', i)
        else some (t1, q)) = some (t', q') ∧ Inv F t' ∧ Room t' r ∧
        (q' < t'.size ∧ ∃ y, t'.vec q' = .item y ∧ F.eq x y = true) ∧
        ∀ z, z ∈ t'.items ↔ z = x ∨ (z ∈ t.items ∧ F.eq z x = false) := by
    intro t1 hv hs hc hf hem hfl hel
    have hitems : t1.items = (t.put q (.item x)).items := by
      unfold HTable.items; rw [hv, hs]; rfl
    have hC1 : Core F t1 := by
      refine ⟨by rw [hs]; exact hC'.pow, ?_, ?_⟩
      · rw [hs, hv]; exact hC'.chain
      · rw [hs, hv]; exact hC'.uniq
    have hcap := hI.cap
    have hsm := hI.small
    obtain ⟨hr1, hr2⟩ := hr
    split
    · rename_i hlt
      have h16 : 16 ≤ t1.size := by rw [hs, hc] at hlt; rw [hs]; omega
      obtain ⟨t', e1, e2, e3, e4⟩ := rehash_spec hF hC1 (by rw [hc, hs]; exact hcap) hf
        (by rw [hs]; exact hsm) h16 (by omega)
      rw [e1]
      have hroom : Room t' r := by
        refine ⟨?_, Or.inl e3⟩
        have hlen : t'.items.length = t1.items.length := by
          have p1 := items_pairwise e2.core
          have p2 := items_pairwise hC1
          have n1 : t'.items.Nodup := p1.imp (by
            intro a b hab e; subst e; rw [hF.refl] at hab; cases hab)
          have n2 : t1.items.Nodup := p2.imp (by
            intro a b hab e; subst e; rw [hF.refl] at hab; cases hab)
          exact ((List.perm_ext_iff_of_nodup n1 n2).mpr e4).length_eq
        rw [e2.fill, hlen, ← hf]; omega
      obtain ⟨e, he1, he2⟩ := e2.empty_slot hroom
      obtain ⟨q', g1, g2, g3⟩ := findSlot_core hF e2.core he1 he2 x
      have hx : x ∈ t'.items := by
        rw [e4, hitems, hit]; exact Or.inl rfl
      refine ⟨t', q', by simp [g1], e2, hroom, ⟨g2, ?_⟩, ?_⟩
      · rcases g3 with g | ⟨_, g, _⟩
        · exact g
        · have := g x hx
          rw [hF.refl] at this; cases this
      · intro z; rw [e4, hitems]; exact hit z
    · rename_i hlt
      refine ⟨t1, q, rfl, ?_, ?_, ⟨by rw [hs]; exact hq, x, by rw [hv, put_vec, if_pos rfl], hF.refl x⟩, ?_⟩
      · refine ⟨hC1, by rw [hc, hs]; exact hcap, hf, hem, by rw [hs]; exact hsm, ?_⟩
        intro h16
        rw [hs, hc] at hlt; rw [hs]; omega
      · refine ⟨by omega, ?_⟩
        rcases hr2 with h | h
        · exact Or.inl (by rw [hs]; exact h)
        · exact Or.inr (by omega)
      · intro z; rw [hitems]; exact hit z
  unfold insertAt
  have hfill := hI.fill
  have hempt := hI.empt
  have sl : ∀ t1 : HTable α, t1.vec = (t.put q (.item x)).vec → t1.size = t.size →
      t1.items.length = (t.put q (.item x)).items.length ∧ t1.cntE = (t.put q (.item x)).cntE := by
    intro t1 hv hs
    constructor
    · unfold HTable.items; rw [hv, hs]; rfl
    · unfold HTable.cntE; rw [hv, hs]; rfl
  cases hvq : t.vec q with
  | item y =>
    rw [hvq] at hl he
    simp [Slot.item?, Slot.isEmpty] at hl he
    refine key (t.put q (.item x)) rfl rfl rfl ?_ ?_ (by simp [HTable.put]) (by simp [HTable.put])
    · show t.fill = _
      rw [hfill, hl]
    · show t.emptySlots = _
      rw [hempt, he]
  | deleted =>
    rw [hvq] at hl he
    simp [Slot.item?, Slot.isEmpty] at hl he
    have hs1 := sl (({ t with fill := t.fill + 1 } : HTable α).put q (.item x)) rfl rfl
    refine key (({ t with fill := t.fill + 1 } : HTable α).put q (.item x)) rfl rfl rfl ?_ ?_
      (by simp [HTable.put]) (by simp [HTable.put])
    · rw [hs1.1]; show t.fill + 1 = _
      rw [hfill, hl]
    · rw [hs1.2]; show t.emptySlots = _
      rw [hempt, he]
  | empty =>
    rw [hvq] at hl he
    simp [Slot.item?, Slot.isEmpty] at hl he
    have hs1 := sl (({ t with fill := t.fill + 1, emptySlots := t.emptySlots - 1 } : HTable α).put q (.item x)) rfl rfl
    refine key (({ t with fill := t.fill + 1, emptySlots := t.emptySlots - 1 } : HTable α).put q (.item x))
      rfl rfl rfl ?_ ?_ (by simp [HTable.put]) (by simp [HTable.put]; omega)
    · rw [hs1.1]; show t.fill + 1 = _
      rw [hfill, hl]
    · rw [hs1.2]; show t.emptySlots - 1 = _
      omega

/-- Number of items a call may add. -/
def HOp.adds : HOp α → Nat
  | .insert _ => 1
  | .addNew _ => 1
  | _ => 0

theorem room_mono {t : HTable α} {r r' : Nat} (h : Room t r) (hle : r' ≤ r) : Room t r' := by
  obtain ⟨h1, h2⟩ := h
  refine ⟨by omega, ?_⟩
  rcases h2 with h2 | h2
  · exact Or.inl h2
  · exact Or.inr (by omega)

theorem findItem_spec {F : HashFns α} (hF : GoodFns F) {t : HTable α} (hI : Inv F t) {r : Nat}
    (hr : Room t r) {m : α → Option α} (hm : Rep F t m) (k : α) :
    ∃ q, findSlot F t k = some q ∧ q < t.size ∧ (t.vec q).item? = m k ∧
      ((∃ x, t.vec q = .item x ∧ F.eq k x = true ∧ m k = some x) ∨
       ((t.vec q = .empty ∨ t.vec q = .deleted) ∧ m k = none ∧ (∀ x ∈ t.items, F.eq k x = false) ∧
        ∃ i, q = pos F t.size k i ∧ ∀ j < i, t.vec (pos F t.size k j) ≠ .empty)) := by
  obtain ⟨e, he, hev⟩ := hI.empty_slot hr
  obtain ⟨q, h1, h2, h3⟩ := findSlot_core hF hI.core he hev k
  refine ⟨q, h1, h2, ?_⟩
  rcases h3 with ⟨x, hv, hx⟩ | ⟨hv, hno, hc⟩
  · have : m k = some x := (hm k x).mpr ⟨mem_items.mpr ⟨q, h2, hv⟩, hx⟩
    exact ⟨by rw [hv, this]; rfl, Or.inl ⟨x, hv, hx, this⟩⟩
  · have hn := hm.none hno
    refine ⟨?_, Or.inr ⟨hv, hn, hno, hc⟩⟩
    rw [hn]
    rcases hv with hv | hv <;> rw [hv] <;> rfl

theorem op_spec {F : HashFns α} (hF : GoodFns F) {t : HTable α} (hI : Inv F t) {r : Nat}
    {m : α → Option α} (hm : Rep F t m) (o : HOp α) (hr : Room t (r + o.adds)) :
    ∃ t', o.run F t = some (t', (mapOp F.eq m o).2) ∧ Inv F t' ∧ Room t' r ∧
      Rep F t' (mapOp F.eq m o).1 := by
  cases o with
  | find k =>
    obtain ⟨q, h1, h2, h3, h4⟩ := findItem_spec hF hI hr hm k
    exact ⟨t, by simp [HOp.run, findItem, h1, h3, mapOp], hI, hr, hm⟩
  | insert x =>
    obtain ⟨q, h1, h2, h3, h4⟩ := findItem_spec hF hI hr hm x
    obtain ⟨t', q', g1, g2, g3, _, g4⟩ := insertAt_spec hF hI (r := r) hr h2 (x := x) (by
      rcases h4 with ⟨y, a, b, c⟩ | ⟨a, b, c, d⟩
      · exact Or.inl ⟨y, a, b⟩
      · exact Or.inr ⟨a, c, d⟩)
    exact ⟨t', by simp [HOp.run, Remake.insert, h1, h3, mapOp, g1], g2, g3, hm.put hF g4⟩
  | addNew x =>
    obtain ⟨q, h1, h2, h3, h4⟩ := findItem_spec hF hI hr hm x
    rcases h4 with ⟨y, a, b, c⟩ | ⟨a, b, c, d⟩
    · exact ⟨t, by simp [HOp.run, h1, a, mapOp, c], hI, room_mono hr (by omega), by simp [mapOp, c]; exact hm⟩
    · obtain ⟨t', q', g1, g2, g3, _, g4⟩ := insertAt_spec hF hI (r := r) hr h2 (x := x) (Or.inr ⟨a, c, d⟩)
      refine ⟨t', ?_, g2, g3, by simp [mapOp, b]; exact hm.put hF g4⟩
      rcases a with a | a <;> simp [HOp.run, h1, a, mapOp, b, g1]
  | delete k =>
    obtain ⟨q, h1, h2, h3, h4⟩ := findItem_spec hF hI hr hm k
    rcases h4 with ⟨y, a, b, c⟩ | ⟨a, b, c, d⟩
    · obtain ⟨hC', hit⟩ := core_del hF hI.core h2 a b
      have hl := put_items_length (t := t) (q := q) (v := .deleted) h2
      have he := put_cntE (t := t) (q := q) (v := .deleted) h2
      rw [a] at hl he
      simp [Slot.item?, Slot.isEmpty] at hl he
      have hf := hI.fill
      have hem := hI.empt
      refine ⟨{ t.put q .deleted with fill := t.fill - 1 }, ?_, ?_, ?_, ?_⟩
      · simp [HOp.run, Remake.delete, h1, deleteAt, a, mapOp, c]
      · refine ⟨⟨hC'.pow, hC'.chain, hC'.uniq⟩, hI.cap, ?_, ?_, hI.small, hI.slack⟩
        · show t.fill - 1 = (t.put q .deleted).items.length
          omega
        · show t.emptySlots = (t.put q .deleted).cntE
          omega
      · obtain ⟨r1, r2⟩ := hr
        simp only [HOp.adds, Nat.add_zero] at r1 r2
        exact ⟨by show t.fill - 1 + r ≤ _; omega, r2⟩
      · exact hm.del hF hit
    · refine ⟨t, ?_, hI, hr, ?_⟩
      · rcases a with a | a <;> simp [HOp.run, Remake.delete, h1, deleteAt, a, mapOp, b]
      · intro k' z
        show mapDel F.eq m k k' = some z ↔ _
        unfold mapDel
        split
        · rename_i hk
          constructor
          · intro h; cases h
          · rintro ⟨hz, he⟩
            have := c z hz
            rw [hF.trans _ _ _ (hF.symm _ _ hk) he] at this; cases this
        · exact hm k' z
  | deleteItems =>
    refine ⟨deleteItems t, rfl, ?_, ?_, ?_⟩
    · obtain ⟨n, hn, hs⟩ := hI.core.pow
      refine ⟨core_fresh hn _ hs (fun _ => rfl), hI.cap, ?_, ?_, hI.small, ?_⟩
      · rw [items_fresh _ (fun _ => rfl)]; rfl
      · rw [cntE_fresh _ (fun _ => rfl)]; rfl
      · intro _; show t.size / 16 ≤ t.size; omega
    · obtain ⟨r1, r2⟩ := hr
      have := hI.empt
      have := cnt_le (t := t)
      refine ⟨by simp only [deleteItems]; omega, ?_⟩
      simp only [deleteItems]
      rcases r2 with r2 | r2
      · exact Or.inl r2
      · exact Or.inr (by simp only [HOp.adds] at r2; omega)
    · intro k x
      rw [items_fresh (deleteItems t) (fun _ => rfl)]
      simp [mapOp]

/-- Total number of items a history may add. -/
def addsOf (os : List (HOp α)) : Nat := (os.map HOp.adds).sum

theorem runAll_spec {F : HashFns α} (hF : GoodFns F) : ∀ (os : List (HOp α)) (t : HTable α)
    (m : α → Option α), Inv F t → Rep F t m → Room t (addsOf os) →
    ∃ t', HOp.runAll F os t = some (t', (mapRun F.eq os m).2) ∧ Inv F t' ∧ Room t' 0 ∧
      Rep F t' (mapRun F.eq os m).1 := by
  intro os
  induction os with
  | nil => intro t m hI hm hr; exact ⟨t, rfl, hI, hr, hm⟩
  | cons o os ih =>
    intro t m hI hm hr
    have ha : addsOf (o :: os) = addsOf os + o.adds := by simp [addsOf]; omega
    rw [ha] at hr
    obtain ⟨t', h1, h2, h3, h4⟩ := op_spec hF hI hm o hr
    obtain ⟨t'', g1, g2, g3, g4⟩ := ih t' _ h2 h4 h3
    exact ⟨t'', by simp [HOp.runAll, h1, g1, mapRun], g2, g3, g4⟩

/-! ### `round_up_2` -/

/-- `m` is `n` with each bit smeared over the `w - 1` lower positions. -/
def Smeared (n w m : Nat) : Prop := ∀ i, m.testBit i = true ↔ ∃ j, i ≤ j ∧ j < i + w ∧ n.testBit j = true

theorem smear_step {n w m : Nat} (h : Smeared n w m) : Smeared n (2 * w) (m ||| (m >>> w)) := by
  intro i
  rw [Nat.testBit_or, Nat.testBit_shiftRight, Bool.or_eq_true, h, h]
  constructor
  · rintro (⟨j, a, b, c⟩ | ⟨j, a, b, c⟩)
    · exact ⟨j, a, by omega, c⟩
    · exact ⟨j, by omega, by omega, c⟩
  · rintro ⟨j, a, b, c⟩
    by_cases hj : j < i + w
    · exact Or.inl ⟨j, a, hj, c⟩
    · exact Or.inr ⟨j, by omega, by omega, c⟩

theorem smeared_full {n m L : Nat} (h : Smeared n 64 m) (hL : L ≤ 64) (hlt : n < 2 ^ L)
    (hb : L = 0 ∨ 2 ^ (L - 1) ≤ n) : m = 2 ^ L - 1 := by
  apply Nat.eq_of_testBit_eq
  intro i
  rw [Nat.testBit_two_pow_sub_one]
  rw [Bool.eq_iff_iff, h, decide_eq_true_iff]
  constructor
  · rintro ⟨j, a, b, c⟩
    have : j < L := by
      by_contra hj
      have : n < 2 ^ j := Nat.lt_of_lt_of_le hlt (Nat.pow_le_pow_right (by omega) (by omega))
      rw [Nat.testBit_lt_two_pow this] at c; cases c
    omega
  · intro hi
    refine ⟨L - 1, by omega, by omega, ?_⟩
    rcases hb with hb | hb
    · omega
    · have hlt' : n < 2 ^ (L - 1 + 1) := by
        have : L - 1 + 1 = L := by omega
        rw [this]; exact hlt
      rw [Nat.testBit_eq_decide_div_mod_eq, decide_eq_true_iff]
      have h1 : n / 2 ^ (L - 1) = 1 := by
        apply Nat.le_antisymm
        · apply Nat.le_of_lt_succ
          rw [Nat.div_lt_iff_lt_mul (Nat.two_pow_pos _)]
          rw [Nat.pow_succ] at hlt'; omega
        · rw [Nat.one_le_div_iff (Nat.two_pow_pos _)]; exact hb
      rw [h1]

/-- `round_up_2` returns the smallest power of two above its argument. -/
theorem roundUp2_spec {n : Nat} (hn : n < 2 ^ 63) :
    ∃ L ≤ 63, roundUp2 n = 2 ^ L ∧ n < 2 ^ L ∧ (L = 0 ∨ 2 ^ (L - 1) ≤ n) := by
  have h0 : Smeared n 1 n := by
    intro i
    constructor
    · intro h; exact ⟨i, by omega, by omega, h⟩
    · rintro ⟨j, a, b, c⟩
      have : j = i := by omega
      rw [← this]; exact c
  have h6 := smear_step (smear_step (smear_step (smear_step (smear_step (smear_step h0)))))
  have hL : ∃ L ≤ 63, n < 2 ^ L ∧ (L = 0 ∨ 2 ^ (L - 1) ≤ n) := by
    by_cases e : n = 0
    · exact ⟨0, by omega, by simp [e], Or.inl rfl⟩
    · refine ⟨n.log2 + 1, ?_, Nat.lt_log2_self, Or.inr ?_⟩
      · have : n.log2 < 63 := (Nat.log2_lt e).mpr hn
        omega
      · simpa using Nat.log2_self_le e
  obtain ⟨L, hL1, hL2, hL3⟩ := hL
  refine ⟨L, hL1, ?_, hL2, hL3⟩
  have := smeared_full h6 (by omega) hL2 hL3
  unfold roundUp2
  simp only [Nat.reduceMul] at this
  simp only [this]
  have h1 : 1 ≤ 2 ^ L := Nat.one_le_two_pow
  have h2 : 2 ^ L ≤ 2 ^ 63 := Nat.pow_le_pow_right (by omega) hL1
  rw [Nat.sub_add_cancel h1]
  exact Nat.mod_eq_of_lt (by omega)

theorem init_inv {F : HashFns α} {n : Nat} (hn : n < 2 ^ 31) :
    Inv F (hashInit n) ∧ Rep F (hashInit n) (fun _ => none) ∧ n < (hashInit n : HTable α).size ∧
      (hashInit n : HTable α).emptySlots = (hashInit n : HTable α).size ∧
      (hashInit n : HTable α).fill = 0 := by
  obtain ⟨L, h1, h2, h3, h4⟩ := roundUp2_spec (n := n) (by omega)
  have hs : (hashInit n : HTable α).size = 2 ^ L := h2
  have hL : L ≤ 31 := by
    by_contra hc
    have : 2 ^ 31 ≤ 2 ^ (L - 1) := Nat.pow_le_pow_right (by omega) (by omega)
    omega
  have hle : (2:Nat) ^ L ≤ 2 ^ 31 := Nat.pow_le_pow_right (by omega) hL
  refine ⟨⟨core_fresh (n := L) (by omega) _ hs (fun _ => rfl), rfl, ?_, ?_, by rw [hs]; exact hle, ?_⟩, ?_,
    by rw [hs]; exact h3, rfl, rfl⟩
  · rw [items_fresh _ (fun _ => rfl)]; rfl
  · rw [cntE_fresh _ (fun _ => rfl)]; rfl
  · intro _
    show _ ≤ (hashInit n : HTable α).size
    omega
  · intro k x
    rw [items_fresh _ (fun _ => rfl)]
    simp

end Remake
