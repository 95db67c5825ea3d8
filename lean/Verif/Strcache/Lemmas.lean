import Verif.Strcache.Model
import Verif.Hash.Lemmas3
/-!
# Lemmas about the string cache
-/
set_option linter.unusedVariables false
set_option linter.unusedSimpArgs false
namespace Remake
open Spec

theorem strFns_good (h : Str → Nat) : GoodFns (strFns h) where
  refl := by simp [strFns]
  symm := by simp [strFns]; intros; simp_all
  trans := by simp [strFns]; intros; simp_all
  hash1 := by simp [strFns]; intros; simp_all
  hash2 := by simp [strFns]

/-- Every well-formed table holds the map that finds the equal item. -/
theorem Inv.rep {α : Type} {F : HashFns α} (hF : GoodFns F) {t : HTable α} (hI : Inv F t) :
    Rep F t (fun k => t.items.find? (fun x => F.eq k x)) := by
  intro k x
  constructor
  · intro h
    exact ⟨List.mem_of_find?_eq_some h, by simpa using List.find?_some h⟩
  · rintro ⟨hx, he⟩
    cases hf : t.items.find? (fun x => F.eq k x) with
    | none =>
      rw [List.find?_eq_none] at hf
      exact absurd he (hf x hx)
    | some y =>
      have hy := List.mem_of_find?_eq_some hf
      have hye : F.eq k y = true := by simpa using List.find?_some hf
      obtain ⟨p, hp, hpv⟩ := mem_items.mp hx
      obtain ⟨q, hq, hqv⟩ := mem_items.mp hy
      have hxy := hF.trans _ _ _ (hF.symm _ _ he) hye
      have e := hI.core.uniq p hp q hq x y hpv hqv hxy
      subst e; rw [hpv] at hqv; cases hqv; exact hf

structure BlockOK (b : SBlock) : Prop where
  e : b.endOff = b.bytes.length
  f : b.endOff + b.bytesFree = b.buflen
  l : b.buflen ≤ 65535

theorem copyString_spec {b : SBlock} (hb : BlockOK b) {s : Str} (hs : s.length + 1 ≤ b.bytesFree) :
    ∃ b', copyString b s = some (b', b.bytes.length) ∧ BlockOK b' ∧ b'.id = b.id ∧
      b'.bytes = b.bytes ++ s ++ ['\x00'] := by
  have h1 := hb.e; have h2 := hb.f; have h3 := hb.l
  unfold copyString
  rw [if_neg (by omega)]
  have e1 : (s.length + 1) % 2 ^ 16 = s.length + 1 := Nat.mod_eq_of_lt (by omega)
  have e2 : b.bytes.take b.endOff = b.bytes := by rw [h1]; exact List.take_length
  refine ⟨{ b with
        bytes := b.bytes ++ s ++ ['\x00'],
        endOff := (b.endOff + (s.length + 1)) % 2 ^ 16,
        bytesFree := (b.bytesFree + 2 ^ 16 - (s.length + 1)) % 2 ^ 16 }, by simp only [e1, e2]; rw [← h1], ?_, rfl, rfl⟩
  refine ⟨?_, ?_, h3⟩
  · simp only [List.length_append, List.length_singleton]
    omega
  · simp only; omega

theorem splitCache_spec {sz : Nat} {l : List SBlock} {pre b post}
    (h : splitCache sz l = some (pre, b, post)) : l = pre ++ b :: post ∧ sz < b.bytesFree := by
  induction l generalizing pre with
  | nil => simp [splitCache] at h
  | cons c cs ih =>
    simp only [splitCache] at h
    split at h
    · rename_i hlt; cases h; exact ⟨rfl, hlt⟩
    · cases hc : splitCache sz cs with
      | none => rw [hc] at h; simp at h
      | some r =>
        obtain ⟨pre', b', post'⟩ := r
        rw [hc] at h; simp at h
        obtain ⟨e1, e2, e3⟩ := h
        subst e1; subst e2; subst e3
        obtain ⟨a, b⟩ := ih hc
        exact ⟨by rw [a]; rfl, b⟩

/-- All blocks. -/
def SCache.blocks (st : SCache) : List SBlock := st.cache ++ st.full

/-- The memory at `p` holds `s` followed by a NUL, in an ordinary buffer. -/
def HoldsB (st : SCache) (p : SPtr) (s : Str) : Prop :=
  ∃ b ∈ st.blocks, b.id = p.blk ∧ ∃ pre post, b.bytes = pre ++ s ++ '\x00' :: post ∧ pre.length = p.off

/-- The memory at `p` holds the huge string `s`. -/
def HoldsH (st : SCache) (p : SPtr) (s : Str) : Prop :=
  p.off = 0 ∧ (p.blk, s) ∈ st.huge

structure SInv (h : Str → Nat) (st : SCache) : Prop where
  ok : ∀ b ∈ st.blocks, BlockOK b ∧ b.id < st.next
  hlt : ∀ x ∈ st.huge, x.1 < st.next
  nodup : (st.blocks.map (·.id) ++ st.huge.map (·.1)).Nodup
  tab : Inv (strFns h) st.strings
  held : ∀ x ∈ st.strings.items, HoldsB st x.ptr x.str

/-- Later states keep what earlier ones held. -/
structure Grows (st st' : SCache) : Prop where
  blocks : ∀ b ∈ st.blocks, ∃ b' ∈ st'.blocks, b'.id = b.id ∧ ∃ t, b'.bytes = b.bytes ++ t
  huge : ∀ x ∈ st.huge, x ∈ st'.huge

theorem Grows.refl (st : SCache) : Grows st st :=
  ⟨fun b hb => ⟨b, hb, rfl, [], by simp⟩, fun x hx => hx⟩

theorem Grows.holdsB {st st' : SCache} (g : Grows st st') {p s} (h : HoldsB st p s) : HoldsB st' p s := by
  obtain ⟨b, hb, hid, pre, post, e1, e2⟩ := h
  obtain ⟨b', hb', hid', t, ht⟩ := g.blocks b hb
  exact ⟨b', hb', by rw [hid', hid], pre, post ++ t, by rw [ht, e1]; simp, e2⟩

theorem Grows.holdsH {st st' : SCache} (g : Grows st st') {p s} (h : HoldsH st p s) : HoldsH st' p s :=
  ⟨h.1, g.huge _ h.2⟩

theorem newBlock_ok {id n : Nat} (hn : n ≤ 65535) : BlockOK (newBlock id n) :=
  ⟨rfl, by simp [newBlock], hn⟩

/-- `add_string` on a state with consistent buffers. -/
theorem addString_spec {st : SCache} {s : Str} (hs : s.length ≤ 65534)
    (ok : ∀ b ∈ st.blocks, BlockOK b ∧ b.id < st.next) (hlt : ∀ x ∈ st.huge, x.1 < st.next)
    (nodup : (st.blocks.map (·.id) ++ st.huge.map (·.1)).Nodup) :
    ∃ st' p, addString st s = some (st', p) ∧ Grows st st' ∧ HoldsB st' p s ∧
      (∀ b ∈ st'.blocks, BlockOK b ∧ b.id < st'.next) ∧ (∀ x ∈ st'.huge, x.1 < st'.next) ∧
      (st'.blocks.map (·.id) ++ st'.huge.map (·.1)).Nodup ∧ st'.strings = st.strings ∧
      st.next ≤ st'.next ∧ st'.huge = st.huge := by
  have e1 : (s.length + 1) % 2 ^ 16 = s.length + 1 := Nat.mod_eq_of_lt (by omega)
  have hfresh : st.next ∉ st.blocks.map (·.id) ++ st.huge.map (·.1) := by
    intro hm
    rw [List.mem_append, List.mem_map, List.mem_map] at hm
    rcases hm with ⟨b, hb, e⟩ | ⟨x, hx, e⟩
    · have := (ok b hb).2; omega
    · have := hlt x hx; omega
  unfold addString
  simp only [e1]
  by_cases hbig : scBufsize < s.length + 1
  · rw [if_pos hbig]
    obtain ⟨b', c1, c2, c3, c4⟩ := copyString_spec (newBlock_ok (id := st.next) (n := s.length + 1) (by omega))
      (s := s) (by simp [newBlock])
    simp only [c1]
    refine ⟨_, _, rfl, ⟨?_, fun x hx => hx⟩, ?_, ?_, ?_, ?_, rfl, by simp, rfl⟩
    · intro b hb
      refine ⟨b, ?_, rfl, [], by simp⟩
      simp only [SCache.blocks, List.mem_append, List.mem_cons] at hb ⊢
      rcases hb with hb | hb
      · exact Or.inl hb
      · exact Or.inr (Or.inr hb)
    · refine ⟨b', by simp [SCache.blocks], rfl, [], [], ?_, rfl⟩
      rw [c4]; simp [newBlock]
    · intro b hb
      simp only [SCache.blocks, List.mem_append, List.mem_cons] at hb
      rcases hb with hb | hb | hb
      · have := ok b (by simp [SCache.blocks, hb]); exact ⟨this.1, by simp only; omega⟩
      · subst hb; exact ⟨c2, by rw [c3]; simp [newBlock]⟩
      · have := ok b (by simp [SCache.blocks, hb]); exact ⟨this.1, by simp only; omega⟩
    · intro x hx; have := hlt x hx; simp only; omega
    · have hp : List.Perm (List.map (·.id) (st.cache ++ b' :: st.full) ++ st.huge.map (·.1))
          (st.next :: (st.blocks.map (·.id) ++ st.huge.map (·.1))) := by
        have e : b'.id = st.next := c3
        simp only [SCache.blocks, List.map_append, List.map_cons, e, List.append_assoc, List.cons_append]
        exact List.perm_middle
      exact hp.nodup_iff.mpr (List.nodup_cons.mpr ⟨hfresh, nodup⟩)
  · rw [if_neg hbig]
    -- common conclusion for a chosen buffer
    have key : ∀ (next : Nat) (pre : List SBlock) (b : SBlock) (post : List SBlock),
        BlockOK b → s.length + 1 ≤ b.bytesFree → st.next ≤ next → b.id < next →
        (∀ c ∈ st.cache, c ∈ pre ++ b :: post) → (∀ c ∈ pre ++ post, c ∈ st.cache) →
        ((pre ++ b :: post ++ st.full).map (·.id) ++ st.huge.map (·.1)).Nodup →
        ∃ st' p, (match copyString b s with
          | none => none
          | some (b, off) =>
            if (decide (20 < st.totalStrings + 1) && decide (b.bytesFree < (st.totalSize + (s.length + 1)) / (st.totalStrings + 1) + 1)) = true then
              some (({ next := next, cache := pre ++ post, full := b :: st.full, huge := st.huge, totalStrings := st.totalStrings + 1, totalSize := st.totalSize + (s.length + 1), strings := st.strings } : SCache), (⟨b.id, off⟩ : SPtr))
            else
              some ({ next := next, cache := pre ++ b :: post, full := st.full, huge := st.huge, totalStrings := st.totalStrings + 1, totalSize := st.totalSize + (s.length + 1), strings := st.strings }, ⟨b.id, off⟩)) = some (st', p) ∧
          Grows st st' ∧ HoldsB st' p s ∧
          (∀ b ∈ st'.blocks, BlockOK b ∧ b.id < st'.next) ∧ (∀ x ∈ st'.huge, x.1 < st'.next) ∧
          (st'.blocks.map (·.id) ++ st'.huge.map (·.1)).Nodup ∧ st'.strings = st.strings ∧
          st.next ≤ st'.next ∧ st'.huge = st.huge := by
      intro next pre b post hb hfree hnx hidlt hin hout hnd
      obtain ⟨b', c1, c2, c3, c4⟩ := copyString_spec hb (s := s) hfree
      rw [c1]
      -- facts about any arrangement of the same blocks
      have main : ∀ st' : SCache, (∀ c, c ∈ st'.blocks ↔ c ∈ pre ∨ c = b' ∨ c ∈ post ∨ c ∈ st.full) →
          st'.huge = st.huge → st'.next = next → st'.strings = st.strings →
          List.Perm (st'.blocks.map (·.id)) ((pre ++ b :: post ++ st.full).map (·.id)) →
          Grows st st' ∧ HoldsB st' ⟨b'.id, b.bytes.length⟩ s ∧
          (∀ b ∈ st'.blocks, BlockOK b ∧ b.id < st'.next) ∧ (∀ x ∈ st'.huge, x.1 < st'.next) ∧
          (st'.blocks.map (·.id) ++ st'.huge.map (·.1)).Nodup ∧ st'.strings = st.strings ∧
          st.next ≤ st'.next ∧ st'.huge = st.huge := by
        intro st' hmem hh hn hst hperm
        refine ⟨⟨?_, fun x hx => by rw [hh]; exact hx⟩, ?_, ?_, ?_, ?_, hst, by rw [hn]; exact hnx, hh⟩
        · intro c hc
          simp only [SCache.blocks, List.mem_append] at hc
          rcases hc with hc | hc
          · have := hin c hc
            simp only [List.mem_append, List.mem_cons] at this
            rcases this with h | h | h
            · exact ⟨c, (hmem c).mpr (Or.inl h), rfl, [], by simp⟩
            · subst h
              exact ⟨b', (hmem b').mpr (Or.inr (Or.inl rfl)), c3, s ++ ['\x00'], by rw [c4]; simp⟩
            · exact ⟨c, (hmem c).mpr (Or.inr (Or.inr (Or.inl h))), rfl, [], by simp⟩
          · exact ⟨c, (hmem c).mpr (Or.inr (Or.inr (Or.inr hc))), rfl, [], by simp⟩
        · exact ⟨b', (hmem b').mpr (Or.inr (Or.inl rfl)), rfl, b.bytes, [], by rw [c4], rfl⟩
        · intro c hc
          rw [hn]
          rcases (hmem c).mp hc with h | h | h | h
          · have := ok c (by simp [SCache.blocks, hout c (by simp [h])]); exact ⟨this.1, by omega⟩
          · subst h; exact ⟨c2, by rw [c3]; exact hidlt⟩
          · have := ok c (by simp [SCache.blocks, hout c (by simp [h])]); exact ⟨this.1, by omega⟩
          · have := ok c (by simp [SCache.blocks, h]); exact ⟨this.1, by omega⟩
        · intro x hx; rw [hh] at hx; have := hlt x hx; omega
        · rw [hh]
          exact (hperm.append_right _).nodup_iff.mpr hnd
      simp only
      split
      · refine ⟨_, _, rfl, main _ ?_ rfl rfl rfl ?_⟩
        · intro c; simp only [SCache.blocks, List.mem_append, List.mem_cons]
          constructor
          · rintro ((a | a) | a | a)
            · exact Or.inl a
            · exact Or.inr (Or.inr (Or.inl a))
            · exact Or.inr (Or.inl a)
            · exact Or.inr (Or.inr (Or.inr a))
          · rintro (a | a | a | a)
            · exact Or.inl (Or.inl a)
            · exact Or.inr (Or.inl a)
            · exact Or.inl (Or.inr a)
            · exact Or.inr (Or.inr a)
        · simp only [SCache.blocks, List.map_append, List.map_cons, c3, List.append_assoc, List.cons_append]
          exact (List.perm_middle.append_left _)
      · refine ⟨_, _, rfl, main _ ?_ rfl rfl rfl ?_⟩
        · intro c; simp only [SCache.blocks, List.mem_append, List.mem_cons]
          constructor
          · rintro ((a | a | a) | a)
            · exact Or.inl a
            · exact Or.inr (Or.inl a)
            · exact Or.inr (Or.inr (Or.inl a))
            · exact Or.inr (Or.inr (Or.inr a))
          · rintro (a | a | a | a)
            · exact Or.inl (Or.inl a)
            · exact Or.inl (Or.inr (Or.inl a))
            · exact Or.inl (Or.inr (Or.inr a))
            · exact Or.inr a
        · simp only [SCache.blocks, List.map_append, List.map_cons, c3, List.append_assoc, List.cons_append]
          exact List.Perm.refl _
    cases hsp : splitCache (s.length + 1) st.cache with
    | some r =>
      obtain ⟨pre, b, post⟩ := r
      obtain ⟨g1, g2⟩ := splitCache_spec hsp
      have hbm : b ∈ st.blocks := by simp [SCache.blocks, g1]
      refine key st.next pre b post (ok b hbm).1 (by omega) (Nat.le_refl _) (ok b hbm).2
        (by rw [g1]; exact fun c hc => hc) ?_ ?_
      · rw [g1]; intro c hc
        simp only [List.mem_append, List.mem_cons] at hc ⊢
        rcases hc with hc | hc
        · exact Or.inl hc
        · exact Or.inr (Or.inr hc)
      · rw [← g1]; exact nodup
    | none =>
      refine key (st.next + 1) [] (newBlock st.next scBufsize) st.cache (newBlock_ok (by decide))
        (by simp only [newBlock]; omega) (by omega) (by simp [newBlock])
        (by intro c hc; simp [hc]) (by intro c hc; simpa using hc) ?_
      simp only [List.nil_append, List.cons_append, List.map_cons]
      exact List.nodup_cons.mpr ⟨by simpa [newBlock, SCache.blocks] using hfresh, nodup⟩

/-- What the history of additions guarantees. -/
structure Hist (st : SCache) (s : Str) (p : SPtr) : Prop where
  lt : p.blk < st.next
  small : s.length ≤ 65534 → (⟨p, s⟩ : SItem) ∈ st.strings.items
  huge : 65534 < s.length → HoldsH st p s

theorem add_spec (h : Str → Nat) {st : SCache} (hI : SInv h st) {r : Nat}
    (hr : Room st.strings (r + 1)) (s : Str) :
    ∃ st' p, strcacheAdd h st s = some (st', p) ∧ SInv h st' ∧ Room st'.strings r ∧ Hist st' s p ∧
      (∀ s' p', Hist st s' p' → Hist st' s' p') ∧ (65534 < s.length → p.blk = st.next) := by
  unfold strcacheAdd
  by_cases hb : 65535 - 1 < s.length
  · rw [if_pos hb]
    refine ⟨_, _, rfl, ?_, room_mono hr (by omega), ⟨by simp [addHuge], by omega, fun _ => ⟨rfl, by simp [addHuge]⟩⟩, ?_, by simp [addHuge]⟩
    · refine ⟨?_, ?_, ?_, hI.tab, ?_⟩
      · intro b hb; have := hI.ok b hb; exact ⟨this.1, by simp only [addHuge]; omega⟩
      · intro x hx
        simp only [addHuge, List.mem_cons] at hx ⊢
        rcases hx with hx | hx
        · subst hx; simp
        · have := hI.hlt x hx; omega
      · have hp : List.Perm (st.blocks.map (·.id) ++ (st.next :: st.huge.map (·.1)))
            (st.next :: (st.blocks.map (·.id) ++ st.huge.map (·.1))) := List.perm_middle
        refine hp.nodup_iff.mpr (List.nodup_cons.mpr ⟨?_, hI.nodup⟩)
        intro hm
        rw [List.mem_append, List.mem_map, List.mem_map] at hm
        rcases hm with ⟨b, hb, e⟩ | ⟨x, hx, e⟩
        · have := (hI.ok b hb).2; omega
        · have := hI.hlt x hx; omega
      · intro x hx; exact hI.held x hx
    · intro s' p' hh
      refine ⟨by have := hh.lt; simp only [addHuge]; omega, hh.small, fun hl => ?_⟩
      obtain ⟨a, b⟩ := hh.huge hl
      exact ⟨a, by simp [addHuge, b]⟩
  · rw [if_neg hb]
    have hF := strFns_good h
    obtain ⟨q, h1, h2, h3, h4⟩ := findItem_spec hF hI.tab hr (hI.tab.rep hF) ⟨⟨0, 0⟩, s⟩
    rw [h1]
    rcases h4 with ⟨x, a, b, c⟩ | ⟨a, b, c, d⟩
    · have hx : x ∈ st.strings.items := mem_items.mpr ⟨q, h2, a⟩
      have hxs : x.str = s := by simpa [strFns] using (hF.symm _ _ b)
      obtain ⟨bb, hbb, hid, _⟩ := hI.held x hx
      refine ⟨st, x.ptr, by simp [a], hI, room_mono hr (by omega), ⟨?_, ?_, by omega⟩, fun _ _ hh => hh, by omega⟩
      · rw [← hid]; exact (hI.ok bb hbb).2
      · intro _; rw [← hxs]; exact hx
    · obtain ⟨st1, p, g1, g2, g3, g4, g5, g6, g7, g8, g9⟩ := addString_spec (s := s) (by omega) hI.ok hI.hlt hI.nodup
      have hvac : ∀ {β : Type} (f : SItem → β) (y : β), (match st.strings.vec q with
          | .item x => f x
          | _ => y) = y := by
        intro β f y; rcases a with a | a <;> rw [a]
      have hins := insertAt_spec hF hI.tab (r := r) hr h2 (x := ⟨p, s⟩) (Or.inr ⟨a, c, d⟩)
      obtain ⟨t', q', i1, i2, i3, _, i5⟩ := hins
      refine ⟨{ st1 with strings := t' }, p, ?_, ?_, i3, ?_, ?_, by omega⟩
      · have e2 : insertAt (strFns h) st1.strings ⟨p, s⟩ q = some (t', q') := by rw [g7]; exact i1
        rcases a with a | a <;> simp [a, g1, e2]
      · refine ⟨g4, g5, g6, i2, ?_⟩
        intro x hx
        rw [i5] at hx
        rcases hx with hx | ⟨hx, _⟩
        · subst hx; exact g3
        · exact g2.holdsB (hI.held x hx)
      · obtain ⟨bb, hbb, hid, _⟩ := g3
        refine ⟨?_, fun _ => (i5 _).mpr (Or.inl rfl), by omega⟩
        rw [← hid]; exact (g4 bb hbb).2
      · intro s' p' hh
        refine ⟨Nat.lt_of_lt_of_le hh.lt g8, fun hl => ?_, fun hl => g2.holdsH (hh.huge hl)⟩
        have hm := hh.small hl
        refine (i5 _).mpr (Or.inr ⟨hm, ?_⟩)
        have := c _ hm
        by_contra hc
        have hc : (strFns h).eq ⟨p', s'⟩ ⟨p, s⟩ = true := by simpa using hc
        have e : s' = s := by simpa [strFns] using hc
        simp [strFns, e] at this

theorem addAll_spec (h : Str → Nat) : ∀ (ss : List Str) (st : SCache), SInv h st →
    Room st.strings ss.length → ∃ st' ps, strcacheAddAll h ss st = some (st', ps) ∧ SInv h st' ∧
      ps.length = ss.length ∧ (∀ s p, Hist st s p → Hist st' s p) ∧
      (∀ x ∈ ss.zip ps, Hist st' x.1 x.2) ∧ (∀ x ∈ ss.zip ps, 65534 < x.1.length → st.next ≤ x.2.blk) ∧
      (ss.zip ps).Pairwise (fun x y => 65534 < y.1.length → x.2 ≠ y.2) := by
  intro ss
  induction ss with
  | nil => intro st hI hr; exact ⟨st, [], rfl, hI, rfl, fun _ _ hh => hh, by simp, by simp, by simp⟩
  | cons s ss ih =>
    intro st hI hr
    obtain ⟨st1, p, a1, a2, a3, a4, a5, a6⟩ := add_spec h hI (r := ss.length) hr s
    obtain ⟨st2, ps, b1, b2, b3, b4, b5, b6, b7⟩ := ih st1 a2 a3
    have hmono : st.next ≤ st1.next := by
      by_contra hc
      have : ∀ s' p', Hist st s' p' → Hist st1 s' p' := a5
      have hl := a4.lt
      -- the counter never decreases
      unfold strcacheAdd at a1
      split at a1
      · cases a1; simp [addHuge] at hc
      · split at a1
        · cases a1
        · split at a1
          · cases a1; omega
          · rename_i hv hx
            obtain ⟨st', p', g1, _, _, _, _, _, _, g8, _⟩ := addString_spec (s := s) (by omega) hI.ok hI.hlt hI.nodup
            rw [g1] at a1
            simp only at a1
            split at a1
            · cases a1
            · cases a1; exact hc g8
    refine ⟨st2, p :: ps, by simp [strcacheAddAll, a1, b1], b2, by simp [b3],
      fun s' p' hh => b4 _ _ (a5 _ _ hh), ?_, ?_, ?_⟩
    · intro x hx
      simp only [List.zip_cons_cons, List.mem_cons] at hx
      rcases hx with hx | hx
      · subst hx; exact b4 _ _ a4
      · exact b5 x hx
    · intro x hx hl
      simp only [List.zip_cons_cons, List.mem_cons] at hx
      rcases hx with hx | hx
      · subst hx; rw [a6 hl]
      · exact Nat.le_trans hmono (b6 x hx hl)
    · rw [List.zip_cons_cons, List.pairwise_cons]
      refine ⟨fun y hy hl e => ?_, b7⟩
      have h1 := b6 y hy hl
      have h2 := a4.lt
      simp only at e
      rw [← e] at h1; omega

theorem takeWhile_nul {s t : Str} (hs : '\x00' ∉ s) :
    (s ++ '\x00' :: t).takeWhile (· != '\x00') = s := by
  induction s with
  | nil => simp
  | cons c cs ih =>
    simp only [List.mem_cons, not_or] at hs
    have : (c != '\x00') = true := by simp; exact fun e => hs.1 e.symm
    simp [this, ih hs.2]

theorem find?_of_nodup {β : Type} (f : β → Nat) {l : List β} (hn : (l.map f).Nodup) {b : β} (hb : b ∈ l) :
    l.find? (fun c => f c == f b) = some b := by
  induction l with
  | nil => simp at hb
  | cons c cs ih =>
    rw [List.map_cons, List.nodup_cons] at hn
    rw [List.find?_cons]
    rcases List.mem_cons.mp hb with e | e
    · subst e; simp
    · have : f c ≠ f b := fun he => hn.1 (he ▸ List.mem_map_of_mem e)
      have h2 : (f c == f b) = false := by simpa using this
      rw [h2]; exact ih hn.2 e

theorem Hist.read {h : Str → Nat} {st : SCache} (hI : SInv h st) {s : Str} {p : SPtr}
    (hh : Hist st s p) (hs : '\x00' ∉ s) : st.read p = some s := by
  have hn := List.nodup_append.mp hI.nodup
  by_cases hl : s.length ≤ 65534
  · obtain ⟨b, hb, hid, pre, post, e1, e2⟩ := hI.held _ (hh.small hl)
    have hf := find?_of_nodup (·.id) hn.1 hb
    simp only at hid e2 e1
    unfold SCache.read SCache.bytesOf
    unfold SCache.blocks at hf
    rw [← hid, hf]
    simp only [Option.map_some]
    rw [e1, ← e2, List.append_assoc, List.drop_left, takeWhile_nul hs]
  · obtain ⟨h0, hm⟩ := hh.huge (by omega)
    unfold SCache.read SCache.bytesOf
    have hnone : (st.cache ++ st.full).find? (fun b => b.id == p.blk) = none := by
      rw [List.find?_eq_none]
      intro b hb he
      have he : b.id = p.blk := by simpa using he
      exact hn.2.2 b.id (List.mem_map_of_mem (f := (·.id)) hb) p.blk (List.mem_map_of_mem (f := (·.1)) hm) he
    rw [hnone]
    have hf := find?_of_nodup (·.1) hn.2.1 hm
    simp only at hf
    rw [hf]
    simp only [Option.map_some, h0, List.drop_zero]
    rw [takeWhile_nul hs]

theorem Hist.iscached {h : Str → Nat} {st : SCache} (hI : SInv h st) {s : Str} {p : SPtr}
    (hh : Hist st s p) : strcacheIscached st p = true := by
  unfold strcacheIscached
  by_cases hl : s.length ≤ 65534
  · obtain ⟨b, hb, hid, pre, post, e1, e2⟩ := hI.held _ (hh.small hl)
    simp only at hid e2 e1
    have he := (hI.ok b hb).1.e
    have hlt : p.off < b.endOff := by rw [he, e1, ← e2]; simp; omega
    simp only [SCache.blocks, List.mem_append] at hb
    simp only [Bool.or_eq_true, List.any_eq_true]
    rcases hb with hb | hb
    · exact Or.inl (Or.inl ⟨b, hb, by simp [hid, hlt]⟩)
    · exact Or.inl (Or.inr ⟨b, hb, by simp [hid, hlt]⟩)
  · obtain ⟨h0, hm⟩ := hh.huge (by omega)
    simp only [Bool.or_eq_true, List.any_eq_true]
    exact Or.inr ⟨_, hm, by simp [h0]⟩

theorem scInit_inv (h : Str → Nat) : SInv h scInit ∧ ∀ n, n ≤ 2 ^ 30 → Room scInit.strings n := by
  obtain ⟨h1, h2, h3, h4, h5⟩ := init_inv (α := SItem) (F := strFns h) (n := 8000) (by omega)
  refine ⟨⟨by simp [scInit, SCache.blocks], by simp [scInit], by simp [scInit, SCache.blocks], h1, ?_⟩, ?_⟩
  · intro x hx
    have : scInit.strings.items = [] := items_fresh _ (fun _ => rfl)
    rw [this] at hx; simp at hx
  · intro n hn
    refine ⟨?_, Or.inl ?_⟩
    · show (hashInit 8000 : HTable SItem).fill + n ≤ _
      rw [h5]; omega
    · show 16 ≤ (hashInit 8000 : HTable SItem).size
      omega

end Remake
