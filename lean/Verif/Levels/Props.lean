import Verif.Levels.Model
import Verif.Levels.Spec

set_option linter.unusedVariables false
set_option linter.unusedSimpArgs false

/-!
# C144: the kinds of messages asked for
-/

namespace Remake
open Spec

theorem lvs_add {lv : Lvs} {ls : List Lv} {l : Lv} : lv.add ls l = true ↔ lv l = true ∨ l ∈ ls := by
  simp [Lvs.add]

theorem dbGives_iff {c : Char} {l : Lv} : DbGives c l ↔ (c = 'a' ∨ c = 'A') ∨ ((c = 'b' ∨ c = 'B') ∧ l = .basic) ∨
    ((c = 'v' ∨ c = 'V') ∧ (l = .basic ∨ l = .verbose)) ∨ ((c = 'i' ∨ c = 'I') ∧ (l = .basic ∨ l = .implicit)) ∨
    ((c = 'j' ∨ c = 'J') ∧ l = .jobs) ∨ ((c = 'm' ∨ c = 'M') ∧ (l = .basic ∨ l = .makefiles)) := by
  constructor
  · intro h
    cases h with
    | a h _ => exact Or.inl h
    | b h => exact Or.inr (Or.inl ⟨h, rfl⟩)
    | v h _ hl => exact Or.inr (Or.inr (Or.inl ⟨h, hl⟩))
    | i h _ hl => exact Or.inr (Or.inr (Or.inr (Or.inl ⟨h, hl⟩)))
    | j h => exact Or.inr (Or.inr (Or.inr (Or.inr (Or.inl ⟨h, rfl⟩))))
    | m h _ hl => exact Or.inr (Or.inr (Or.inr (Or.inr (Or.inr ⟨h, hl⟩))))
  · rintro (h | ⟨h, rfl⟩ | ⟨h, hl⟩ | ⟨h, hl⟩ | ⟨h, rfl⟩ | ⟨h, hl⟩)
    · exact .a c h l
    · exact .b c h
    · exact .v c h l hl
    · exact .i c h l hl
    · exact .j c h
    · exact .m c h l hl

/-- The treatment of a letter in lower case (main.c 695-721). -/
def dbLower (d : Char) (lv : Lvs) : Option Lvs :=
  if d = 'a' then some (lv.add Lv.all)
  else if d = 'b' then some (lv.add [.basic])
  else if d = 'i' then some (lv.add [.basic, .implicit])
  else if d = 'j' then some (lv.add [.jobs])
  else if d = 'm' then some (lv.add [.basic, .makefiles])
  else if d = 'n' then some Lvs.none
  else if d = 'v' then some (lv.add [.basic, .verbose])
  else none

theorem dbLetter_known {c : Char} (h : c ∈ dbKnown) (lv : Lvs) :
    ∃ lv', dbLetter c lv = some lv' ∧ ∀ l, lv' l = true ↔ (lv l = true ∧ ¬ DbOff c) ∨ DbGives c l := by
  have hl : c = 'a' ∨ c = 'b' ∨ c = 'i' ∨ c = 'j' ∨ c = 'm' ∨ c = 'n' ∨ c = 'v' ∨
      c = 'A' ∨ c = 'B' ∨ c = 'I' ∨ c = 'J' ∨ c = 'M' ∨ c = 'N' ∨ c = 'V' := by
    simpa [dbKnown] using h
  have hall : ∀ l, l ∈ Lv.all := by intro l; cases l <;> decide
  have hd : ∀ c, dbLetter c lv = dbLower (lvLower c) lv := fun c => rfl
  have hA : ∀ c l, (c = 'a' ∨ c = 'A') → (lv.add Lv.all l = true ↔ (lv l = true ∧ ¬ DbOff c) ∨ DbGives c l) := by
    intro c l hc
    have : DbGives c l := .a c hc l
    rw [lvs_add]; simp [hall l, this]
  have hN : ∀ c l, (c = 'n' ∨ c = 'N') → (Lvs.none l = true ↔ (lv l = true ∧ ¬ DbOff c) ∨ DbGives c l) := by
    intro c l hc
    have h1 : DbOff c := hc
    have h2 : ¬ DbGives c l := by
      rw [dbGives_iff]
      rcases hc with rfl | rfl <;> simp
    simp [Lvs.none, h1, h2]
  have hX : ∀ c l ls, ¬ DbOff c → (DbGives c l ↔ l ∈ ls) → (lv.add ls l = true ↔ (lv l = true ∧ ¬ DbOff c) ∨ DbGives c l) := by
    intro c l ls h1 h2
    rw [lvs_add, h2]; simp [h1]
  have hb : ∀ c l, (c = 'b' ∨ c = 'B') → (lv.add [.basic] l = true ↔ (lv l = true ∧ ¬ DbOff c) ∨ DbGives c l) := by
    intro c l hc
    refine hX c l _ ?_ ?_
    · unfold DbOff; rcases hc with rfl | rfl <;> decide
    · rw [dbGives_iff]; rcases hc with rfl | rfl <;> simp
  have hi : ∀ c l, (c = 'i' ∨ c = 'I') → (lv.add [.basic, .implicit] l = true ↔ (lv l = true ∧ ¬ DbOff c) ∨ DbGives c l) := by
    intro c l hc
    refine hX c l _ ?_ ?_
    · unfold DbOff; rcases hc with rfl | rfl <;> decide
    · rw [dbGives_iff]; rcases hc with rfl | rfl <;> simp
  have hj : ∀ c l, (c = 'j' ∨ c = 'J') → (lv.add [.jobs] l = true ↔ (lv l = true ∧ ¬ DbOff c) ∨ DbGives c l) := by
    intro c l hc
    refine hX c l _ ?_ ?_
    · unfold DbOff; rcases hc with rfl | rfl <;> decide
    · rw [dbGives_iff]; rcases hc with rfl | rfl <;> simp
  have hm : ∀ c l, (c = 'm' ∨ c = 'M') → (lv.add [.basic, .makefiles] l = true ↔ (lv l = true ∧ ¬ DbOff c) ∨ DbGives c l) := by
    intro c l hc
    refine hX c l _ ?_ ?_
    · unfold DbOff; rcases hc with rfl | rfl <;> decide
    · rw [dbGives_iff]; rcases hc with rfl | rfl <;> simp
  have hv : ∀ c l, (c = 'v' ∨ c = 'V') → (lv.add [.basic, .verbose] l = true ↔ (lv l = true ∧ ¬ DbOff c) ∨ DbGives c l) := by
    intro c l hc
    refine hX c l _ ?_ ?_
    · unfold DbOff; rcases hc with rfl | rfl <;> decide
    · rw [dbGives_iff]; rcases hc with rfl | rfl <;> simp
  rcases hl with rfl | rfl | rfl | rfl | rfl | rfl | rfl | rfl | rfl | rfl | rfl | rfl | rfl | rfl <;> rw [hd]
  · rw [show lvLower 'a' = 'a' from by decide]; exact ⟨_, rfl, fun l => hA _ l (by decide)⟩
  · rw [show lvLower 'b' = 'b' from by decide]; exact ⟨_, rfl, fun l => hb _ l (by decide)⟩
  · rw [show lvLower 'i' = 'i' from by decide]; exact ⟨_, rfl, fun l => hi _ l (by decide)⟩
  · rw [show lvLower 'j' = 'j' from by decide]; exact ⟨_, rfl, fun l => hj _ l (by decide)⟩
  · rw [show lvLower 'm' = 'm' from by decide]; exact ⟨_, rfl, fun l => hm _ l (by decide)⟩
  · rw [show lvLower 'n' = 'n' from by decide]; exact ⟨_, rfl, fun l => hN _ l (by decide)⟩
  · rw [show lvLower 'v' = 'v' from by decide]; exact ⟨_, rfl, fun l => hv _ l (by decide)⟩
  · rw [show lvLower 'A' = 'a' from by decide]; exact ⟨_, rfl, fun l => hA _ l (by decide)⟩
  · rw [show lvLower 'B' = 'b' from by decide]; exact ⟨_, rfl, fun l => hb _ l (by decide)⟩
  · rw [show lvLower 'I' = 'i' from by decide]; exact ⟨_, rfl, fun l => hi _ l (by decide)⟩
  · rw [show lvLower 'J' = 'j' from by decide]; exact ⟨_, rfl, fun l => hj _ l (by decide)⟩
  · rw [show lvLower 'M' = 'm' from by decide]; exact ⟨_, rfl, fun l => hm _ l (by decide)⟩
  · rw [show lvLower 'N' = 'n' from by decide]; exact ⟨_, rfl, fun l => hN _ l (by decide)⟩
  · rw [show lvLower 'V' = 'v' from by decide]; exact ⟨_, rfl, fun l => hv _ l (by decide)⟩

theorem lvLower_known {c : Char} (h : c ∉ dbKnown) : lvLower c ∉ ['a', 'b', 'i', 'j', 'm', 'n', 'v'] := by
  intro hl
  unfold lvLower at hl
  split at hl
  · case isTrue hc =>
    obtain ⟨h1, h2⟩ := hc
    have h1' : 65 ≤ c.toNat := h1
    have h2' : c.toNat ≤ 90 := h2
    apply h
    have hcases : c.toNat = 65 ∨ c.toNat = 66 ∨ c.toNat = 67 ∨ c.toNat = 68 ∨ c.toNat = 69 ∨ c.toNat = 70 ∨ c.toNat = 71 ∨
      c.toNat = 72 ∨ c.toNat = 73 ∨ c.toNat = 74 ∨ c.toNat = 75 ∨ c.toNat = 76 ∨ c.toNat = 77 ∨ c.toNat = 78 ∨
      c.toNat = 79 ∨ c.toNat = 80 ∨ c.toNat = 81 ∨ c.toNat = 82 ∨ c.toNat = 83 ∨ c.toNat = 84 ∨ c.toNat = 85 ∨
      c.toNat = 86 ∨ c.toNat = 87 ∨ c.toNat = 88 ∨ c.toNat = 89 ∨ c.toNat = 90 := by omega
    have hc' : c = Char.ofNat c.toNat := (Char.ofNat_toNat c).symm
    rcases hcases with h | h | h | h | h | h | h | h | h | h | h | h | h | h | h | h | h | h | h | h | h | h | h | h | h | h <;>
      (rw [h] at hl hc'; rw [hc']; first | decide | (exact absurd hl (by decide)))
  · apply h
    simp only [dbKnown]
    revert hl
    simp
    grind

theorem dbLetter_unknown {c : Char} (h : c ∉ dbKnown) (lv : Lvs) : dbLetter c lv = none := by
  have := lvLower_known h
  have h' : ∀ d, d ∈ ['a', 'b', 'i', 'j', 'm', 'n', 'v'] → lvLower c ≠ d := fun d hd he => this (he ▸ hd)
  unfold dbLetter
  rw [if_neg (h' 'a' (by decide)), if_neg (h' 'b' (by decide)), if_neg (h' 'i' (by decide)), if_neg (h' 'j' (by decide)),
    if_neg (h' 'm' (by decide)), if_neg (h' 'n' (by decide)), if_neg (h' 'v' (by decide))]

theorem drop_item {t : Str} (h : ',' ∉ t ∧ ' ' ∉ t) {s : Char} (hs : s = ',' ∨ s = ' ') (q : Str) :
    (t ++ s :: q).dropWhile (fun d => !lvSep d) = s :: q := by
  have h1 : ∀ d ∈ t, (!lvSep d) = true := by
    intro d hd
    simp only [lvSep, Bool.not_eq_true', Bool.or_eq_false_iff, beq_eq_false_iff_ne]
    exact ⟨fun e => h.1 (e ▸ hd), fun e => h.2 (e ▸ hd)⟩
  rw [List.dropWhile_append_of_pos h1]
  rcases hs with rfl | rfl <;> rfl

theorem drop_last_item {t : Str} (h : ',' ∉ t ∧ ' ' ∉ t) : t.dropWhile (fun d => !lvSep d) = [] := by
  have h1 : ∀ d ∈ t, (!lvSep d) = true := by
    intro d hd
    simp only [lvSep, Bool.not_eq_true', Bool.or_eq_false_iff, beq_eq_false_iff_ne]
    exact ⟨fun e => h.1 (e ▸ hd), fun e => h.2 (e ▸ hd)⟩
  have := List.dropWhile_append_of_pos (l₂ := []) h1
  simpa using this

theorem dbString_last (c : Char) {t : Str} (h : ',' ∉ t ∧ ' ' ∉ t) (lv : Lvs) : dbString (c :: t) lv = dbLetter c lv := by
  rw [dbString.eq_def]
  simp only
  split
  · case h_1 hc => rw [hc]
  · case h_2 lv' hc =>
    rw [hc]
    split
    · rfl
    · case h_2 hd => rw [drop_last_item h] at hd; cases hd

theorem dbString_trail (c : Char) {t : Str} (h : ',' ∉ t ∧ ' ' ∉ t) {s : Char} (hs : s = ',' ∨ s = ' ') (lv : Lvs) :
    dbString (c :: (t ++ [s])) lv = dbLetter c lv := by
  rw [dbString.eq_def]
  simp only
  split
  · case h_1 hc => rw [hc]
  · case h_2 lv' hc =>
    rw [hc]
    split
    · rfl
    · case h_2 hd =>
      rw [drop_item h hs] at hd
      cases hd
      rfl

theorem dbString_cons (c : Char) {t : Str} (h : ',' ∉ t ∧ ' ' ∉ t) {s : Char} (hs : s = ',' ∨ s = ' ') {q : Str} (hq : q ≠ [])
    (lv : Lvs) : dbString (c :: (t ++ s :: q)) lv = (dbLetter c lv).bind (dbString q) := by
  rw [dbString.eq_def]
  simp only
  split
  · case h_1 hc => rw [hc]; rfl
  · case h_2 lv' hc =>
    rw [hc]
    split
    · case h_1 hd => rw [drop_item h hs] at hd; cases hd
    · case h_2 hd =>
      rw [drop_item h hs] at hd
      cases hd
      rw [if_neg hq]
      rfl

theorem dbList_ne {p : Str} {cs : List Char} (h : DbList p cs) : p ≠ [] := by cases h <;> simp

/-- Letters one after the other. -/
def dbLetters : List Char → Lvs → Option Lvs
  | [], lv => some lv
  | c :: cs, lv => (dbLetter c lv).bind (dbLetters cs)

theorem dbString_letters {p : Str} {cs : List Char} (h : DbList p cs) : ∀ lv, dbString p lv = dbLetters cs lv := by
  induction h with
  | last c t h => intro lv; rw [dbString_last c h]; simp only [dbLetters]; cases dbLetter c lv <;> rfl
  | trail c t s h hs => intro lv; rw [dbString_trail c h hs]; simp only [dbLetters]; cases dbLetter c lv <;> rfl
  | cons c t s q cs h hs hq ih =>
    intro lv
    rw [dbString_cons c h hs (dbList_ne hq)]
    simp only [dbLetters]
    cases dbLetter c lv with
    | none => rfl
    | some lv' => exact ih lv'

theorem dbLetters_append (cs ds : List Char) (lv : Lvs) : dbLetters (cs ++ ds) lv = (dbLetters cs lv).bind (dbLetters ds) := by
  induction cs generalizing lv with
  | nil => rfl
  | cons c cs ih =>
    simp only [List.cons_append, dbLetters]
    cases dbLetter c lv with
    | none => rfl
    | some lv' => exact ih lv'

theorem dbStrings_letters {ps : List Str} {cs : List Char} (h : DbLists ps cs) : ∀ lv, dbStrings ps lv = dbLetters cs lv := by
  induction h with
  | nil => intro lv; rfl
  | cons p ps cs ds h hs ih =>
    intro lv
    rw [dbStrings, dbString_letters h, dbLetters_append]
    cases dbLetters cs lv with
    | none => rfl
    | some lv' => exact ih lv'

theorem lvOn_cons {α : Type} (G : α → Lv → Prop) (R : α → Prop) (x : α) (xs : List α) (before : Lv → Prop) (l : Lv) :
    LvOn G R (x :: xs) before l ↔ LvOn G R xs (fun l => (before l ∧ ¬ R x) ∨ G x l) l := by
  unfold LvOn
  constructor
  · rintro (⟨hb, hR⟩ | ⟨pre, y, post, he, hG, hp⟩)
    · exact Or.inl ⟨Or.inl ⟨hb, hR x (by simp)⟩, fun y hy => hR y (by simp [hy])⟩
    · cases pre with
      | nil => cases he; exact Or.inl ⟨Or.inr hG, hp⟩
      | cons z pre => cases he; exact Or.inr ⟨pre, y, post, rfl, hG, hp⟩
  · rintro (⟨⟨hb, hx⟩ | hG, hR⟩ | ⟨pre, y, post, he, hG, hp⟩)
    · refine Or.inl ⟨hb, fun y hy => ?_⟩
      rcases List.mem_cons.1 hy with rfl | hy
      · exact hx
      · exact hR y hy
    · exact Or.inr ⟨[], x, xs, rfl, hG, hR⟩
    · exact Or.inr ⟨x :: pre, y, post, by rw [he]; rfl, hG, hp⟩

theorem lvOn_congr {α : Type} (G : α → Lv → Prop) (R : α → Prop) (xs : List α) {b b' : Lv → Prop} (l : Lv) (h : b l ↔ b' l) :
    LvOn G R xs b l ↔ LvOn G R xs b' l := by
  unfold LvOn
  rw [h]

theorem dbLetters_on {cs : List Char} (h : ∀ c ∈ cs, c ∈ dbKnown) : ∀ lv : Lvs,
    ∃ lv', dbLetters cs lv = some lv' ∧ ∀ l, lv' l = true ↔ LvOn DbGives DbOff cs (fun l => lv l = true) l := by
  induction cs with
  | nil =>
    intro lv
    refine ⟨lv, rfl, fun l => ?_⟩
    simp [LvOn]
  | cons c cs ih =>
    intro lv
    obtain ⟨lv1, h1, h2⟩ := dbLetter_known (h c (by simp)) lv
    obtain ⟨lv', h3, h4⟩ := ih (fun c hc => h c (by simp [hc])) lv1
    refine ⟨lv', ?_, fun l => ?_⟩
    · simp only [dbLetters, h1]; exact h3
    · rw [h4 l, lvOn_cons]
      exact lvOn_congr _ _ _ l (h2 l)

theorem dbLetters_unknown {cs : List Char} (h : ∃ c ∈ cs, c ∉ dbKnown) : ∀ lv : Lvs, dbLetters cs lv = none := by
  induction cs with
  | nil => obtain ⟨c, hc, _⟩ := h; cases hc
  | cons c cs ih =>
    intro lv
    by_cases hk : c ∈ dbKnown
    · obtain ⟨lv1, h1, _⟩ := dbLetter_known hk lv
      simp only [dbLetters, h1]
      refine ih ?_ lv1
      obtain ⟨d, hd, hn⟩ := h
      rcases List.mem_cons.1 hd with rfl | hd
      · exact absurd hk hn
      · exact ⟨d, hd, hn⟩
    · simp only [dbLetters, dbLetter_unknown hk]
      rfl

/-- **C144.**  An argument of `--debug` switches on what the manual says for the first letters of its items; a letter `n`
switches off what was on before it. -/
theorem C144_debug {p : Str} {cs : List Char} (h : DbList p cs) (hk : ∀ c ∈ cs, c ∈ dbKnown) (lv : Lvs) :
    ∃ lv', dbString p lv = some lv' ∧ ∀ l, lv' l = true ↔ LvOn DbGives DbOff cs (fun l => lv l = true) l := by
  rw [dbString_letters h]
  exact dbLetters_on hk lv

example : DbList "basic,jobs".toList ['b', 'j'] :=
  .cons 'b' "asic".toList ',' "jobs".toList ['j'] (by decide) (Or.inl rfl) (.last 'j' "obs".toList (by decide))

/-- **C144.**  Every argument of `--debug` that is not empty has items. -/
theorem C144_items (p : Str) (h : p ≠ []) : ∃ cs, DbList p cs := by
  have key : ∀ n (p : Str), p.length ≤ n → p ≠ [] → ∃ cs, DbList p cs := by
    intro n
    induction n with
    | zero => intro p hn hp; cases p <;> simp_all
    | succ n ih =>
      intro p hn hp
      obtain ⟨c, r, rfl⟩ : ∃ c r, p = c :: r := by
        cases p with
        | nil => exact absurd rfl hp
        | cons c r => exact ⟨c, r, rfl⟩
      have hsplit := (List.takeWhile_append_dropWhile (p := fun d => !lvSep d) (l := r)).symm
      have hno : ',' ∉ r.takeWhile (fun d => !lvSep d) ∧ ' ' ∉ r.takeWhile (fun d => !lvSep d) := by
        constructor <;>
        · intro hm
          have hall := List.all_takeWhile (p := fun d => !lvSep d) (l := r)
          rw [List.all_eq_true] at hall
          exact absurd (hall _ hm) (by decide)
      cases hd : r.dropWhile (fun d => !lvSep d) with
      | nil =>
        rw [hd, List.append_nil] at hsplit
        rw [hsplit]
        exact ⟨[c], .last c _ hno⟩
      | cons s q =>
        have hs : s = ',' ∨ s = ' ' := by
          have := List.head?_dropWhile_not (fun d => !lvSep d) r
          rw [hd] at this
          simp [lvSep] at this
          grind
        rw [hd] at hsplit
        have hlen := congrArg List.length hsplit
        simp only [List.length_append, List.length_cons] at hlen hn
        rw [hsplit]
        by_cases hq : q = []
        · subst hq; exact ⟨[c], .trail c _ s hno hs⟩
        · obtain ⟨cs, hcs⟩ := ih q (by omega) hq
          exact ⟨c :: cs, .cons c _ s q cs hno hs hcs⟩
  exact key p.length p (Nat.le_refl _) h

/-- **C144.**  An argument of `--debug` with an item that the manual does not know stops make, and so does an empty argument. -/
theorem C144_unknown : (∀ {p : Str} {cs : List Char}, DbList p cs → (∃ c ∈ cs, c ∉ dbKnown) → ∀ lv, dbString p lv = none) ∧
    ∀ lv, dbString [] lv = none := by
  refine ⟨fun h hk lv => ?_, fun lv => by rw [dbString.eq_def]⟩
  rw [dbString_letters h]
  exact dbLetters_unknown hk lv

/-- **C144.**  Negation: two separators one after the other, or a blank behind a comma, stop make. -/
theorem C144_two_separators (lv : Lvs) : dbString "b,,v".toList lv = none ∧ dbString "b, v".toList lv = none := by
  have h1 : DbList "b,,v".toList ['b', ',', ] :=
    .cons 'b' [] ',' ",v".toList [','] (by decide) (Or.inl rfl) (.last ',' "v".toList (by decide))
  have h2 : DbList "b, v".toList ['b', ' '] :=
    .cons 'b' [] ',' " v".toList [' '] (by decide) (Or.inl rfl) (.last ' ' "v".toList (by decide))
  exact ⟨C144_unknown.1 h1 ⟨',', by decide, by decide⟩ lv, C144_unknown.1 h2 ⟨' ', by decide, by decide⟩ lv⟩

theorem decodeDebug_on {s : LvSt} {cs : List Char} (h : DbLists s.flags cs) (hk : ∀ c ∈ cs, c ∈ dbKnown) :
    ∃ s', decodeDebug s = some s' ∧ s'.flags = s.flags ∧
      (∀ l, s'.lv l = true ↔ LvOn DbGives DbOff cs (fun l => s.dflag = true ∨ s.lv l = true) l) ∧
      s'.dflag = (s.dflag && Lv.all.any s'.lv) := by
  obtain ⟨lv', h1, h2⟩ := dbLetters_on hk (if s.dflag then fun _ => true else s.lv)
  refine ⟨{ s with lv := lv', dflag := s.dflag && Lv.all.any lv' }, ?_, rfl, fun l => ?_, rfl⟩
  · unfold decodeDebug
    rw [dbStrings_letters h, h1]
    rfl
  · rw [h2 l]
    apply lvOn_congr
    cases s.dflag <;> simp

/-- **C144.**  All options together: `-d` switches on everything, then the arguments of `--debug` apply in order. -/
theorem C144_options {s : LvSt} {d : Bool} {fs : List Str} {cs : List Char} (h : DbLists (s.flags ++ fs) cs)
    (hk : ∀ c ∈ cs, c ∈ dbKnown) :
    ∃ s', lvPass d fs s = some s' ∧ ∀ l, s'.lv l = true ↔
      LvOn DbGives DbOff cs (fun l => (s.dflag = true ∨ d = true) ∨ s.lv l = true) l := by
  obtain ⟨s', h1, _, h3, _⟩ := decodeDebug_on (s := { s with dflag := s.dflag || d, flags := s.flags ++ fs }) h hk
  refine ⟨s', h1, fun l => ?_⟩
  rw [h3 l]
  apply lvOn_congr
  simp

example : DbLists ([] ++ ["v".toList, "j".toList]) ['v', 'j'] ∧ ∀ c ∈ ['v', 'j'], c ∈ dbKnown :=
  ⟨.cons _ _ ['v'] ['j'] (.last 'v' [] (by decide)) (.cons _ _ ['j'] [] (.last 'j' [] (by decide)) .nil), by decide⟩

/-- **C144.**  Negation: a `-d` behind `--debug=n` does not take effect, though the manual says that options behind it do. -/
theorem C144_off_then_all : ∃ s', lvPass true ["n".toList] ⟨false, [], Lvs.none⟩ = some s' ∧ ∀ l, s'.lv l = false := by
  have hL : DbLists ([] ++ ["n".toList]) ['n'] := .cons _ _ ['n'] [] (.last 'n' [] (by decide)) .nil
  obtain ⟨s', h1, h2⟩ := C144_options (s := ⟨false, [], Lvs.none⟩) (d := true) hL (by decide)
  refine ⟨s', h1, fun l => ?_⟩
  cases hv : s'.lv l with
  | false => rfl
  | true =>
    rcases (h2 l).1 hv with ⟨_, hR⟩ | ⟨pre, x, post, he, hG, _⟩
    · exact absurd (Or.inl rfl) (hR 'n' (by simp))
    · cases pre with
      | nil =>
        cases he
        cases hG <;> simp_all
      | cons y pre => cases pre <;> cases he

theorem lvOn_twice {cs : List Char} {b b' : Lv → Prop} (hb' : ∀ l, b' l ↔ LvOn DbGives DbOff cs b l) (l : Lv) :
    LvOn DbGives DbOff cs b' l ↔ LvOn DbGives DbOff cs b l := by
  constructor
  · rintro (⟨hb, hR⟩ | hg)
    · exact (hb' l).1 hb
    · exact Or.inr hg
  · rintro (⟨hb, hR⟩ | hg)
    · exact Or.inl ⟨(hb' l).2 (Or.inl ⟨hb, hR⟩), hR⟩
    · exact Or.inr hg

/-- **C144.**  Decoding the options once more changes nothing. -/
theorem C144_again {s s' : LvSt} {cs : List Char} (h : DbLists s.flags cs) (hs : decodeDebug s = some s') :
    decodeDebug s' = some s' := by
  by_cases hk : ∀ c ∈ cs, c ∈ dbKnown
  · obtain ⟨s1, h1, h2, h3, h4⟩ := decodeDebug_on h hk
    rw [hs] at h1
    cases h1
    obtain ⟨s2, k1, k2, k3, k4⟩ := decodeDebug_on (s := s') (by rw [h2]; exact h) hk
    have hlv : s2.lv = s'.lv := by
      funext l
      have : s2.lv l = true ↔ s'.lv l = true := by
        rw [k3 l]
        by_cases hd : s'.dflag = true
        · -- `-d` is still on: everything was on at the start the first time, too
          rw [h3 l]
          apply lvOn_congr
          rw [h4] at hd
          have : s.dflag = true := by
            cases hsd : s.dflag with
            | true => rfl
            | false => rw [hsd] at hd; cases hd
          simp [this, h4, hd]
          rw [Bool.and_eq_true] at hd
          exact Or.inl (by simpa using hd.2)
        · rw [lvOn_congr DbGives DbOff cs l (b' := fun l => s'.lv l = true) (by simp [hd])]
          rw [lvOn_twice (b := fun l => s.dflag = true ∨ s.lv l = true) h3]
          exact (h3 l).symm
      cases h1 : s2.lv l <;> cases h2 : s'.lv l <;> simp_all
    have hd : s2.dflag = s'.dflag := by
      rw [k4, hlv, h4]
      cases s.dflag <;> simp
    rw [k1]
    have hf : s2.flags = s'.flags := k2
    cases s2; cases s'
    simp_all
  · exfalso
    have hk' : ∃ c ∈ cs, c ∉ dbKnown := by
      simpa using hk
    unfold decodeDebug at hs
    rw [dbStrings_letters h, dbLetters_unknown hk'] at hs
    cases hs

end Remake
