import Verif.Load.Spec
/-!
# Loading objects: lemmas
-/
set_option linter.unusedVariables false
set_option linter.unusedSimpArgs false
namespace Remake
open Spec

theorem ld_dropWhile_eq_nil {p : Char → Bool} : ∀ {l : Str}, l.dropWhile p = [] → ∀ c ∈ l, p c = true
  | [], _, c, hc => by simp at hc
  | a :: l, h, c, hc => by
    rw [List.dropWhile_cons] at h
    by_cases ha : p a = true
    · rw [if_pos ha] at h
      rcases List.mem_cons.1 hc with rfl | hc
      · exact ha
      · exact ld_dropWhile_eq_nil h c hc
    · rw [if_neg ha] at h; simp at h

theorem ld_dropWhile_all {p : Char → Bool} {l : Str} (h : ∀ c ∈ l, p c = true) (r : Str) :
    (l ++ r).dropWhile p = r.dropWhile p := by
  induction l with
  | nil => rfl
  | cons a l ih =>
    rw [List.cons_append, List.dropWhile_cons, if_pos (h a (by simp))]
    exact ih fun c hc => h c (by simp [hc])

theorem ld_takeWhile_all {p : Char → Bool} {l : Str} (h : ∀ c ∈ l, p c = true) (r : Str) :
    (l ++ r).takeWhile p = l ++ r.takeWhile p := by
  induction l with
  | nil => rfl
  | cons a l ih =>
    rw [List.cons_append, List.takeWhile_cons, if_pos (h a (by simp)), ih fun c hc => h c (by simp [hc])]
    rfl

theorem ld_takeWhile_stop {p : Char → Bool} {r : Str} (h : ∀ c, r.head? = some c → p c = false) : r.takeWhile p = [] := by
  cases r with
  | nil => rfl
  | cons a r => rw [List.takeWhile_cons, if_neg (by simp [h a rfl])]

theorem ld_takeWhile_mem {p : Char → Bool} : ∀ {l : Str}, ∀ c ∈ l.takeWhile p, p c = true
  | [], c, hc => by simp at hc
  | a :: l, c, hc => by
    rw [List.takeWhile_cons] at hc
    by_cases ha : p a = true
    · rw [if_pos ha] at hc
      rcases List.mem_cons.1 hc with rfl | hc
      · exact ha
      · exact ld_takeWhile_mem c hc
    · rw [if_neg ha] at hc; simp at hc

theorem ld_dropWhile_head {p : Char → Bool} : ∀ {l : Str}, ∀ c, (l.dropWhile p).head? = some c → p c = false
  | [], c, hc => by simp at hc
  | a :: l, c, hc => by
    rw [List.dropWhile_cons] at hc
    by_cases ha : p a = true
    · rw [if_pos ha] at hc
      exact ld_dropWhile_head c hc
    · rw [if_neg ha] at hc
      simp at hc; subst hc; simpa using ha

/-- The name is `obj(sym)`. -/
theorem splitLoad_paren {obj sym : Str} (h1 : '(' ∉ obj) (h2 : ')' ∉ sym) :
    splitLoad (obj ++ '(' :: (sym ++ [')'])) = if sym = [] then none else some (obj, some sym) := by
  have ho : ∀ c ∈ obj, (c != '(') = true := fun c hc => by
    simp only [bne_iff_ne, ne_eq]; rintro rfl; exact h1 hc
  have hs : ∀ c ∈ sym, (c != ')') = true := fun c hc => by
    simp only [bne_iff_ne, ne_eq]; rintro rfl; exact h2 hc
  unfold splitLoad
  rw [ld_dropWhile_all ho, ld_takeWhile_all ho]
  have e1 : ('(' :: (sym ++ [')'])).dropWhile (· != '(') = '(' :: (sym ++ [')']) := by
    rw [List.dropWhile_cons, if_neg (by decide)]
  have e2 : ('(' :: (sym ++ [')'])).takeWhile (· != '(') = [] := by
    rw [List.takeWhile_cons, if_neg (by decide)]
  rw [e1, e2]
  simp only []
  rw [ld_dropWhile_all hs, ld_takeWhile_all hs]
  have e3 : ([')'] : Str).dropWhile (· != ')') = [')'] := by decide
  have e4 : ([')'] : Str).takeWhile (· != ')') = [] := by decide
  rw [e3, e4, if_pos rfl, List.append_nil, List.append_nil]

theorem hasSymbol_of {name fp : Str} (h : name.dropWhile (· != '(') = '(' :: fp) (h2 : fp.dropWhile (· != ')') = [')']) :
    name = name.takeWhile (· != '(') ++ '(' :: (fp.takeWhile (· != ')') ++ [')']) := by
  have e1 := List.takeWhile_append_dropWhile (p := (· != '(')) (l := name)
  have e2 := List.takeWhile_append_dropWhile (p := (· != ')')) (l := fp)
  rw [h2] at e2
  rw [h] at e1
  rw [e2, e1]

theorem not_paren_takeWhile (name : Str) : '(' ∉ name.takeWhile (· != '(') := fun h => by
  have := ld_takeWhile_mem _ h; simp at this

theorem not_close_takeWhile (name : Str) : ')' ∉ name.takeWhile (· != ')') := fun h => by
  have := ld_takeWhile_mem _ h; simp at this

theorem splitLoad_plain {name : Str} (h : ¬ HasSymbol name) : splitLoad name = some (name, none) := by
  unfold splitLoad
  split
  · rfl
  · rename_i c fp hd
    have hc : c = '(' := by
      have := ld_dropWhile_head (p := (· != '(')) (l := name) c (by rw [hd]; rfl)
      simpa using this
    subst hc
    by_cases h2 : fp.dropWhile (· != ')') = [')']
    · exact absurd ⟨_, _, not_paren_takeWhile name, not_close_takeWhile fp, hasSymbol_of hd h2⟩ h
    · rw [if_neg h2]

/-- The last part of a name. -/
theorem baseOf_append {dir base : Str} (h : dir = [] ∨ dir.getLast? = some '/') (hb : '/' ∉ base) :
    baseOf (dir ++ base) = base := by
  unfold baseOf
  rw [List.reverse_append]
  have hr : ∀ c ∈ base.reverse, (c != '/') = true := fun c hc => by
    simp only [bne_iff_ne, ne_eq]; rintro rfl; exact hb (by simpa using hc)
  rw [ld_takeWhile_all hr]
  have : dir.reverse.takeWhile (· != '/') = [] := by
    apply ld_takeWhile_stop
    intro c hc
    rcases h with rfl | h
    · simp at hc
    · rw [List.head?_reverse, h] at hc
      simp at hc; subst hc; decide
  rw [this, List.append_nil, List.reverse_reverse]

theorem baseOf_split (name : Str) : ∃ dir, name = dir ++ baseOf name ∧ (dir = [] ∨ dir.getLast? = some '/') ∧ '/' ∉ baseOf name := by
  refine ⟨(name.reverse.dropWhile (· != '/')).reverse, ?_, ?_, ?_⟩
  · unfold baseOf
    rw [← List.reverse_append, List.takeWhile_append_dropWhile, List.reverse_reverse]
  · cases hd : name.reverse.dropWhile (· != '/') with
    | nil => left; rfl
    | cons a l =>
      right
      have := ld_dropWhile_head (p := (· != '/')) (l := name.reverse) a (by rw [hd]; rfl)
      have ha : a = '/' := by simpa using this
      subst ha
      simp
  · unfold baseOf
    intro h
    have h' : '/' ∈ name.reverse.takeWhile (· != '/') := by simpa using h
    have := ld_takeWhile_mem _ h'
    simp at this

theorem madeSym_eq {dir stem rest : Str} (h : dir = [] ∨ dir.getLast? = some '/') (h1 : '/' ∉ stem) (h2 : '/' ∉ rest)
    (h3 : ∀ c ∈ stem, isAlnumC c = true ∨ c = '_') (h4 : ∀ c, rest.head? = some c → isAlnumC c = false ∧ c ≠ '_') :
    madeSym (dir ++ (stem ++ rest)) = stem ++ symExt := by
  unfold madeSym
  rw [baseOf_append h (by simp [h1, h2]), ld_takeWhile_all, ld_takeWhile_stop, List.append_nil]
  · intro c hc
    have := h4 c hc
    simp [isSymChar, this.1, this.2]
  · intro c hc
    rcases h3 c hc with h | h <;> simp [isSymChar, h]

theorem symExt_eq : symExt = ['_', 'g', 'm', 'k', '_', 's', 'e', 't', 'u', 'p'] := by decide

/-- What the code takes a name for is what it stands for. -/
theorem loadName_split {name obj sym : Str} (h : LoadName name obj sym) :
    ∃ s, splitLoad name = some (obj, s) ∧ s.getD (madeSym obj) = sym := by
  cases h with
  | given _ _ h1 h2 h3 => exact ⟨some sym, by rw [splitLoad_paren h1 h2, if_neg h3], rfl⟩
  | made dir stem rest h1 h2 h3 h4 h5 h6 =>
    exact ⟨none, splitLoad_plain h1, by rw [Option.getD_none, madeSym_eq h2 h3 h4 h5 h6, symExt_eq]⟩

theorem split_loadName {name obj : Str} {s : Option Str} (h : splitLoad name = some (obj, s)) :
    LoadName name obj (s.getD (madeSym obj)) := by
  by_cases hs : HasSymbol name
  · obtain ⟨o, y, h1, h2, rfl⟩ := hs
    rw [splitLoad_paren h1 h2] at h
    by_cases hy : y = []
    · rw [if_pos hy] at h; simp at h
    · rw [if_neg hy] at h
      simp at h
      obtain ⟨rfl, rfl⟩ := h
      exact .given _ _ h1 h2 hy
  · have := splitLoad_plain hs
    rw [this] at h
    simp at h
    obtain ⟨rfl, rfl⟩ := h
    rw [Option.getD_none]
    obtain ⟨dir, e, hd, hb⟩ := baseOf_split name
    have e2 : baseOf name = (baseOf name).takeWhile isSymChar ++ (baseOf name).dropWhile isSymChar :=
      List.takeWhile_append_dropWhile.symm
    have hn : name = dir ++ ((baseOf name).takeWhile isSymChar ++ (baseOf name).dropWhile isSymChar) := by rw [← e2]; exact e
    have key : ∀ b1 b2 : Str, name = dir ++ (b1 ++ b2) → '/' ∉ b1 → '/' ∉ b2 → (∀ c ∈ b1, isSymChar c = true) →
        (∀ c, b2.head? = some c → isSymChar c = false) → LoadName name name (madeSym name) := by
      intro b1 b2 hn g1 g2 g3 g4
      subst hn
      have k3 : ∀ c ∈ b1, isAlnumC c = true ∨ c = '_' := fun c hc => by
        have := g3 c hc; simpa [isSymChar] using this
      have k4 : ∀ c, b2.head? = some c → isAlnumC c = false ∧ c ≠ '_' := fun c hc => by
        have := g4 c hc; simpa [isSymChar] using this
      rw [madeSym_eq hd g1 g2 k3 k4, symExt_eq]
      exact .made dir b1 b2 hs hd g1 g2 k3 k4
    refine key _ _ hn ?_ ?_ ?_ ?_
    · intro h; exact hb (by rw [e2]; exact List.mem_append_left _ h)
    · intro h; exact hb (by rw [e2]; exact List.mem_append_right _ h)
    · exact fun c hc => ld_takeWhile_mem c hc
    · exact fun c hc => ld_dropWhile_head c hc

theorem splitLoad_none {name : Str} : splitLoad name = none ↔ ∃ obj, '(' ∉ obj ∧ name = obj ++ ['(', ')'] := by
  constructor
  · intro h
    by_cases hs : HasSymbol name
    · obtain ⟨o, y, h1, h2, rfl⟩ := hs
      rw [splitLoad_paren h1 h2] at h
      by_cases hy : y = []
      · subst hy; exact ⟨o, h1, rfl⟩
      · rw [if_neg hy] at h; simp at h
    · rw [splitLoad_plain hs] at h; simp at h
  · rintro ⟨obj, h1, rfl⟩
    have := splitLoad_paren (obj := obj) (sym := []) h1 (by simp)
    simpa using this

/-! ## The list of loaded objects -/

theorem strstr_skip {a b : Str} (hs : ' ' ∉ a) (hne : a ≠ []) (h : ¬ a <:+: b) (r : Str) :
    strstr a (b ++ ' ' :: r) = (strstr a r).map fun x => (b ++ ' ' :: x.1, x.2) := by
  induction b with
  | nil =>
    rw [List.nil_append]
    conv => lhs; unfold strstr
    have : a.isPrefixOf (' ' :: r) = false := by
      cases a with
      | nil => exact absurd rfl hne
      | cons c a =>
        have : c ≠ ' ' := fun e => hs (by simp [e])
        simp [List.isPrefixOf, this]
    rw [if_neg (by simp [this])]
    cases strstr a r <;> rfl
  | cons c b ih =>
    have hp : a.isPrefixOf (c :: (b ++ ' ' :: r)) = false := by
      rw [Bool.eq_false_iff]
      intro hp
      rw [List.isPrefixOf_iff_prefix] at hp
      have : a <+: (c :: b) ++ ' ' :: r := hp
      by_cases hlen : a.length ≤ (c :: b).length
      · exact h (List.prefix_of_prefix_length_le this (List.prefix_append _ _) hlen).isInfix
      · have h2 : (c :: b) ++ [' '] <+: (c :: b) ++ ' ' :: r := ⟨r, by simp⟩
        have h3 := List.prefix_of_prefix_length_le h2 this (by simp at hlen ⊢; omega)
        exact hs (h3.subset (by simp))
    rw [List.cons_append]
    conv => lhs; unfold strstr
    rw [if_neg (by simp [hp])]
    have h' : ¬ a <:+: b := fun hi => h (hi.trans (List.suffix_cons c b).isInfix)
    rw [ih h']
    cases strstr a r <;> rfl

theorem strstr_hit {a : Str} : ∀ {b : Str}, a <:+: b → ∃ u v, strstr a b = some (u, a ++ v) ∧ b = u ++ (a ++ v) ∧
    ∀ r, strstr a (b ++ r) = some (u, a ++ (v ++ r))
  | [], h => by
    have : a = [] := by simpa using h
    subst this
    refine ⟨[], [], rfl, rfl, fun r => ?_⟩
    cases r <;> simp [strstr]
  | c :: b, h => by
    by_cases hp : a <+: c :: b
    · obtain ⟨v, hv⟩ := hp
      refine ⟨[], v, ?_, hv.symm, fun r => ?_⟩
      · unfold strstr
        rw [if_pos (by rw [List.isPrefixOf_iff_prefix]; exact ⟨v, hv⟩), hv]
      · rw [List.cons_append]
        unfold strstr
        have e : c :: (b ++ r) = a ++ (v ++ r) := by rw [← List.append_assoc, hv]; rfl
        rw [if_pos (by rw [List.isPrefixOf_iff_prefix, e]; exact List.prefix_append _ _), e]
    · have hi : a <:+: b := by
        rcases List.infix_cons_iff.1 h with h | h
        · exact absurd h hp
        · exact h
      obtain ⟨u, v, h1, h2, h3⟩ := strstr_hit hi
      have hlen : a.length ≤ b.length := hi.length_le
      refine ⟨c :: u, v, ?_, by rw [h2]; rfl, fun r => ?_⟩
      · unfold strstr
        rw [if_neg (by rw [List.isPrefixOf_iff_prefix]; exact hp), h1]
      · rw [List.cons_append]
        conv => lhs; unfold strstr
        rw [if_neg, h3 r]
        rw [List.isPrefixOf_iff_prefix]
        intro hp2
        have : a <+: (c :: b) ++ r := hp2
        exact hp (List.prefix_of_prefix_length_le this (List.prefix_append _ _) (by simp; omega))

theorem isLoaded_hit {a b r : Str} (hb : ' ' ∉ b) (hi : a <:+: b) (hr : r = [] ∨ ∃ t, r = ' ' :: t) :
    isLoaded (b ++ r) a = decide (b = a) := by
  obtain ⟨u, v, h1, h2, h3⟩ := strstr_hit hi
  unfold isLoaded
  rw [h3 r]
  simp only [List.drop_left]
  have hu : u.getLast?.all (· == ' ') = decide (u = []) := by
    cases hu : u.getLast? with
    | none => have := List.getLast?_eq_none_iff.1 hu; simp [this]
    | some c =>
      have hm := List.mem_of_getLast? hu
      have : c ≠ ' ' := fun e => hb (by rw [h2, ← e]; simp [hm])
      have hne : u ≠ [] := fun e => by simp [e] at hm
      simp [this, hne]
  have hv : (v ++ r).head?.all (· == ' ') = decide (v = []) := by
    cases v with
    | nil =>
      rcases hr with rfl | ⟨t, rfl⟩ <;> simp
    | cons c v =>
      have : c ≠ ' ' := fun e => hb (by rw [h2, ← e]; simp)
      simp [this]
  rw [hu, hv]
  have : (b = a) ↔ (u = [] ∧ v = []) := by
    constructor
    · intro e
      have := congrArg List.length h2
      rw [e] at this
      simp at this
      exact ⟨List.length_eq_zero_iff.1 (by omega), List.length_eq_zero_iff.1 (by omega)⟩
    · rintro ⟨rfl, rfl⟩; simpa using h2
  by_cases hu0 : u = [] <;> by_cases hv0 : v = [] <;> simp [this, hu0, hv0]

theorem isLoaded_skip {a b : Str} (hs : ' ' ∉ a) (hne : a ≠ []) (h : ¬ a <:+: b) (r : Str) :
    isLoaded (b ++ ' ' :: r) a = isLoaded r a := by
  unfold isLoaded
  rw [strstr_skip hs hne h]
  cases hr : strstr a r with
  | none => rfl
  | some x =>
    simp only [Option.map_some]
    have : (b ++ ' ' :: x.1).getLast?.all (· == ' ') = x.1.getLast?.all (· == ' ') := by
      cases h1 : x.1 with
      | nil => simp
      | cons c l => simp [List.getLast?_append, List.getLast?_cons]
    rw [this]

theorem isLoaded_none {a b : Str} (h : ¬ a <:+: b) : isLoaded b a = false := by
  unfold isLoaded
  cases hr : strstr a b with
  | none => rfl
  | some x =>
    have e := strstr_eq (b := x.1) (p := x.2) hr
    have p := strstr_prefix (b := x.1) (p := x.2) hr
    obtain ⟨t, ht⟩ := p
    exact absurd ⟨x.1, t, by rw [List.append_assoc, ht, e]⟩ h

/-- The test finds the word iff no word before its first place contains it. -/
theorem isLoaded_iff {a : Str} (hs : ' ' ∉ a) (hne : a ≠ []) : ∀ {l : List Str}, (∀ b ∈ l, ' ' ∉ b) →
    (isLoaded (ldList l) a = true ↔ ∃ l1 l2, l = l1 ++ a :: l2 ∧ ∀ b ∈ l1, ¬ a <:+: b)
  | [], _ => by
    have : ¬ a <:+: ([] : Str) := by simpa using hne
    simp [ldList, isLoaded_none this]
  | [b], hl => by
    by_cases hi : a <:+: b
    · have := isLoaded_hit (r := []) (hl b (by simp)) hi (.inl rfl)
      rw [List.append_nil] at this
      rw [ldList, this]
      constructor
      · intro h; exact ⟨[], [], by simpa using h, by simp⟩
      · rintro ⟨l1, l2, h1, h2⟩
        cases l1 with
        | nil => simp at h1; simp [h1.1]
        | cons x l1 => simp at h1
    · rw [ldList, isLoaded_none hi]
      constructor
      · intro h; simp at h
      · rintro ⟨l1, l2, h1, h2⟩
        cases l1 with
        | nil => simp at h1; rw [h1.1] at hi; exact absurd (List.infix_refl _) hi
        | cons x l1 => simp at h1
  | b :: c :: l, hl => by
    rw [ldList]
    by_cases hi : a <:+: b
    · rw [isLoaded_hit (hl b (by simp)) hi (.inr ⟨_, rfl⟩)]
      constructor
      · intro h
        have : b = a := by simpa using h
        exact ⟨[], c :: l, by rw [this]; rfl, by simp⟩
      · rintro ⟨l1, l2, h1, h2⟩
        cases l1 with
        | nil => simp at h1; simp [h1.1]
        | cons x l1 =>
          simp at h1
          exact absurd (h1.1 ▸ hi) (h2 x (by simp))
    · rw [isLoaded_skip hs hne hi, isLoaded_iff hs hne (l := c :: l) fun x hx => hl x (by simp at hx ⊢; grind)]
      constructor
      · rintro ⟨l1, l2, h1, h2⟩
        refine ⟨b :: l1, l2, by rw [h1]; rfl, ?_⟩
        intro x hx
        rcases List.mem_cons.1 hx with rfl | hx
        · exact hi
        · exact h2 x hx
      · rintro ⟨l1, l2, h1, h2⟩
        cases l1 with
        | nil => simp at h1; rw [h1.1] at hi; exact absurd (List.infix_refl _) hi
        | cons x l1 =>
          simp at h1
          exact ⟨l1, l2, h1.2, fun y hy => h2 y (by simp [hy])⟩

theorem ldList_snoc : ∀ {l : List Str} (a : Str), ldList l ≠ [] → ldList (l ++ [a]) = ldList l ++ ' ' :: a
  | [], a, h => absurd rfl h
  | [b], a, _ => rfl
  | b :: c :: l, a, h => by
    show b ++ ' ' :: ldList ((c :: l) ++ [a]) = _
    by_cases hc : ldList (c :: l) = []
    · cases l with
      | nil => simp [ldList] at hc; subst hc; simp [ldList]
      | cons d l => simp [ldList] at hc
    · rw [ldList_snoc a hc]
      simp [ldList]

theorem addLoaded_ldList {l : List Str} {a : Str} (h : ldList l = [] → l = []) : addLoaded (ldList l) a = ldList (l ++ [a]) := by
  unfold addLoaded
  by_cases hl : ldList l = []
  · rw [if_pos hl, h hl]; rfl
  · rw [if_neg hl, ldList_snoc a hl]

end Remake
