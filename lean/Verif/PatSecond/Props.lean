import Verif.PatSecond.Lemmas3

/-!
# C128: second expansion in pattern rules
-/
set_option linter.unusedVariables false
set_option linter.unusedSimpArgs false
namespace Remake
open Spec

/-! ## The prerequisites -/

/-- C128: with second expansion the prerequisites of a pattern rule are those that its text stands for: it is cut into words, white space inside
references not counting; in each word the first percent sign is replaced by a reference to the stem; the word is expanded; the names in the result
are prerequisites, after a bar order-only ones, with the directory of the target in front if the word had a percent sign and the pattern has
no slash.  What is in memory after the text does not matter.  Partial: every `$` of the text belongs to a `$$` or to a reference that is closed;
the names have no wildcards and are no archive members; expansion has no effects. -/
theorem C128_words_partial (env : FsEnv) {g ex : Str → Str} (hg : ∀ w, Stripped w (g w)) {dir : Option Str} {oo : Bool} {t : Str}
    {ps : List (Str × Bool)} (h : SecondText g ex dir oo t ps) {room : Nat} (hr : t.length + 5 ≤ room) (after : Str) :
    secondLoop env ex dir room oo (t ++ '\x00' :: after) = .done ps :=
  secondLoop_spec env hg h hr after

/-- `%.c $(hdrs)` for the target `src/a.o` of the pattern `%.o`, where `hdrs` has two words. -/
example (env : FsEnv) (ex : Str → Str) (h1 : ex "$(*F).c".toList = "a.c".toList) (h2 : ex "$(hdrs)".toList = "x.h y.h".toList) (after : Str) :
    secondLoop env ex (some "src/".toList) 30 false ("%.c $(hdrs)".toList ++ '\x00' :: after) =
      .done [("src/".toList ++ lookupName "a.c".toList, false), (lookupName "x.h".toList, false), (lookupName "y.h".toList, false)] := by
  have hsp : Spaces ([] : Str) := by intro c h; cases h
  have hch : ∀ (c : Char) (t : Str), (c ≠ '\x00' ∧ c ≠ ' ' ∧ c ≠ '\t' ∧ c ≠ '|' ∧ c ≠ '$') → Pieces t → Pieces (c :: t) :=
    fun c t h ht => .char h.1 h.2.1 h.2.2.1 h.2.2.2.1 h.2.2.2.2 ht
  have hpc : ∀ (c : Char) (t : Str), (c ≠ '(' ∧ c ≠ ')' ∧ c ≠ '\x00') → ParenText '(' ')' t → ParenText '(' ')' (c :: t) :=
    fun c t h ht => .char h.1 h.2.1 h.2.2 ht
  have m1 : WordMeans lookupName ex (some "src/".toList) false "%.c".toList ([['a', '.', 'c']].map fun w => ("src/".toList ++ lookupName w, false)) false := by
    refine ⟨"$(*F).c".toList, .inr ⟨[], ".c".toList, rfl, by decide, rfl⟩, ?_⟩
    rw [h1]
    exact .normal (.last hsp ⟨'a', _, rfl, by decide⟩ (quoted_same (by decide))) (by unfold PlainWord; decide)
  have m2 : WordMeans lookupName ex (some "src/".toList) false "$(hdrs)".toList
      ([['x', '.', 'h'], ['y', '.', 'h']].map fun w => ([] ++ lookupName w, false)) false := by
    refine ⟨"$(hdrs)".toList, .inl ⟨by decide, rfl⟩, ?_⟩
    rw [h2]
    refine .normal (ns := [['x', '.', 'h'], ['y', '.', 'h']]) ?_ (by unfold PlainWord; decide)
    exact .cons (t := ['x', '.', 'h']) (sp := []) (b := ' ') hsp ⟨'x', _, rfl, by decide⟩ (quoted_same (by decide)) (by decide)
      (.last (sp := []) (t := ['y', '.', 'h']) hsp ⟨'y', _, rfl, by decide⟩ (quoted_same (by decide)))
  have p2 : Pieces "$(hdrs)".toList :=
    .ref (opn := '(') (cls := ')') (a := ['h', 'd', 'r', 's']) (t := []) (.inl ⟨rfl, rfl⟩)
      (hpc _ _ (by decide) (hpc _ _ (by decide) (hpc _ _ (by decide) (hpc _ _ (by decide) .nil)))) .nil
  have h := SecondText.word (sp := []) hsp ⟨'%', _, rfl, by decide⟩
    (hch _ _ (by decide) (hch _ _ (by decide) (hch _ _ (by decide) .nil))) (.inr ⟨' ', "$(hdrs)".toList, rfl, by decide⟩) m1
    (SecondText.word (sp := [' ']) (rest := []) (by decide : ∀ c ∈ [' '], isSpace c = true) ⟨'$', _, rfl, by decide⟩ p2 (.inl rfl) m2 (.done hsp))
  exact C128_words_partial env lookupName_stripped h (room := 30) (by decide) after

/-- C128: the buffer for the names of prerequisites is large enough, with and without second expansion, for every prerequisite of every pattern
rule (and every name in `.EXTRA_PREREQS`) and every target: `dir` and `core` are parts of its name. -/
theorem C128_fits (env : FsEnv) {filename dir0 core : Str} (hne : filename ≠ []) (hl : dir0.length + core.length ≤ filename.length)
    {extra : List Str} {rules : List (List Str)} {t : Str} (ht : t ∈ extra ∨ ∃ ds ∈ rules, t ∈ ds) :
    (substStem dir0 core t).length + 1 ≤ depnameRoom filename extra rules ∧
      ∀ (g ex : Str → Str), (∀ w, Stripped w (g w)) → ∀ (dir : Option Str) (oo : Bool) (ps : List (Str × Bool)), SecondText g ex dir oo t ps →
        ∀ after : Str, secondLoop env ex dir (depnameRoom filename extra rules) oo (t ++ '\x00' :: after) = .done ps := by
  have hm : t.length ≤ maxDepLength extra rules := by
    rcases ht with ht | ⟨ds, h1, h2⟩
    · exact (maxDepLength_ge extra rules).1 t ht
    · exact (maxDepLength_ge extra rules).2 ds h1 t h2
  have hpos := List.length_pos_iff.2 hne
  constructor
  · have := substStem_length dir0 core t
    unfold depnameRoom; omega
  · intro g ex hg dir oo ps h after
    exact secondLoop_spec env hg h (by unfold depnameRoom; omega) after

/-! ## The stem -/

/-- C128: the stem is put into a word as it is; dollar signs in it are not expanded again. -/
theorem C128_stem_verbatim (ext : List (VarSet × Bool) → Str → List Str → Option Str) (fuel : Nat) {st : XState} {stem : Str}
    (hl : ∃ i v, lookupLoc false st.chain ['*'] = some (i, v) ∧ v.recursive = false ∧ v.append = false ∧ v.value = stem) {a b : Str}
    (ha : '$' ∉ a) (hb : '$' ∉ b) (hp : '%' ∉ a) :
    ∃ t, Filled false (a ++ '%' :: b) t ∧ expand ext (fuel + 1) st t = .ok (a ++ stem ++ b) st :=
  ⟨_, .inr ⟨a, b, rfl, hp, rfl⟩, expand_stem ext fuel hl ha hb⟩

/-- A stem with a dollar sign. -/
example (ext : List (VarSet × Bool) → Str → List Str → Option Str) (st : XState)
    (hst : st.chain = [((fun n => if n = ['*'] then some (argVar ['*'] "a$(b)".toList) else none), false)]) :
    ∃ t, Filled false "src/%.c".toList t ∧ expand ext 1 st t = .ok "src/a$(b).c".toList st :=
  C128_stem_verbatim ext 0 (stem := "a$(b)".toList) ⟨0, argVar ['*'] "a$(b)".toList, by rw [hst]; rfl, rfl, rfl, rfl⟩ (a := "src/".toList)
    (b := ".c".toList) (by decide) (by decide) (by decide)

/-- What a word of the text stands for if it expands to one name. -/
theorem one_name {g ex : Str → Str} {w t x : Str} (hf : Filled false w t) (hx : ex t = x) (hb : Begins x)
    (hc : ∀ c ∈ x, c ≠ ' ' ∧ c ≠ '\t' ∧ c ≠ '|' ∧ c ≠ '\\') (hp : PlainWord x) : WordMeans g ex none false w [(g x, false)] false := by
  refine ⟨t, hf, ?_⟩
  have hq : Quoted endsName true x x := by
    refine quoted_same fun c h => ?_
    obtain ⟨h1, h2, h3, h4⟩ := hc c h
    exact ⟨by simp [endsName, findMap, isBlank, h1, h2, h3], h4⟩
  have hl : Listing endsName true [x] ([] ++ x) := .last (by intro c h; cases h) hb hq
  have := WordLists.normal (g := g) (dir := if '%' ∈ w then (none : Option Str).getD [] else []) hl (by intro y hy; simp at hy; rw [hy]; exact hp)
  rw [hx]
  simpa using this

/-- C128: a prerequisite without references stands for the same with second expansion as without, if the stem has no blanks, bars and
backslashes.  Partial: for targets in the directory of the pattern, names without wildcards. -/
theorem C128_same_partial (env : FsEnv) (ext : List (VarSet × Bool) → Str → List Str → Option Str) (fuel : Nat) {st : XState} {stem w : Str}
    (hl : ∃ i v, lookupLoc false st.chain ['*'] = some (i, v) ∧ v.recursive = false ∧ v.append = false ∧ v.value = stem)
    (hw : Begins w) (hwc : ∀ c ∈ w, c ≠ '\x00' ∧ c ≠ ' ' ∧ c ≠ '\t' ∧ c ≠ '|' ∧ c ≠ '\\' ∧ c ≠ '$')
    (hs : Begins stem) (hsc : ∀ c ∈ stem, c ≠ ' ' ∧ c ≠ '\t' ∧ c ≠ '|' ∧ c ≠ '\\')
    (hp : PlainWord w) (hps : PlainWord stem) {room : Nat} (hr : w.length + 5 ≤ room) (after : Str) :
    ∃ n, Stripped (substStem [] stem w) n ∧ plainNames env [] stem w = some [n] ∧
      secondLoop env (expandText ext (fuel + 1) st) none room false (w ++ '\x00' :: after) = .done [(n, false)] := by
  have key : ∃ t, Filled false w t ∧ expand ext (fuel + 1) st t = .ok (substStem [] stem w) st ∧ Begins (substStem [] stem w) ∧
      (∀ c ∈ substStem [] stem w, c ≠ ' ' ∧ c ≠ '\t' ∧ c ≠ '|' ∧ c ≠ '\\') ∧ PlainWord (substStem [] stem w) := by
    by_cases hpc : '%' ∈ w
    · obtain ⟨a, b, rfl, ha⟩ := first_percent w hpc
      rw [substStem_percent [] stem ha]
      refine ⟨_, .inr ⟨a, b, rfl, ha, rfl⟩, ?_, ?_, ?_, ?_⟩
      · rw [List.nil_append]
        exact expand_stem ext fuel hl (fun h => (hwc _ (by simp [h])).2.2.2.2.2 rfl) (fun h => (hwc _ (by simp [h])).2.2.2.2.2 rfl)
      · cases a with
        | nil =>
          obtain ⟨c, cs, rfl, hc⟩ := hs
          exact ⟨c, cs ++ b, rfl, hc⟩
        | cons c a =>
          obtain ⟨c', cs, h, hc⟩ := hw
          cases h
          exact ⟨_, _, rfl, hc⟩
      · intro c hc
        simp only [List.nil_append, List.mem_append] at hc
        rcases hc with (hc | hc) | hc
        · have := hwc c (by simp [hc]); exact ⟨this.2.1, this.2.2.1, this.2.2.2.1, this.2.2.2.2.1⟩
        · exact hsc c hc
        · have := hwc c (by simp [hc]); exact ⟨this.2.1, this.2.2.1, this.2.2.2.1, this.2.2.2.2.1⟩
      · unfold PlainWord at hp hps ⊢
        simp only [List.nil_append, List.mem_append, List.mem_cons, not_or] at hp ⊢
        grind
    · rw [substStem_none [] stem hpc]
      refine ⟨w, .inl ⟨hpc, rfl⟩, ?_, hw, ?_, hp⟩
      · have hd : '$' ∉ w := fun h => (hwc _ h).2.2.2.2.2 rfl
        simp only [expand, lex_literal hd, evalToks_chars]
      · intro c hc
        have := hwc c hc; exact ⟨this.2.1, this.2.2.1, this.2.2.2.1, this.2.2.2.2.1⟩
  obtain ⟨t, hf, he, hb, hc, hpx⟩ := key
  refine ⟨lookupName (substStem [] stem w), lookupName_stripped _, ?_, ?_⟩
  · unfold plainNames
    rw [oneword_plain env hb (fun h => (hc _ h).2.2.2 rfl) hpx]
    rfl
  · have hm := one_name (g := lookupName) (ex := expandText ext (fuel + 1) st) hf (by unfold expandText; rw [he]) hb hc hpx
    have hpw : Pieces w := by
      clear hm hf he hw hp hr hb hc hpx
      induction w with
      | nil => exact .nil
      | cons c w ih =>
        obtain ⟨h1, h2, h3, h4, h5, h6⟩ := hwc c (by simp)
        exact .char h1 h2 h3 h4 h6 (ih fun y hy => hwc y (by simp [hy]))
    have h := SecondText.word (g := lookupName) (ex := expandText ext (fuel + 1) st) (dir := none) (sp := []) (rest := [])
      (by intro c h; cases h) hw hpw (.inl rfl) hm (.done (by intro c h; cases h))
    simp only [List.nil_append, List.append_nil] at h
    exact secondLoop_spec env lookupName_stripped h hr after

/-- C128: without these conditions they differ.  A blank in the stem: without second expansion the name has the blank in it; with second
expansion there are two prerequisites, cut at the blank. -/
theorem C128_stem_blank (env : FsEnv) (ext : List (VarSet × Bool) → Str → List Str → Option Str) (fuel : Nat) {st : XState}
    (hl : ∃ i v, lookupLoc false st.chain ['*'] = some (i, v) ∧ v.recursive = false ∧ v.append = false ∧ v.value = ['a', ' ', 'b'])
    (after : Str) :
    plainNames env [] ['a', ' ', 'b'] ['%', '.', 'c'] = some [['a', ' ', 'b', '.', 'c']] ∧
      secondLoop env (expandText ext (fuel + 1) st) none 8 false (['%', '.', 'c'] ++ '\x00' :: after) =
        .done [(['a'], false), (['b', '.', 'c'], false)] := by
  have hst : ∀ w, Stripped w (lookupName w) := lookupName_stripped
  have hsp : Spaces ([] : Str) := by intro c h; cases h
  constructor
  · have hx : substStem [] ['a', ' ', 'b'] ['%', '.', 'c'] = ['a', ' ', 'b', '.', 'c'] := by decide
    unfold plainNames
    rw [hx, oneword_plain env ⟨'a', _, rfl, by decide⟩ (by decide) (by unfold PlainWord; decide)]
    decide +kernel
  · have he := expand_stem ext fuel hl (a := []) (b := ['.', 'c']) (by decide) (by decide)
    have hl2 : Listing endsName true [['a'], ['b', '.', 'c']] ([] ++ ['a'] ++ ' ' :: ([] ++ ['b', '.', 'c'])) := by
      refine .cons hsp ⟨'a', [], rfl, by decide⟩ (quoted_same (by decide)) (by decide) ?_
      exact .last hsp ⟨'b', _, rfl, by decide⟩ (quoted_same (by decide))
    have hm : WordMeans lookupName (expandText ext (fuel + 1) st) none false ['%', '.', 'c']
        ([['a'], ['b', '.', 'c']].map fun w => ([] ++ lookupName w, false)) false := by
      refine ⟨[] ++ "$*".toList ++ ['.', 'c'], .inr ⟨[], ['.', 'c'], rfl, by decide, rfl⟩, ?_⟩
      unfold expandText
      rw [he]
      exact .normal hl2 (by unfold PlainWord; decide)
    have h := SecondText.word (g := lookupName) (dir := none) (sp := []) (rest := []) hsp ⟨'%', _, rfl, by decide⟩
      (.char (by decide) (by decide) (by decide) (by decide) (by decide) (.char (by decide) (by decide) (by decide) (by decide) (by decide)
        (.char (by decide) (by decide) (by decide) (by decide) (by decide) .nil))) (.inl rfl) hm (.done hsp)
    have := secondLoop_spec env hst h (room := 8) (by decide) after
    rw [show ([] ++ ['%', '.', 'c'] ++ [] : Str) = ['%', '.', 'c'] from rfl] at this
    refine this.trans ?_
    decide +kernel

/-- C128: a bar in the stem: with second expansion what follows it is an order-only prerequisite. -/
theorem C128_stem_bar (env : FsEnv) (ext : List (VarSet × Bool) → Str → List Str → Option Str) (fuel : Nat) {st : XState}
    (hl : ∃ i v, lookupLoc false st.chain ['*'] = some (i, v) ∧ v.recursive = false ∧ v.append = false ∧ v.value = ['a', '|', 'b'])
    (after : Str) :
    plainNames env [] ['a', '|', 'b'] ['%', '.', 'c'] = some [['a', '|', 'b', '.', 'c']] ∧
      secondLoop env (expandText ext (fuel + 1) st) none 8 false (['%', '.', 'c'] ++ '\x00' :: after) =
        .done [(['a'], false), (['b', '.', 'c'], true)] := by
  have hst : ∀ w, Stripped w (lookupName w) := lookupName_stripped
  have hsp : Spaces ([] : Str) := by intro c h; cases h
  constructor
  · have hx : substStem [] ['a', '|', 'b'] ['%', '.', 'c'] = ['a', '|', 'b', '.', 'c'] := by decide
    unfold plainNames
    rw [hx, oneword_plain env ⟨'a', _, rfl, by decide⟩ (by decide) (by unfold PlainWord; decide)]
    decide +kernel
  · have he := expand_stem ext fuel hl (a := []) (b := ['.', 'c']) (by decide) (by decide)
    have hl1 : Listing endsName false [['a']] ([] ++ ['a']) := .last hsp ⟨'a', [], rfl, by decide⟩ (quoted_same (by decide))
    have hl2 : Listing isBlank true [['b', '.', 'c']] ([] ++ ['b', '.', 'c']) := .last hsp ⟨'b', _, rfl, by decide⟩ (quoted_same (by decide))
    have hm : WordMeans lookupName (expandText ext (fuel + 1) st) none false ['%', '.', 'c']
        ([['a']].map (fun w => ([] ++ lookupName w, false)) ++ [['b', '.', 'c']].map fun w => ([] ++ lookupName w, true)) true := by
      refine ⟨[] ++ "$*".toList ++ ['.', 'c'], .inr ⟨[], ['.', 'c'], rfl, by decide, rfl⟩, ?_⟩
      unfold expandText
      rw [he]
      exact .both hl1 hl2 (by unfold PlainWord; decide) (by unfold PlainWord; decide)
    have h := SecondText.word (g := lookupName) (dir := none) (sp := []) (rest := []) hsp ⟨'%', _, rfl, by decide⟩
      (.char (by decide) (by decide) (by decide) (by decide) (by decide) (.char (by decide) (by decide) (by decide) (by decide) (by decide)
        (.char (by decide) (by decide) (by decide) (by decide) (by decide) .nil))) (.inl rfl) hm (.done hsp)
    have := secondLoop_spec env hst h (room := 8) (by decide) after
    rw [show ([] ++ ['%', '.', 'c'] ++ [] : Str) = ['%', '.', 'c'] from rfl] at this
    refine this.trans ?_
    decide +kernel

/-! ## A dollar sign at the end of the text -/

/-- C128: if the text ends with a dollar sign, what is in memory after the text is taken for prerequisites too: all that the text `u` there
stands for becomes prerequisites of the target. -/
theorem C128_overread (env : FsEnv) {g ex : Str → Str} (hg : ∀ w, Stripped w (g w)) {dir : Option Str} {oo oo' : Bool} {sp w u : Str}
    {ps qs : List (Str × Bool)} (hsp : Spaces sp) (hb : w = [] ∨ Begins w) (hp : Pieces w) (hm : WordMeans g ex dir oo (w ++ ['$']) ps oo')
    (hu : ∃ b r, u = b :: r ∧ isBlank b = true) (hq : SecondText g ex dir oo' u qs) {room : Nat} (hr : w.length + u.length + 7 ≤ room)
    (after : Str) :
    secondLoop env ex dir room oo (sp ++ (w ++ ['$']) ++ '\x00' :: (u ++ '\x00' :: after)) = .done (ps ++ qs) := by
  have hn := pieces_no_nul hp
  have hn' : nul ∉ w ++ ['$'] := by simp [hn]; decide
  obtain ⟨b, r, hu, hbl⟩ := hu
  have hw : getNextWord (sp ++ (w ++ ['$']) ++ '\x00' :: (u ++ '\x00' :: after)) = .word (w ++ ['$'] ++ [nul]) (u ++ nul :: after) := by
    rw [show sp ++ (w ++ ['$']) ++ '\x00' :: (u ++ '\x00' :: after) = sp ++ (w ++ ('$' :: nul :: (u ++ nul :: after))) by simp [nul]]
    refine getNextWord_of hsp ?_ ?_
    · rcases hb with rfl | hb
      · exact ⟨_, _, rfl, by decide, by decide⟩
      · exact begins_first hb hn _
    · rw [nextWordGo_pieces hp, nextWordGo_dollar_nul, hu, List.cons_append, nextWordGo_stop (.inr (by simpa [isBlank] using hbl))]
      simp
  have hl := filled_length (filled_exists dir.isSome (w ++ ['$'] ++ [nul]))
  simp only [List.length_append, List.length_cons, List.length_nil] at hl
  have hmem : ('%' ∈ w ++ ['$'] ++ [nul]) ↔ '%' ∈ w ++ ['$'] := by simp [nul]
  rw [secondLoop_word hw ?_ (by omega) (ps := ps) (oo' := oo') ?_, secondLoop_spec env hg hq (by omega) after]
  · rintro ⟨_, h⟩
    have := congrArg List.length h
    simp at this
  · have := wordMeans_names env hg hn' hm
    rw [cString_id (filled_no_nul (filled_exists _ _) hn')] at this
    rw [fillWord_append_nul, cString_append_nul (filled_no_nul (filled_exists _ _) hn')]
    by_cases h : '%' ∈ w ++ ['$']
    · rw [if_pos (hmem.2 h)]; rw [if_pos h] at this; exact this
    · rw [if_neg (fun h' => h (hmem.1 h'))]; rw [if_neg h] at this; exact this

/-- The text `foo$` followed in memory by ` bar`. -/
example (env : FsEnv) (ex : Str → Str) (h1 : ex "foo$".toList = "foo".toList) (h2 : ex "bar".toList = "bar".toList) :
    secondLoop env ex none 20 false ([] ++ ("foo".toList ++ ['$']) ++ '\x00' :: (" bar".toList ++ '\x00' :: [])) =
      .done [(lookupName "foo".toList, false), (lookupName "bar".toList, false)] := by
  have hsp : Spaces ([] : Str) := by intro c h; cases h
  have hch : ∀ (c : Char) (t : Str), (c ≠ '\x00' ∧ c ≠ ' ' ∧ c ≠ '\t' ∧ c ≠ '|' ∧ c ≠ '$') → Pieces t → Pieces (c :: t) :=
    fun c t h ht => .char h.1 h.2.1 h.2.2.1 h.2.2.2.1 h.2.2.2.2 ht
  refine C128_overread env (g := lookupName) (w := "foo".toList) (oo' := false) (ps := [(lookupName "foo".toList, false)]) (qs := [(lookupName "bar".toList, false)])
    lookupName_stripped hsp (.inr ⟨'f', _, rfl, by decide⟩) (hch _ _ (by decide) (hch _ _ (by decide) (hch _ _ (by decide) .nil)))
    (one_name (.inl ⟨by decide, rfl⟩) h1 ⟨'f', _, rfl, by decide⟩ (by decide) (by unfold PlainWord; decide)) ⟨' ', _, rfl, by decide⟩ ?_ (by decide) []
  have := SecondText.word (g := lookupName) (ex := ex) (dir := none) (oo := false) (sp := [' ']) (w := "bar".toList) (rest := [])
    (by decide : ∀ c ∈ [' '], isSpace c = true) ⟨'b', _, rfl, by decide⟩
    (hch _ _ (by decide) (hch _ _ (by decide) (hch _ _ (by decide) .nil))) (.inl rfl)
    (one_name (.inl ⟨by decide, rfl⟩) h2 ⟨'b', _, rfl, by decide⟩ (by decide) (by unfold PlainWord; decide)) (.done hsp)
  exact this

/-- C128: the buffer is overrun then, however large it is, if a long enough string follows in memory. -/
theorem C128_overflow (env : FsEnv) (ex : Str → Str) (dir : Option Str) (oo : Bool) {w x : Str} {e : Char} (hw : Begins w) (hp : Pieces w)
    (hx : ∀ c ∈ x, c ≠ '\x00' ∧ c ≠ ' ' ∧ c ≠ '\t' ∧ c ≠ '|' ∧ c ≠ '$') (he : e = '\x00' ∨ e = ' ' ∨ e = '\t') {room : Nat}
    (hr : room ≤ x.length) (after : Str) :
    secondLoop env ex dir room oo (w ++ ['$'] ++ '\x00' :: (x ++ e :: after)) = .undefined := by
  have hn := pieces_no_nul hp
  have hg : getNextWord (w ++ ['$'] ++ '\x00' :: (x ++ e :: after)) = .word (w ++ '$' :: nul :: x) (e :: after) := by
    rw [show w ++ ['$'] ++ '\x00' :: (x ++ e :: after) = [] ++ (w ++ ('$' :: nul :: (x ++ e :: after))) by simp [nul]]
    refine getNextWord_of (by intro c h; cases h) (begins_first hw hn _) ?_
    rw [nextWordGo_pieces hp, nextWordGo_dollar_nul, nextWordGo_long hx, nextWordGo_stop he]
    simp
  rw [secondLoop.eq_def]
  split
  · rfl
  · rename_i h'; rw [hg] at h'; cases h'
  · rename_i h'; rw [hg] at h'; cases h'
    rw [if_neg, if_pos]
    · have := fillWord_length_ge dir.isSome (w ++ '$' :: nul :: x)
      simp only [List.length_append, List.length_cons] at this
      omega
    · rintro ⟨_, h⟩
      have := congrArg List.length h
      simp at this
      omega

/-- The text `f$` and a string of a thousand characters after it. -/
example (env : FsEnv) (ex : Str → Str) : secondLoop env ex none 1000 false (['f'] ++ ['$'] ++ '\x00' :: (List.replicate 1000 'a' ++ ' ' :: [])) = .undefined :=
  C128_overflow env ex none false ⟨'f', [], rfl, by decide⟩ (.char (by decide) (by decide) (by decide) (by decide) (by decide) .nil)
    (by intro c hc; rw [(List.mem_replicate.1 hc).2]; decide) (.inr (.inl rfl)) (by rw [List.length_replicate]; omega) []

/-- C128: and if memory ends before such a string does, what happens is undefined. -/
theorem C128_runs_out (env : FsEnv) (ex : Str → Str) (dir : Option Str) (oo : Bool) (room : Nat) {w x : Str} (hw : Begins w) (hp : Pieces w)
    (hx : ∀ c ∈ x, c ≠ '\x00' ∧ c ≠ ' ' ∧ c ≠ '\t' ∧ c ≠ '|' ∧ c ≠ '$') :
    secondLoop env ex dir room oo (w ++ ['$'] ++ '\x00' :: x) = .undefined := by
  have hn := pieces_no_nul hp
  have hg : getNextWord (w ++ ['$'] ++ '\x00' :: x) = .undefined := by
    have h0 : w ++ ['$'] ++ '\x00' :: x = w ++ ('$' :: nul :: x) := by simp [nul]
    rw [h0]
    have h1 : nextWordGo (w ++ ('$' :: nul :: x)) = none := by
      have h2 : nextWordGo x = none := by
        have := nextWordGo_long hx []
        rw [List.append_nil] at this
        rw [this, nextWordGo.eq_def]; rfl
      rw [nextWordGo_pieces hp, nextWordGo_dollar_nul, h2]; rfl
    unfold getNextWord
    rw [nextToken_of_begins hw]
    obtain ⟨c, cs, h3, h4, h5⟩ := begins_first hw hn ('$' :: nul :: x)
    rw [h3] at h1 ⊢
    simp only [h5, if_false, h1]
  rw [secondLoop.eq_def]
  split
  · rfl
  · rename_i h'; rw [hg] at h'; cases h'
  · rename_i h'; rw [hg] at h'; cases h'

end Remake
