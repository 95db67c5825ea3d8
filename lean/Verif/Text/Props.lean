import Verif.Text.Lemmas4
set_option linter.unusedVariables false
/-!
# Properties C04 - C12: text functions

The statements use only the vocabulary of `Verif.Text.Spec` and the modelled
`func_*` entry points.
-/
namespace Remake
open Spec

/-! ## C04: words, word, wordlist, firstword, lastword -/

/-- `$(words text)` is the decimal numeral of the number of words. -/
theorem C04_words (text : Str) : funcWords text = numeral (wordsOf text).length := by
  rw [funcWords, tokens_eq, numeral_eq]

/-- `$(word n,text)` for a numeral `1 ≤ n < 2^31` is the n-th word, or nothing. -/
theorem C04_word_partial (n text : Str) (N : Nat) (hn : IsNumeral n N) (h1 : 1 ≤ N) (h2 : N < 2 ^ 31) :
    funcWord n text = .ok ((wordsOf text)[N - 1]?.getD []) := by
  unfold funcWord
  rw [checkNumeric_numeral hn, atoi_numeral hn h2]
  simp only [Bool.not_true, Bool.false_eq_true, if_false]
  rw [if_neg (by omega), wordGo_eq _ (by omega)]
  simp

/-- `$(word 0,text)` (any spelling of zero) is a fatal error. -/
theorem C04_word_zero (n text : Str) (hn : IsNumeral n 0) : funcWord n text = .fatal := by
  unfold funcWord
  rw [checkNumeric_numeral hn, atoi_numeral hn (by decide)]
  simp

/-- A first argument containing anything but digits between optional white space is a
fatal error for `word` and `wordlist`. -/
theorem C04_word_nonnumeric (n text : Str) (h : ∃ c ∈ stripWhitespace n, isDigitC c = false) :
    funcWord n text = .fatal ∧ ∀ b, funcWordlist n b text = .fatal := by
  have : checkNumeric n = false := by
    unfold checkNumeric
    obtain ⟨c, hc, hd⟩ := h
    have : (stripWhitespace n).all isDigitC = false := by
      rw [List.all_eq_false]; exact ⟨c, hc, by simp [hd]⟩
    rw [this]; rfl
  exact ⟨by unfold funcWord; rw [this]; rfl, fun b => by unfold funcWordlist; rw [this]; rfl⟩

/-- The empty argument is a fatal error. -/
theorem C04_word_empty (text : Str) : funcWord [] text = .fatal := by
  unfold funcWord checkNumeric; rfl

/-- `$(wordlist a,b,text)`: a stretch of the text (inner spacing kept) whose words are
exactly words `a` to `b`, with no white space at either end. -/
theorem C04_wordlist_partial (a b text : Str) (A B : Nat) (ha : IsNumeral a A) (hb : IsNumeral b B)
    (h1 : 1 ≤ A) (h2 : A < 2 ^ 31) (h3 : B < 2 ^ 31) :
    ∃ r, funcWordlist a b text = .ok r ∧
      wordsOf r = ((wordsOf text).drop (A - 1)).take (B + 1 - A) ∧
      r <:+: text ∧
      (∀ c, r.head? = some c → isSpace c = false) ∧
      (∀ c, r.getLast? = some c → isSpace c = false) := by
  unfold funcWordlist
  rw [checkNumeric_numeral ha, checkNumeric_numeral hb, atoi_numeral ha h2, atoi_numeral hb h3]
  simp only [Bool.not_true, Bool.false_eq_true, if_false]
  rw [if_neg (by omega), if_neg (by unfold intMin; omega)]
  by_cases hc : (B : Int) - A + 1 > 0
  · rw [if_pos hc]
    simp only [Int.toNat_natCast]
    cases hs : wordlistStart A text with
    | none =>
      refine ⟨[], rfl, ?_, List.nil_infix, by simp, by simp⟩
      have := wordlistStart_none h1 hs
      rw [wordsOf_nil, List.drop_eq_nil_of_le (by omega), List.take_nil]
    | some pe =>
      obtain ⟨p, e⟩ := pe
      obtain ⟨x, w, hx, hp, hw1, hw2, he, hdrop⟩ := wordlistStart_some h1 hs
      obtain ⟨m, hm, hmw, hml, hmh⟩ := wordlistEnd_spec (((B : Int) - A + 1).toNat) (by omega) e he
      have hbet : between p (wordlistEnd (((B : Int) - A + 1).toNat) e) = w ++ m := by
        unfold between
        have hpe : p = (w ++ m) ++ wordlistEnd (((B : Int) - A + 1).toNat) e := by
          rw [List.append_assoc, ← hm, hp]
        generalize wordlistEnd (((B : Int) - A + 1).toNat) e = z at hpe
        rw [hpe]
        have : (w ++ m ++ z).length - z.length = (w ++ m).length := by
          simp only [List.length_append]; omega
        rw [this, List.take_left]
      refine ⟨w ++ m, by simp only [hbet], ?_, ?_, ?_, ?_⟩
      · rw [wordsOf_append_space _ _ hmh, wordsOf_word hw1 hw2, hmw, hdrop]
        have : B + 1 - A = (((B : Int) - A + 1).toNat - 1) + 1 := by omega
        rw [this, List.take_succ_cons]
        simp
      · refine ⟨x, wordlistEnd (((B : Int) - A + 1).toNat) e, ?_⟩
        rw [hx, hp]
        conv => rhs; rw [hm]
        simp
      · intro c hc
        cases w with
        | nil => exact absurd rfl hw1
        | cons y ys => simp at hc; subst hc; exact hw2 _ (by simp)
      · intro c hc
        rcases hml with rfl | ⟨y, hy, hys⟩
        · simp only [List.append_nil] at hc
          exact hw2 c (List.mem_of_getLast? hc)
        · rw [List.getLast?_append, hy] at hc
          simp at hc; subst hc; exact hys
  · rw [if_neg hc]
    refine ⟨[], rfl, ?_, List.nil_infix, by simp, by simp⟩
    have : B + 1 - A = 0 := by omega
    rw [this, wordsOf_nil]; rfl

/-- `$(firstword text)` and `$(lastword text)`. -/
theorem C04_firstword (text : Str) : funcFirstword text = (wordsOf text).head?.getD [] := by
  unfold funcFirstword
  rw [wordsOf_token]
  cases findNextToken text with
  | none => rfl
  | some p => rfl

theorem C04_lastword (text : Str) : funcLastword text = (wordsOf text).getLast?.getD [] := by
  have key : ∀ p s, lastwordGo p s = ((wordsOf s).getLast?).or p := by
    intro p s
    fun_induction lastwordGo p s with
    | case1 p s h => rw [wordsOf_token, h]; simp
    | case2 p s t r h ih =>
      rw [ih, wordsOf_token s, h]
      simp only
      cases hw : wordsOf r with
      | nil => simp
      | cons x xs => simp [List.getLast?_cons]
  unfold funcLastword
  rw [key]
  cases (wordsOf text).getLast? <;> rfl

/-- Deviation: the full claim (for every positive `N`) fails beyond `int`: a number of
`2^32 + 1` selects the first word.  This is what glibc's `atoi` makes of it. -/
theorem C04_word_overflow :
    ¬ ∀ (n text : Str) (N : Nat), IsNumeral n N → 1 ≤ N →
      funcWord n text = .ok ((wordsOf text)[N - 1]?.getD []) := by
  intro h
  have hn : IsNumeral (numeral 4294967297) 4294967297 := ⟨[], 0, [], by simp, rfl, rfl⟩
  have h1 := h _ ['a'] _ hn (by decide)
  have h2 : funcWord (numeral 4294967297) ['a'] = .ok ['a'] := by
    unfold funcWord
    rw [checkNumeric_numeral hn, atoi_numeral_gen hn]
    simp only [Bool.not_true, Bool.false_eq_true, if_false]
    have : Int.bmod ((min 4294967297 (2 ^ 63 - 1) : Nat) : Int) (2 ^ 32) = 1 := by decide
    rw [this]
    rw [if_neg (by decide), wordGo_eq _ (by decide)]
    rfl
  have h3 : wordsOf ['a'] = [['a']] := by decide
  rw [h2, h3] at h1
  cases h1

/-- Deviation: with `b = 2147483648` the arithmetic of `wordlist` overflows `int`. -/
theorem C04_wordlist_overflow (text : Str) :
    funcWordlist (numeral 1) (numeral 2147483648) text = .ub := by
  have hn : IsNumeral (numeral 2147483648) 2147483648 := ⟨[], 0, [], by simp, rfl, rfl⟩
  have h1 : IsNumeral (numeral 1) 1 := ⟨[], 0, [], by simp, rfl, rfl⟩
  unfold funcWordlist
  rw [checkNumeric_numeral hn, checkNumeric_numeral h1, atoi_numeral_gen hn, atoi_numeral h1 (by decide)]
  rfl

/-- Deviation: a blank (non-empty) end index passes the numeric check of `wordlist` and
yields the empty list instead of an error. -/
theorem C04_wordlist_blank_index (text : Str) :
    funcWordlist (numeral 1) [' '] text = .ok [] := by
  have h1 : IsNumeral (numeral 1) 1 := ⟨[], 0, [], by simp, rfl, rfl⟩
  unfold funcWordlist
  rw [checkNumeric_numeral h1, atoi_numeral h1 (by decide)]
  have h2 : checkNumeric [' '] = true := by decide
  have h3 : atoi [' '] = 0 := by decide
  rw [h2, h3]
  simp [intMin]

example : IsNumeral " 007 ".toList 7 := ⟨[' '], 2, [' '], rfl, by decide, by decide⟩
example : funcWord " 002 ".toList "a b\tc".toList = .ok "b".toList := by
  have : IsNumeral " 002 ".toList 2 := ⟨[' '], 2, [' '], rfl, by decide, by decide⟩
  rw [C04_word_partial _ _ 2 this (by decide) (by decide)]; decide
example : wordsOf " a \tb\n c ".toList = ["a".toList, "b".toList, "c".toList] := by decide

/-! ## C05: strip -/

/-- `$(strip text)` is the words of the text with single spaces between them. -/
theorem C05_strip (text : Str) : funcStrip text = unwords (wordsOf text) := by
  unfold funcStrip
  rw [stripGo_eq]
  simpa using killLast_words (wordsOf text)

/-- It keeps the words and is idempotent. -/
theorem C05_strip_words (text : Str) : wordsOf (funcStrip text) = wordsOf text := by
  rw [C05_strip, wordsOf_unwords (fun w hw => mem_wordsOf hw)]

theorem C05_strip_idem (text : Str) : funcStrip (funcStrip text) = funcStrip text := by
  rw [C05_strip, C05_strip_words, C05_strip]

example : funcStrip "  a \t b ".toList = "a b".toList := by rw [C05_strip]; decide

/-! ## C06: sort -/

/-- For an argument buffer whose terminating NUL is followed by another NUL (what
`expand_argument` leaves for every argument whose text does not end in a lone `$`),
`$(sort text)` - whatever permutation `qsort` produces - is the list of the distinct words in
strictly increasing order. -/
theorem C06_sort_partial (text junk : Str) (hn : '\x00' ∉ text) :
    ∃ ws, sortScan (text ++ '\x00' :: '\x00' :: junk) = .ok ws ∧
      ∀ sorted, QsortResult ws sorted →
        ∃ out, funcSortOut sorted = unwords out ∧
          out.Pairwise (fun a b => alphaCompare a b < 0) ∧
          ∀ w, w ∈ out ↔ w ∈ wordsOf text := by
  refine ⟨wordsOf text, sortScan_ok text junk hn, ?_⟩
  intro sorted ⟨hperm, hsort⟩
  refine ⟨dedup sorted, ?_, dedup_sorted hsort, ?_⟩
  · unfold funcSortOut
    cases sorted with
    | nil => simp [dedup, unwords]
    | cons x xs =>
      simp only [List.isEmpty_cons, Bool.false_eq_true, if_false]
      rw [sortOutGo_eq, dropLast_flatMap_space _ (dedup_ne_nil (by simp))]
  · intro w; rw [dedup_mem]; exact hperm.mem_iff

/-- The result does not depend on the order of the input words, on duplicates, or on how
`qsort` breaks ties. -/
theorem C06_sort_order_independent (t1 t2 j1 j2 : Str) (h1 : '\x00' ∉ t1) (h2 : '\x00' ∉ t2)
    (hset : ∀ w, w ∈ wordsOf t1 ↔ w ∈ wordsOf t2) :
    ∀ ws1 ws2 s1 s2, sortScan (t1 ++ '\x00' :: '\x00' :: j1) = .ok ws1 →
      sortScan (t2 ++ '\x00' :: '\x00' :: j2) = .ok ws2 →
      QsortResult ws1 s1 → QsortResult ws2 s2 → funcSortOut s1 = funcSortOut s2 := by
  intro ws1 ws2 s1 s2 e1 e2 q1 q2
  obtain ⟨ws1', e1', f1⟩ := C06_sort_partial t1 j1 h1
  obtain ⟨ws2', e2', f2⟩ := C06_sort_partial t2 j2 h2
  rw [e1] at e1'; rw [e2] at e2'
  cases e1'; cases e2'
  obtain ⟨o1, r1, p1, m1⟩ := f1 s1 q1
  obtain ⟨o2, r2, p2, m2⟩ := f2 s2 q2
  rw [r1, r2, sorted_unique p1 p2 (fun w => by rw [m1, m2, hset])]

/-- The order is byte-wise lexicographic order on words that start with an ASCII
character. -/
theorem C06_order_ascii {a b : Str} (ha : ∀ c, a.head? = some c → c.toNat < 128)
    (hb : ∀ c, b.head? = some c → c.toNat < 128) : alphaCompare a b < 0 ↔ a < b := by
  rw [alpha_lt_iff]
  cases a with
  | nil =>
    cases b with
    | nil => simp [headSchar]
    | cons y ys =>
      have hy := hb y rfl
      simp only [headSchar, schar, hy, if_true]
      constructor
      · intro _; exact List.nil_lt_cons y ys
      · intro _
        by_cases h0 : y.toNat = 0
        · right; exact ⟨by omega, List.nil_lt_cons y ys⟩
        · left; omega
  | cons x xs =>
    have hx := ha x rfl
    cases b with
    | nil =>
      simp only [headSchar, schar, hx, if_true]
      constructor
      · rintro (h | ⟨_, h⟩)
        · omega
        · exact h
      · intro h; exact absurd h (List.not_lt_nil _)
    | cons y ys =>
      have hy := hb y rfl
      simp only [headSchar, schar, hx, hy, if_true]
      rw [List.cons_lt_cons_iff]
      have hlt : x < y ↔ x.toNat < y.toNat := Char.lt_def.trans UInt32.lt_iff_toNat_lt
      have heq : x = y ↔ x.toNat = y.toNat := Char.toNat_inj.symm
      rw [hlt, heq]
      by_cases h1 : x.toNat < y.toNat
      · simp [h1]
      · by_cases h2 : x.toNat = y.toNat
        · have : x = y := heq.mpr h2
          subst this
          simp
        · simp [h1, h2]

/-- Deviation: words starting with a byte ≥ 128 sort before all ASCII words, although their
bytes are larger. -/
theorem C06_order_high_byte :
    alphaCompare [Char.ofNat 0xC3, Char.ofNat 0xA9] ['a'] < 0 ∧
      ¬ ([Char.ofNat 0xC3, Char.ofNat 0xA9] < ['a'] : Prop) := by
  constructor <;> decide

/-- Deviation: when the byte after the terminating NUL is not NUL (as for an argument
that ends in a single `$`), the scan runs on and takes whatever is in memory as further words. -/
theorem C06_sort_overread :
    sortScan ("b a$".toList ++ '\x00' :: "zz".toList ++ ['\x00', '\x00'])
      = .ok ["b".toList, "a$".toList, "zz".toList] := by
  have h : "b a$".toList ++ '\x00' :: "zz".toList ++ ['\x00', '\x00'] =
      ['b'] ++ ' ' :: (['a', '$'] ++ '\x00' :: (['z', 'z'] ++ '\x00' :: ['\x00'])) := by decide
  rw [h]
  exact sortScan_word (by decide) (by decide) (by decide)
    (sortScan_word (by decide) (by decide) (by decide)
      (sortScan_word (by decide) (by decide) (by decide) (sortScan_nul [])))

example : QsortResult ["b".toList, "a".toList, "b".toList] ["a".toList, "b".toList, "b".toList] := by
  refine ⟨?_, by decide⟩
  decide

/-! ## C07: filter and filter-out -/

/-- `$(filter patterns,text)` keeps, in order and with repetitions, exactly the words that
match one of the patterns; `$(filter-out ...)` exactly the others - whether or not the
hash table is used. -/
theorem C07_filter (patterns text : Str) :
    ∃ keep : Str → Bool,
      (∀ w, keep w = true ↔ ∃ p ∈ wordsOf patterns, WrittenMatches p w) ∧
      funcFilter true patterns text = unwords ((wordsOf text).filter keep) ∧
      funcFilter false patterns text = unwords ((wordsOf text).filter (fun w => !keep w)) := by
  refine ⟨fun w => ((wordsOf patterns).map findPercent).any (fun p => selects p w), ?_, ?_⟩
  · intro w
    simp only [List.any_map, List.any_eq_true, Function.comp_def]
    constructor
    · rintro ⟨p, hp, hs⟩
      exact ⟨p, hp, _, (ReadsAs_iff (by decide)).mpr rfl, (patternMatches_iff _ _).mp hs⟩
    · rintro ⟨p, hp, q, hq, hm⟩
      refine ⟨p, hp, (patternMatches_iff _ _).mpr ?_⟩
      have := (ReadsAs_iff (by decide)).mp hq
      unfold findPercent
      rw [this]; exact hm
  · have key : ∀ isFilter, funcFilter isFilter patterns text =
        unwords (((wordsOf text).filter (fun w =>
          if isFilter then ((wordsOf patterns).map findPercent).any (fun p => selects p w)
          else !((wordsOf patterns).map findPercent).any (fun p => selects p w)))) := by
      intro isFilter
      unfold funcFilter
      simp only [tokens_eq]
      rw [foldl_mark _ _ _ _ rfl]
      rw [foldl_words_out (filterOutStep isFilter)
        (fun w => if (if isFilter then w.matched else !w.matched) then some w.str else none)
        (fun st w => by unfold filterOutStep; cases isFilter <;> cases w.matched <;> simp)]
      simp only [List.map_map, Function.comp_def, Bool.false_or, List.filterMap_map, List.length_map]
      have hf : (fun w : Str => if (if isFilter then
            ((wordsOf patterns).map findPercent).any (fun p => selects p w) else
            !((wordsOf patterns).map findPercent).any (fun p => selects p w)) = true then some w else none)
          = Option.guard (fun w => if isFilter then
            ((wordsOf patterns).map findPercent).any (fun p => selects p w) else
            !((wordsOf patterns).map findPercent).any (fun p => selects p w)) := by
        funext w; unfold Option.guard; rfl
      rw [hf, List.filterMap_eq_filter]
      split
      · rename_i h0
        have : wordsOf text = [] := List.length_eq_zero_iff.mp h0
        rw [this]; rfl
      · rfl
    exact ⟨by rw [key]; rfl, by rw [key]; rfl⟩

/-- Every word of the text is in exactly one of the two results. -/
theorem C07_partition (patterns text : Str) :
    ∃ keep : Str → Bool,
      wordsOf (funcFilter true patterns text) = (wordsOf text).filter keep ∧
      wordsOf (funcFilter false patterns text) = (wordsOf text).filter (fun w => !keep w) := by
  obtain ⟨keep, -, h1, h2⟩ := C07_filter patterns text
  refine ⟨keep, ?_, ?_⟩
  · rw [h1, wordsOf_unwords (fun w hw => mem_wordsOf (List.mem_filter.mp hw).1)]
  · rw [h2, wordsOf_unwords (fun w hw => mem_wordsOf (List.mem_filter.mp hw).1)]

example : WrittenMatches "%.c".toList "foo.c".toList :=
  ⟨.pat [] ".c".toList, ReadsAs.unquoted (a := []) (k := 0) (by decide) (by decide), "foo".toList, rfl⟩

/-! ## C08: subst -/

/-- `$(subst from,to,text)` with a non-empty `from` replaces the occurrences taken from the left
without overlap. -/
theorem C08_subst (sub rep text : Str) (hs : sub ≠ []) :
    ∀ out, Substituted sub rep text out ↔ out = funcSubst sub rep text := by
  have he : funcSubst sub rep text = substGo sub rep false none text := by
    unfold funcSubst substExpand
    have : sub.isEmpty = false := by simpa using hs
    rw [this]; rfl
  intro out
  constructor
  · intro h; rw [he]; exact Substituted_unique hs h none
  · rintro rfl; rw [he]; exact substGo_substituted hs text none

/-- With an empty `from`, `to` is appended at the end of the text. -/
theorem C08_subst_empty (rep text : Str) : funcSubst [] rep text = text ++ rep := rfl

/-- A text in which `from` does not occur is unchanged. -/
theorem C08_subst_absent (sub rep text : Str) (hs : sub ≠ [])
    (h : ∀ i ≤ text.length, ¬ OccursAt sub text i) : funcSubst sub rep text = text :=
  ((C08_subst sub rep text hs text).mp (.none h)).symm

example : funcSubst "aa".toList "b".toList "aaaxaa".toList = "baxb".toList := by
  refine ((C08_subst _ _ _ (by decide) _).mp ?_).symm
  exact Substituted.here (b := []) (rest := "axaa".toList) (out := "axb".toList) (by simp)
    (Substituted.here (sub := "aa".toList) (rep := "b".toList) (b := "ax".toList) (rest := [])
      (out := []) (by intro i hi; match i, hi with
        | 0, _ => simp [OccursAt]
        | 1, _ => simp [OccursAt]) (.none (by simp [OccursAt])))

/-! ## C09, C10: `%` patterns and patsubst -/

/-- `pattern_matches` holds exactly when the word is the pattern with some stem put
in for the `%`. -/
theorem C10_pattern_matches (p : Str) (w : Str) :
    patternMatches (findPercent p) w = true ↔ WrittenMatches p w := by
  rw [patternMatches_iff]
  unfold WrittenMatches findPercent
  constructor
  · intro h; exact ⟨_, (ReadsAs_iff (by decide)).mpr rfl, h⟩
  · rintro ⟨q, hq, hm⟩; rw [(ReadsAs_iff (by decide)).mp hq]; exact hm

/-- The stem is unique. -/
theorem C10_stem_unique (pre post s s' : Str) (h : pre ++ s ++ post = pre ++ s' ++ post) : s = s' := by
  simpa using h

/-- `$(patsubst pat,rep,text)` where `pat` contains an unquoted `%`: each word is mapped on
its own, non-matching words are kept, and the results are separated by single spaces;
a word replaced by an empty replacement without `%` disappears. -/
theorem C09_patsubst_partial (pat rep text pre post : Str) (rp : Pct)
    (hp : ReadsAs '%' pat (.pat pre post)) (hr : ReadsAs '%' rep rp) :
    ∃ f : Str → Option Str,
      (∀ w x, f w = some x → PatsubstWord pre post rp w x) ∧
      (∀ w, f w = none → rp = .lit [] ∧ ∃ stem, w = pre ++ stem ++ post) ∧
      (∀ w, (rp = .lit [] ∧ ∃ stem, w = pre ++ stem ++ post) → f w = none) ∧
      patsubstExpand text pat rep = unwords ((wordsOf text).filterMap f) := by
  have hp' := (ReadsAs_iff (by decide)).mp hp
  have hr' := (ReadsAs_iff (by decide)).mp hr
  unfold patsubstExpand patsubstExpandPat findPercent
  cases hq : findCharUnquote '%' pat with
  | none t => rw [hq] at hp'; cases hp'
  | found pre' c post' =>
    rw [hq] at hp'
    simp only [Unq.toPct, Pct.pat.injEq] at hp'
    obtain ⟨rfl, rfl⟩ := hp'
    simp only [tokens_eq]
    refine ⟨patsubstF pre' post' rp, ?_, ?_, ?_, ?_⟩
    · intro w x hx
      unfold patsubstF at hx
      split at hx
      · rename_i hm
        obtain ⟨stem, hst⟩ := patMatch_iff.mp hm
        left
        refine ⟨stem, hst, ?_⟩
        cases rp with
        | lit r =>
          simp only at hx ⊢
          split at hx
          · cases hx
          · simpa [eq_comm] using hx
        | pat a b =>
          simp only at hx ⊢
          rw [hst, patMatch_stem] at hx
          simpa [eq_comm] using hx
      · rename_i hm
        right
        exact ⟨fun h => hm (patMatch_iff.mpr h), by simpa [eq_comm] using hx⟩
    · intro w hx
      unfold patsubstF at hx
      split at hx
      · rename_i hm
        cases rp with
        | lit r =>
          simp only at hx
          split at hx
          · rename_i h0; exact ⟨by rw [h0], patMatch_iff.mp hm⟩
          · cases hx
        | pat a b => simp at hx
      · cases hx
    · rintro w ⟨h1, h2⟩
      unfold patsubstF
      rw [if_pos (patMatch_iff.mpr h2), h1]; simp
    · have hq2 := hr'
      refine (foldl_words_out_mem _ (patsubstF pre' post' rp) (wordsOf text) ?_)
      intro w hw st
      have hw := (mem_wordsOf hw).1
      unfold patsubstStep
      unfold patsubstF
      cases hm : patMatch pre' post' w with
      | false => simp
      | true =>
        simp only [Bool.not_true, Bool.false_eq_true, if_false, if_true]
        cases hrr : findCharUnquote '%' rep with
        | none r =>
          rw [hrr] at hr'
          simp only [Unq.toPct] at hr'
          subst hr'
          simp only
          by_cases h0 : r = []
          · subst h0; simp
          · have : r.length > 0 := List.length_pos_iff.mpr h0
            simp [h0]
        | found a c2 b =>
          rw [hrr] at hr'
          simp only [Unq.toPct] at hr'
          subst hr'
          have : 0 < w.length := List.length_pos_iff.mpr hw
          simp only
          rw [if_pos (by simp; omega)]
          simp

end Remake
