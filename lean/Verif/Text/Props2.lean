import Verif.Text.Lemmas5
set_option linter.unusedVariables false
/-!
# Properties C09, C11, C12, C14, C15, C17: more text functions
-/
namespace Remake
open Spec

/-! ## findstring -/

/-- `$(findstring find,text)` is `find` exactly when it occurs in the text. -/
theorem C08_findstring (find text : Str) :
    (find <:+: text → funcFindstring find text = find) ∧
    (¬ find <:+: text → funcFindstring find text = []) := by
  unfold funcFindstring
  cases h : strstr find text with
  | some bp =>
    obtain ⟨b, p⟩ := bp
    refine ⟨fun _ => rfl, fun hn => absurd ?_ hn⟩
    exact ⟨b, p.drop find.length, (strstr_split h).symm⟩
  | none =>
    refine ⟨fun ⟨a, b, hab⟩ => ?_, fun _ => rfl⟩
    exact absurd (show OccursAt find text a.length by
      rw [← hab, OccursAt, List.append_assoc, List.drop_left]; exact List.prefix_append _ _)
      (strstr_none h a.length (by rw [← hab]; simp))

/-! ## C09: patsubst without `%` -/

/-- `$(patsubst pat,rep,text)` with a `pat` that has no unquoted `%`: every word equal to
the pattern is replaced, everything else - including the spacing - is kept. -/
theorem C09_patsubst_literal_partial (pat rep text lit : Str) (rp : Pct)
    (hp : ReadsAs '%' pat (.lit lit)) (hne : lit ≠ []) (hns : ∀ c ∈ lit, isSpace c = false)
    (hr : ReadsAs '%' rep rp) :
    ∀ out, WordMapped
      (fun w => if w = lit then rp.text else w)
      text out ↔ patsubstExpand text pat rep = out := by
  have hp' := (ReadsAs_iff (by decide)).mp hp
  have hr' := (ReadsAs_iff (by decide)).mp hr
  have hmain : ∀ out, WordMapped
      (fun w => if w = lit then rp.text else w)
      text out → patsubstExpand text pat rep = out := by
    intro out hw
    unfold patsubstExpand patsubstExpandPat findPercent
    cases hq : findCharUnquote '%' pat with
    | found pre c post => rw [hq] at hp'; cases hp'
    | none t =>
      rw [hq] at hp'
      simp only [Unq.toPct, Pct.lit.injEq] at hp'
      subst hp'
      have hrt : (findCharUnquote '%' rep).text =
          rp.text := by
        cases hrr : findCharUnquote '%' rep with
        | none r => rw [hrr] at hr'; rw [← hr']; rfl
        | found a c b =>
          have hc := findCharUnquote_char hrr
          subst hc
          rw [hrr] at hr'; rw [← hr']; rfl
      simp only [hrt]
      unfold substExpand
      have he : t.isEmpty = false := by simpa using hne
      rw [he]
      simp only [Bool.false_and, Bool.and_false, Bool.false_eq_true, if_false]
      rw [substGo_wm hne hns]
      exact wm_wordMapped hne hns hw
  intro out
  refine ⟨hmain out, ?_⟩
  rintro rfl
  obtain ⟨o, ho⟩ := WordMapped_exists _ text
  rw [hmain o ho]; exact ho

example : patsubstExpand " a  b a".toList "a".toList "xy".toList = " xy  b xy".toList := by
  refine (C09_patsubst_literal_partial _ _ _ "a".toList (.lit "xy".toList) (.none (by decide)) (by decide)
    (by decide) (.none (by decide)) _).mp ?_
  refine WordMapped.word (a := " ".toList) (w := "a".toList) (r := "  b a".toList)
    (out := "  b xy".toList) (by decide) (by decide) (by decide) (by simp [isSpace, isBlank]) ?_
  refine WordMapped.word (a := "  ".toList) (w := "b".toList) (r := " a".toList)
    (out := " xy".toList) (by decide) (by decide) (by decide) (by simp [isSpace, isBlank]) ?_
  exact WordMapped.word (a := " ".toList) (w := "a".toList) (r := [])
    (out := []) (by decide) (by decide) (by decide) (by simp) (.done (by simp))

/-! ## C11: dir, notdir, basename, suffix -/

/-- `$(notdir ...)` and `$(dir ...)`: each word is split at its last slash; a word without a
slash has the directory part `./`. -/
theorem C11_dir_notdir (text : Str) :
    ∃ d n : Str → Str, (∀ w, DirSplit w (d w) (n w)) ∧
      funcBasenameDir false text =
        unwords ((wordsOf text).map (fun w => if d w = [] then ['.', '/'] else d w)) ∧
      funcNotdirSuffix false text = unwords ((wordsOf text).map n) := by
  refine ⟨fun w => (backScan (fun c => c == '/' || (false && c == '.')) w).1,
    fun w => (backScan (fun c => c == '/' || (false && c == '.')) w).2,
    fun w => dirSplit_backScan w (by simp), ?_, ?_⟩
  · unfold funcBasenameDir
    rw [tokens_eq]
    have := foldl_words_out (basenameDirStep false)
      (fun w => some (if (backScan (fun c => c == '/' || (false && c == '.')) w).1 = []
        then ['.', '/'] else (backScan (fun c => c == '/' || (false && c == '.')) w).1))
      (by
        intro st w
        unfold basenameDirStep
        simp only
        split
        · rename_i c hc
          have hne : (backScan (fun c => c == '/' || (false && c == '.')) w).1 ≠ [] := by
            intro h; rw [h] at hc; simp at hc
          simp only [hne, if_false, Bool.not_false, if_true]
        · rename_i hc
          rw [getLast?_none hc]; simp) (wordsOf text)
    simp only
    rw [this, List.filterMap_eq_map']
  · unfold funcNotdirSuffix
    rw [tokens_eq]
    have := foldl_words_out (notdirSuffixStep false)
      (fun w => some (backScan (fun c => c == '/' || (false && c == '.')) w).2)
      (by
        intro st w
        unfold notdirSuffixStep
        simp only
        split
        · simp
        · rename_i hc
          have h1 := backScan_append (fun c => c == '/' || (false && c == '.')) w
          rw [getLast?_none hc] at h1
          simp only [List.nil_append] at h1
          rw [h1]; simp) (wordsOf text)
    simp only
    rw [this, List.filterMap_eq_map']

/-- `$(basename ...)` and `$(suffix ...)`: each word is split before the last dot of its last
component; `suffix` drops the words that have none. -/
theorem C11_basename_suffix (text : Str) :
    ∃ b x : Str → Str, (∀ w, SuffixSplit w (b w) (x w)) ∧
      funcBasenameDir true text = unwords ((wordsOf text).map b) ∧
      funcNotdirSuffix true text = unwords (((wordsOf text).map x).filter (fun s => !s.isEmpty)) := by
  let stop : Char → Bool := fun c => c == '/' || (true && c == '.')
  have hstop : ∀ c, stop c = (c == '/' || c == '.') := by intro c; simp [stop]
  refine ⟨fun w => if (backScan stop w).1.getLast? = some '.' then (backScan stop w).1.dropLast else w,
    fun w => if (backScan stop w).1.getLast? = some '.' then '.' :: (backScan stop w).2 else [],
    ?_, ?_, ?_⟩
  · intro w
    rcases suffixSplit_backScan w hstop with ⟨hd, tl, h1, h2, h3⟩ | ⟨h1, h2⟩
    · dsimp only
      rw [if_pos (by rw [h1]; simp), if_pos (by rw [h1]; simp), h1, h2]
      simpa using h3
    · dsimp only
      rw [if_neg h1, if_neg h1]; exact h2
  · unfold funcBasenameDir
    rw [tokens_eq]
    have := foldl_words_out (basenameDirStep true)
      (fun w => some (if (backScan stop w).1.getLast? = some '.' then (backScan stop w).1.dropLast else w))
      (by
        intro st w
        unfold basenameDirStep
        simp only
        split
        · rename_i c hc
          simp only [stop, hc]
          by_cases h : c = '.' <;> simp [h]
        · rename_i hc
          simp only [stop, hc]; simp) (wordsOf text)
    simp only
    rw [this, List.filterMap_eq_map']
  · unfold funcNotdirSuffix
    rw [tokens_eq]
    have := foldl_words_out (notdirSuffixStep true)
      (fun w => if (backScan stop w).1.getLast? = some '.' then some ('.' :: (backScan stop w).2) else none)
      (by
        intro st w
        unfold notdirSuffixStep
        simp only
        split
        · rename_i c hc
          simp only [stop, hc]
          by_cases h : c = '.'
          · subst h; simp
          · simp [h]
        · rename_i hc
          simp only [stop, hc]; simp) (wordsOf text)
    simp only
    rw [this]
    congr 1
    generalize wordsOf text = ws
    induction ws with
    | nil => rfl
    | cons w ws ih =>
      simp only [List.filterMap_cons, List.map_cons]
      by_cases h : (backScan stop w).1.getLast? = some '.'
      · simp only [h, if_true, List.filter_cons, List.isEmpty_cons, Bool.not_false, ih]
      · simp only [h, if_false, List.filter_cons, List.isEmpty_nil, Bool.not_true,
          Bool.false_eq_true, ih]

/-- Both splits are unique, so the two theorems determine the output. -/
theorem C11_unique {w d n d' n' : Str} :
    (DirSplit w d n → DirSplit w d' n' → d = d' ∧ n = n') ∧
    (SuffixSplit w d n → SuffixSplit w d' n' → d = d' ∧ n = n') :=
  ⟨DirSplit_unique, SuffixSplit_unique⟩

example : DirSplit "src/a.b/foo.c".toList "src/a.b/".toList "foo.c".toList :=
  ⟨by decide, by decide, Or.inr (by decide)⟩
example : SuffixSplit "src/a.b/foo".toList "src/a.b/foo".toList [] :=
  ⟨by decide, Or.inl ⟨rfl, "src/a.b/".toList, "foo".toList, ⟨by decide, by decide, Or.inr (by decide)⟩,
    by decide⟩⟩
example : SuffixSplit "a.tar.gz".toList "a.tar".toList ".gz".toList :=
  ⟨by decide, Or.inr ⟨"gz".toList, by decide, by decide, by decide⟩⟩

/-! ## C12: join, addprefix, addsuffix -/

theorem C12_join (a b : Str) : funcJoin a b = unwords (zipLong (wordsOf a) (wordsOf b)) := by
  unfold funcJoin
  rw [joinGo_eq]
  simpa using killLast_words (zipLong (wordsOf a) (wordsOf b))

theorem C12_addprefix (fix text : Str) :
    funcAddfix true fix text = unwords ((wordsOf text).map (fun w => fix ++ w)) := by
  unfold funcAddfix
  rw [tokens_eq]
  simp only
  rw [foldl_words_out (addfixStep true fix) (fun w => some (fix ++ w))
    (fun st w => by simp [addfixStep]), List.filterMap_eq_map']

theorem C12_addsuffix (fix text : Str) :
    funcAddfix false fix text = unwords ((wordsOf text).map (fun w => w ++ fix)) := by
  unfold funcAddfix
  rw [tokens_eq]
  simp only
  rw [foldl_words_out (addfixStep false fix) (fun w => some (w ++ fix))
    (fun st w => by simp [addfixStep]), List.filterMap_eq_map']

/-- Length and elements of the join: as long as the longer list, element `i` is the
concatenation of the elements `i`. -/
theorem C12_zipLong (xs ys : List Str) :
    (zipLong xs ys).length = max xs.length ys.length ∧
    ∀ i, i < max xs.length ys.length →
      (zipLong xs ys)[i]? = some (xs[i]?.getD [] ++ ys[i]?.getD []) := by
  induction xs generalizing ys with
  | nil =>
    simp only [zipLong, List.length_nil, Nat.zero_max, List.getElem?_nil, Option.getD_none,
      List.nil_append, true_and]
    intro i hi
    rw [List.getElem?_eq_getElem hi]; rfl
  | cons x xs ih =>
    cases ys with
    | nil =>
      simp only [zipLong, List.length_cons, List.length_nil, Nat.max_zero, List.getElem?_nil,
        Option.getD_none, List.append_nil, true_and]
      intro i hi
      rw [List.getElem?_eq_getElem hi]; rfl
    | cons y ys =>
      obtain ⟨h1, h2⟩ := ih ys
      refine ⟨by simp [zipLong, h1], ?_⟩
      intro i hi
      cases i with
      | zero => simp [zipLong]
      | succ i =>
        simp only [zipLong, List.getElem?_cons_succ]
        exact h2 i (by simp at hi; omega)

example : funcJoin "a b c".toList ".x .y".toList = "a.x b.y c".toList := by rw [C12_join]; decide

/-! ## C14: if, or, and -/

/-- `$(if cond,then,else)`: the trimmed condition is expanded at most once (not at all when
blank), then exactly one branch is expanded, untrimmed, in the resulting state. -/
theorem C14_if {σ : Type} (expand : Str → σ → Str × σ) (cond c : Str) (rest : List Str) (s : σ)
    (hc : IsTrim cond c) :
    (c = [] → funcIf expand (cond :: rest) s =
        match rest[1]? with | some e => expand e s | none => ([], s)) ∧
    (c ≠ [] → (expand c s).1 ≠ [] → funcIf expand (cond :: rest) s =
        match rest[0]? with | some t => expand t (expand c s).2 | none => ([], (expand c s).2)) ∧
    (c ≠ [] → (expand c s).1 = [] → funcIf expand (cond :: rest) s =
        match rest[1]? with | some e => expand e (expand c s).2 | none => ([], (expand c s).2)) := by
  have hst : stripWhitespace cond = c := isTrim_unique (isTrim_strip cond) hc
  unfold funcIf
  simp only [hst]
  have ht : rest.tail.head? = rest[1]? := by
    cases rest with
    | nil => rfl
    | cons x xs => cases xs <;> rfl
  have hh : rest.head? = rest[0]? := by cases rest <;> rfl
  refine ⟨?_, ?_, ?_⟩
  · intro h; simp [h, ht]; cases rest[1]? <;> rfl
  · intro h h2
    have e1 : c.isEmpty = false := by simpa using h
    have e2 : (expand c s).1.isEmpty = false := by simpa using h2
    simp [e1, e2, hh]; cases rest[0]? <;> rfl
  · intro h h2
    have e1 : c.isEmpty = false := by simpa using h
    have e2 : (expand c s).1.isEmpty = true := by simpa using h2
    simp [e1, e2, ht]; cases rest[1]? <;> rfl

/-- `$(or ...)`: the arguments that are not blank are expanded, trimmed, from the left, up to
and including the first whose expansion is not empty, which is the value; if there is none all
are expanded and the value is empty. -/
theorem C14_or {σ : Type} (expand : Str → σ → Str × σ) (args : List Str) (s : σ) :
    ∃ cs : List Str, Trims args cs ∧
      ((∃ pre c post s1, cs.filter (fun c => !c.isEmpty) = pre ++ c :: post ∧
          ExpandSeq expand (· = []) pre s s1 ∧ (expand c s1).1 ≠ [] ∧
          funcOr expand args s = expand c s1) ∨
       (∃ s1, ExpandSeq expand (· = []) (cs.filter (fun c => !c.isEmpty)) s s1 ∧
          funcOr expand args s = ([], s1))) := by
  induction args generalizing s with
  | nil => exact ⟨[], .nil, Or.inr ⟨s, .nil, rfl⟩⟩
  | cons a as ih =>
    by_cases h : stripWhitespace a = []
    · obtain ⟨cs, hcs, hor⟩ := ih s
      refine ⟨stripWhitespace a :: cs, .cons (isTrim_strip a) hcs, ?_⟩
      have e : funcOr expand (a :: as) s = funcOr expand as s := by
        rw [funcOr]; simp [h]
      rw [e, h]; simpa using hor
    · have he : (stripWhitespace a).isEmpty = false := by simpa using h
      by_cases h2 : (expand (stripWhitespace a) s).1 = []
      · obtain ⟨cs, hcs, hor⟩ := ih (expand (stripWhitespace a) s).2
        refine ⟨stripWhitespace a :: cs, .cons (isTrim_strip a) hcs, ?_⟩
        have e : funcOr expand (a :: as) s = funcOr expand as (expand (stripWhitespace a) s).2 := by
          rw [funcOr]; simp [he, h2]
        rw [e, List.filter_cons]
        simp only [he, Bool.not_false, if_true]
        rcases hor with ⟨pre, c, post, s1, h3, h4, h5, h6⟩ | ⟨s1, h3, h4⟩
        · exact Or.inl ⟨stripWhitespace a :: pre, c, post, s1, by rw [h3]; rfl, .cons h2 h4, h5, h6⟩
        · exact Or.inr ⟨s1, .cons h2 h3, h4⟩
      · obtain ⟨cs, hcs, -⟩ := ih s
        refine ⟨stripWhitespace a :: cs, .cons (isTrim_strip a) hcs, Or.inl ⟨[], stripWhitespace a,
          cs.filter (fun c => !c.isEmpty), s, ?_, .nil, h2, ?_⟩⟩
        · rw [List.filter_cons]; simp [he]
        · rw [funcOr]; simp [he, h2]

/-- `$(and ...)`: the arguments are expanded, trimmed, from the left; the first that is blank
(not expanded) or expands to nothing makes the value empty and ends the evaluation;
otherwise the value is that of the last one. -/
theorem C14_and {σ : Type} (expand : Str → σ → Str × σ) (args : List Str) (hne : args ≠ []) (s : σ) :
    ∃ cs : List Str, Trims args cs ∧
      ((∃ pre post s1, cs = pre ++ [] :: post ∧ (∀ c ∈ pre, c ≠ []) ∧
          ExpandSeq expand (· ≠ []) pre s s1 ∧ funcAnd expand args s = ([], s1)) ∨
       (∃ pre c post s1, cs = pre ++ c :: post ∧ (∀ c' ∈ pre, c' ≠ []) ∧ c ≠ [] ∧
          ExpandSeq expand (· ≠ []) pre s s1 ∧ (expand c s1).1 = [] ∧
          funcAnd expand args s = ([], (expand c s1).2)) ∨
       (∃ pre c s1, cs = pre ++ [c] ∧ (∀ c' ∈ pre, c' ≠ []) ∧ c ≠ [] ∧
          ExpandSeq expand (· ≠ []) pre s s1 ∧ (expand c s1).1 ≠ [] ∧
          funcAnd expand args s = expand c s1)) := by
  have hall : ∀ as : List Str, Trims as (as.map stripWhitespace) := by
    intro as
    induction as with
    | nil => exact .nil
    | cons a as ih => exact .cons (isTrim_strip a) ih
  refine ⟨args.map stripWhitespace, hall args, ?_⟩
  induction args generalizing s with
  | nil => exact absurd rfl hne
  | cons a as ih =>
    by_cases h : stripWhitespace a = []
    · left
      refine ⟨[], as.map stripWhitespace, s, by simp [h], by simp, .nil, ?_⟩
      rw [funcAnd]; simp [h]
    · have he : (stripWhitespace a).isEmpty = false := by simpa using h
      by_cases h2 : (expand (stripWhitespace a) s).1 = []
      · right; left
        refine ⟨[], stripWhitespace a, as.map stripWhitespace, s, by simp, by simp, h, .nil, h2, ?_⟩
        rw [funcAnd]; simp [he, h2]
      · by_cases has : as = []
        · right; right
          refine ⟨[], stripWhitespace a, s, by simp [has], by simp, h, .nil, h2, ?_⟩
          rw [funcAnd]; simp [he, h2, has]
        · have e : funcAnd expand (a :: as) s = funcAnd expand as (expand (stripWhitespace a) s).2 := by
            rw [funcAnd]; simp [he, h2, has]
          rw [e]
          rcases ih has (expand (stripWhitespace a) s).2 with
            ⟨pre, post, s1, h3, h4, h5, h6⟩ | ⟨pre, c, post, s1, h3, h4, h5, h6, h7, h8⟩ |
            ⟨pre, c, s1, h3, h4, h5, h6, h7, h8⟩
          · left
            exact ⟨stripWhitespace a :: pre, post, s1, by simp [h3], by simpa [h] using h4,
              .cons h2 h5, h6⟩
          · right; left
            exact ⟨stripWhitespace a :: pre, c, post, s1, by simp [h3], by simpa [h] using h4, h5,
              .cons h2 h6, h7, h8⟩
          · right; right
            exact ⟨stripWhitespace a :: pre, c, s1, by simp [h3], by simpa [h] using h4, h5,
              .cons h2 h6, h7, h8⟩

/-- The trimming relation determines the trimmed text. -/
theorem C14_trim_unique {s m m' : Str} (h : IsTrim s m) (h' : IsTrim s m') : m = m' :=
  isTrim_unique h h'

example : IsTrim " a b\t".toList "a b".toList :=
  ⟨" ".toList, "\t".toList, by decide, by decide, by decide, by decide, by decide, by decide⟩

/-! ## C15: output of $(shell) and $(file <) -/

/-- `fold_newlines` with trimming: CR-LF becomes LF, all trailing newlines go, the others
become spaces. -/
theorem C15_fold_trim_partial (buf : Str) (hn : '\x00' ∉ buf) :
    foldNewlines true buf = nlToSpace (rtrimNl (dropCr buf)) := by
  unfold foldNewlines
  rw [foldGo_eq _ _ _ hn]
  simp only [Bool.not_true, Bool.false_and, Bool.false_eq_true, if_false, List.append_nil,
    List.reverse_reverse, List.length_nil, Nat.zero_add]
  obtain ⟨k, hk⟩ := rtrimNl_prefix (dropCr buf)
  generalize rtrimNl (dropCr buf) = r at hk
  rw [hk]
  split
  · rename_i h; subst h; simp [nlToSpace]
  · unfold nlToSpace
    rw [List.map_append, List.take_left' (by simp)]

/-- Without trimming exactly one trailing newline goes. -/
theorem C15_fold_notrim_partial (buf : Str) (hn : '\x00' ∉ buf) :
    foldNewlines false buf = nlToSpace (chompNl (dropCr buf)) := by
  unfold foldNewlines
  rw [foldGo_eq _ _ _ hn]
  simp only [Bool.not_false, Bool.true_and, decide_eq_true_eq, List.append_nil,
    List.reverse_reverse, List.length_nil, Nat.zero_add, List.length_reverse]
  obtain ⟨k, hk⟩ := rtrimNl_prefix (dropCr buf)
  have hlast := rtrimNl_last (dropCr buf)
  generalize rtrimNl (dropCr buf) = r at hk hlast
  have hL : (if r = [] then 0 else r.length) = r.length := by split <;> simp_all
  rw [hL, hk]
  have hlen : (nlToSpace (r ++ List.replicate k '\n')).length = r.length + k := by
    simp [nlToSpace]
  rw [hlen]
  cases k with
  | zero =>
    rw [if_neg (by omega)]
    simp only [List.replicate_zero, List.append_nil]
    unfold chompNl
    rw [if_neg hlast]
    rw [List.take_of_length_le (by simp [nlToSpace])]
  | succ k =>
    have hc : chompNl (r ++ List.replicate (k + 1) '\n') = r ++ List.replicate k '\n' := by
      unfold chompNl
      rw [List.replicate_succ', ← List.append_assoc, if_pos (by simp), List.dropLast_concat]
    rw [hc]
    have e : nlToSpace (r ++ List.replicate (k + 1) '\n') =
        nlToSpace (r ++ List.replicate k '\n') ++ [' '] := by
      rw [List.replicate_succ', ← List.append_assoc]; simp [nlToSpace]
    have hl2 : (nlToSpace (r ++ List.replicate k '\n')).length = r.length + k := by
      simp [nlToSpace]
    rw [e]
    split
    · rw [List.take_left' (by rw [hl2]; omega)]
    · rename_i h
      have : k = 0 := by omega
      subst this
      rw [List.take_left' (by rw [hl2]; omega)]

example : foldNewlines true "a\r\nb\n\n".toList = "a b".toList := by
  rw [C15_fold_trim_partial _ (by decide)]; decide

/-! ## C17: continuation lines -/

/-- `collapse_continuations` computes exactly the collapsed text. -/
theorem C17_collapse (posix : Bool) (s r : Str) :
    Collapsed posix s r ↔ collapseContinuations posix s = r := by
  have hmain : ∀ r, Collapsed posix s r → collapseContinuations posix s = r := by
    intro r h
    unfold collapseContinuations
    cases posix with
    | true => simpa using collapseGo_posix h []
    | false => simpa using (collapseGo_gnu h).1 [] (by simp)
  refine ⟨hmain r, ?_⟩
  rintro rfl
  obtain ⟨r, hr⟩ := Collapsed_exists posix s
  rw [hmain r hr]; exact hr

/-- A text without newline is unchanged. -/
theorem C17_no_newline (posix : Bool) (s : Str) (h : '\n' ∉ s) : collapseContinuations posix s = s :=
  (C17_collapse posix s s).mp (.last h)

theorem wordsOf_mid_space (x y : Str) : wordsOf (x ++ ' ' :: y) = wordsOf x ++ wordsOf y := by
  rw [wordsOf_append_space x (' ' :: y) (by intro c hc; simp at hc; subst hc; rfl),
    wordsOf_cons_space (by rfl)]

theorem wordsOf_dropBlank (s : Str) : wordsOf (s.dropWhile isBlank) = wordsOf s := by
  induction s with
  | nil => rfl
  | cons c cs ih =>
    rw [List.dropWhile_cons]
    split
    · rename_i h; rw [ih, wordsOf_cons_space (by simp [isSpace, h])]
    · rfl

theorem wordsOf_rtrimBlank (s : Str) : wordsOf (rtrimBlank s) = wordsOf s := by
  obtain ⟨b, hb, hb2⟩ := rtrim_split isBlank s
  have hsp : ∀ c ∈ b, isSpace c = true := fun c hc => by simp [isSpace, hb2 c hc]
  have hw : wordsOf b = [] := by
    rw [← wordsOf_dropWhile, dropWhile_all hsp, wordsOf_nil]
  conv => rhs; rw [hb]
  rw [wordsOf_append_space _ _ (fun c hc => hsp c (List.mem_of_head? hc)), hw]
  simp [rtrimBlank]

/-- Continuation lines keep the words: lines that do not end in a backslash, joined by
backslash-newline, collapse to a text with the words of all the lines and no newline. -/
theorem C17_words (posix : Bool) (l : Str) (ls : List Str)
    (hl : ∀ x ∈ l :: ls, '\n' ∉ x ∧ x.getLast? ≠ some '\\') :
    wordsOf (collapseContinuations posix (['\\', '\n'].intercalate (l :: ls))) =
      (l :: ls).flatMap wordsOf := by
  suffices h : ∀ (ls : List Str) (l s r : Str), (∀ x ∈ l :: ls, '\n' ∉ x ∧ x.getLast? ≠ some '\\') →
      (s = ['\\', '\n'].intercalate (l :: ls)) → Collapsed posix s r →
      wordsOf r = (l :: ls).flatMap wordsOf by
    exact h ls l _ _ hl rfl ((C17_collapse posix _ _).mpr rfl)
  intro ls
  induction ls with
  | nil =>
    intro l s r hl hs hc
    have hs' : s = l := by rw [hs]; simp
    subst hs'
    have := (C17_collapse posix _ _).mp hc
    rw [C17_no_newline posix _ (hl _ (by simp)).1] at this
    rw [← this]; simp
  | cons l2 ls ih =>
    intro l s r hl hs hc
    have hs' : s = l ++ List.replicate (2 * 0 + 1) '\\' ++ '\n' :: ['\\', '\n'].intercalate (l2 :: ls) := by
      rw [hs]; simp [List.intercalate, List.intersperse]
    obtain ⟨ho, hoc⟩ := Collapsed_exists posix ((['\\', '\n'].intercalate (l2 :: ls)).dropWhile isBlank)
    have hl0 := hl l (by simp)
    have h2 := Collapsed.cont (posix := posix) (k := 0) hl0.1 hl0.2 hoc
    rw [← hs'] at h2
    have hr := (C17_collapse posix _ _).mp hc
    rw [(C17_collapse posix _ _).mp h2] at hr
    -- words of the remaining text
    have hrest : wordsOf ho = (l2 :: ls).flatMap wordsOf := by
      -- the remaining text starts with the blanks of `l2` removed
      have hb : (['\\', '\n'].intercalate (l2 :: ls)).dropWhile isBlank =
          ['\\', '\n'].intercalate (l2.dropWhile isBlank :: ls) := by
        cases ls with
        | nil => simp [List.intercalate, List.intersperse]
        | cons y ys =>
          simp only [List.intercalate, List.intersperse, List.flatten_cons]
          rw [List.dropWhile_append]
          split
          · rename_i he
            simp only [List.isEmpty_iff] at he
            rw [he]; simp [isBlank]
          · rfl
      rw [hb] at hoc
      have h3 := ih (l2.dropWhile isBlank) _ ho ?_ rfl hoc
      · rw [h3]; simp [wordsOf_dropBlank]
      · intro x hx
        simp only [List.mem_cons] at hx
        rcases hx with rfl | hx
        · have hl2 := hl l2 (by simp)
          constructor
          · exact fun hm => hl2.1 (List.dropWhile_sublist _ |>.subset hm)
          · intro hm
            apply hl2.2
            obtain ⟨t, ht⟩ := List.dropWhile_suffix (l := l2) isBlank
            rw [← ht, List.getLast?_append, hm]; rfl
        · exact hl x (by simp [hx])
    rw [← hr]
    cases posix with
    | true =>
      simp only [if_true, List.replicate_zero, List.append_nil]
      rw [wordsOf_mid_space, hrest]; simp
    | false =>
      simp only [Bool.false_eq_true, if_false, List.replicate_zero, List.append_nil]
      rw [wordsOf_mid_space, wordsOf_dropBlank, wordsOf_rtrimBlank, hrest]; simp

/-- A logical line as `readline` delivers it (every newline preceded by an odd run of
backslashes) collapses to a text without newline. -/
theorem C17_single_line (posix : Bool) (s : Str)
    (hs : ∀ a b, s = a ++ '\n' :: b → ∃ x k, a = x ++ List.replicate (2 * k + 1) '\\' ∧
      x.getLast? ≠ some '\\') :
    '\n' ∉ collapseContinuations posix s := by
  suffices h : ∀ s r, Collapsed posix s r →
      (∀ a b, s = a ++ '\n' :: b → bsCount a.reverse % 2 = 1) → '\n' ∉ r by
    apply h _ _ ((C17_collapse posix _ _).mpr rfl)
    intro a b hab
    obtain ⟨x, k, rfl, hx⟩ := hs a b hab
    rw [List.reverse_append, List.reverse_replicate, bsCount_replicate_append (head?_reverse_ne hx)]
    omega
  intro s r h
  induction h with
  | last hl => intro _; exact hl
  | plain ha hl hrest ih =>
    rename_i a rest out k
    intro hodd
    exfalso
    have := hodd _ _ rfl
    rw [List.reverse_append, List.reverse_replicate, bsCount_replicate_append (head?_reverse_ne hl)] at this
    omega
  | cont ha hl hrest ih =>
    rename_i a rest out k
    intro hodd
    have hout : '\n' ∉ out := by
      apply ih
      intro x y hxy
      have hd := List.takeWhile_append_dropWhile (p := isBlank) (l := rest)
      have := hodd (a ++ List.replicate (2 * k + 1) '\\' ++ '\n' :: (rest.takeWhile isBlank ++ x)) y (by
        conv => lhs; rw [← hd, hxy]
        simp)
      rw [List.reverse_append, List.reverse_cons, List.reverse_append, List.append_assoc,
        List.append_assoc, bsCount_append] at this
      · exact this
      · cases hr : (rest.takeWhile isBlank).reverse with
        | nil => simp
        | cons z zs =>
          have : z ∈ rest.takeWhile isBlank := by
            rw [← List.mem_reverse, hr]; simp
          have := mem_takeWhile_imp this
          intro h; simp at h; rw [h] at this; exact absurd this (by decide)
    have ha' : ∀ m, '\n' ∉ a ++ List.replicate m '\\' := by
      intro m
      simp only [List.mem_append, not_or]
      exact ⟨ha, fun h => by have := List.eq_of_mem_replicate h; simp at this⟩
    split
    · simp only [List.mem_append, List.mem_cons, not_or] at ha' ⊢
      exact ⟨ha' k, by simp, hout⟩
    · simp only [List.mem_append, List.mem_cons, not_or]
      refine ⟨?_, by simp, fun hm => hout ((List.dropWhile_sublist _).subset hm)⟩
      intro hm
      obtain ⟨b, hb, -⟩ := rtrim_split isBlank (a ++ List.replicate k '\\')
      apply ha' k
      rw [hb]
      exact List.mem_append_left _ hm

/-- Collapsing such a line a second time changes nothing. -/
theorem C17_idempotent (posix : Bool) (s : Str)
    (hs : ∀ a b, s = a ++ '\n' :: b → ∃ x k, a = x ++ List.replicate (2 * k + 1) '\\' ∧
      x.getLast? ≠ some '\\') :
    collapseContinuations posix (collapseContinuations posix s) = collapseContinuations posix s :=
  C17_no_newline posix _ (C17_single_line posix s hs)

example : collapseContinuations false "a \\\n  \\\n b".toList = "a b".toList := by decide
example : collapseContinuations true "a \\\n  b".toList = "a  b".toList := by decide

end Remake
