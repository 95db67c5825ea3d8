import Verif.Glob.WildcardLemmas
/-! # Files with wildcards (C124) -/
set_option linter.unusedVariables false
set_option linter.unusedSimpArgs false
namespace Remake
open Spec

/-- C124.  A pattern with directories gives, in order and each one once, the files that it stands for: in a part with
wildcards the names in the directory that match, in a part without the name itself if there is such a file; the last directory is
looked at as make has first read it, those before as they are now.

Partial: backslashes only in parts with wildcards, brackets as in C123, no empty parts; see `C124_trailing_partial` and
`C124_escape`. -/
theorem C124_glob_partial {sys : GlobSys} (hs : FilesOk sys) {coll : Str → Str → Int} {p : PathPat} (hp : p.ok) {names : List Str}
    (h : Globs sys coll p.text names) :
    (∀ q, q ∈ names ↔ Finds (fun q => sys.stat q = true) (Listed sys.opendir) (Listed sys.cached) p q) ∧
    names.Nodup ∧ names.Pairwise fun a b => coll a b ≤ 0 := by
  obtain ⟨l, h1, h2, h3⟩ := h
  obtain ⟨l', g1, g2, g3, g4⟩ := globList_spec hs p hp true false
  rw [h1] at g1
  cases g1
  refine ⟨fun q => ?_, h2.symm.nodup g4, h3⟩
  rw [h2.mem_iff]
  exact ⟨g2 q, fun h => g3 q h (Or.inl rfl)⟩

/-- C124.  There is always an answer, if the order of names is one. -/
theorem C124_answers_partial {sys : GlobSys} (hs : FilesOk sys) {coll : Str → Str → Int}
    (htot : ∀ a b, coll a b ≤ 0 ∨ coll b a ≤ 0) (htr : ∀ a b c, coll a b ≤ 0 → coll b c ≤ 0 → coll a c ≤ 0)
    {p : PathPat} (hp : p.ok) : ∃ names, Globs sys coll p.text names := by
  obtain ⟨l, h, -⟩ := globList_spec hs p hp true false
  refine ⟨l.mergeSort fun a b => decide (coll a b ≤ 0), l, h, List.mergeSort_perm _ _, ?_⟩
  have := List.pairwise_mergeSort (le := fun a b => decide (coll a b ≤ 0)) (by simpa using htr) (by simpa using htot) l
  exact this.imp (by simp)

/-- C124.  A pattern with a slash at the end gives the directories that the pattern before it stands for, with a slash, and no
directory is missing.

Partial: it may also give files that are not directories, without a slash (`C124_slash_file`). -/
theorem C124_trailing_partial {sys : GlobSys} (hs : FilesOk sys) {coll : Str → Str → Int} {p : PathPat} (hp : p.ok)
    (hl : 1 < p.text.length) {names : List Str} (h : Globs sys coll (p.text ++ ['/']) names) :
    (∀ r, Finds (fun q => sys.stat q = true) (Listed sys.opendir) (Listed sys.cached) p r → sys.isDir r = true →
      (r ++ ['/']) ∈ names) ∧
    (∀ q ∈ names, (∃ r, q = r ++ ['/'] ∧ sys.isDir r = true ∧
        Finds (fun q => sys.stat q = true) (Listed sys.opendir) (Listed sys.cached) p r) ∨
      (sys.isDir q = false ∧ Finds (fun q => sys.stat q = true) (Listed sys.opendir) (Listed sys.cached) p q)) := by
  obtain ⟨l, h1, h2, -⟩ := h
  obtain ⟨l', g1, g2, g3, -⟩ := globList_spec hs p hp true true
  have hmark : globList sys true false false (p.text ++ ['/']) = globList sys true true true p.text := by
    have hls := lastSlash_some (d := p.text) (f := []) (by simp)
    rw [globList.eq_def]
    simp only
    split
    · rename_i hs'; rw [hls] at hs'; cases hs'
    · rename_i hs'
      rw [hls] at hs'
      simp at hs'
      rw [hs'.1] at hl
      simp at hl
    · rename_i c d f hs'
      rw [hls] at hs'
      simp at hs'
      obtain ⟨e1, e2⟩ := hs'
      rw [e1] at hl ⊢
      have hd : d ≠ [] := by rintro rfl; simp at hl
      rw [if_pos ⟨e2, hd⟩]
      have hg : (c :: d ++ ['/']).getLast? = some '/' := by rw [List.getLast?_append]; simp
      rw [hg]
      rfl
  have hmap : ∀ only, globList sys true true only p.text = (globList sys true false only p.text).map (globMark sys true) := by
    intro only
    cases p with
    | base abs c =>
      cases abs with
      | false =>
        have ht : PathPat.text (.base false c) = patText c := rfl
        rw [ht, globList_name _ _ _ _ hp.2.1, globList_name _ _ _ _ hp.2.1, Option.map_map]
        congr 1
        funext l
        simp [Function.comp, globMark_false]
      | true =>
        have ht : PathPat.text (.base true c) = [] ++ '/' :: patText c := rfl
        rw [ht, globList_slash _ _ _ _ _ (patText_ne hp.1) hp.2.1, globList_slash _ _ _ _ _ (patText_ne hp.1) hp.2.1,
          if_pos rfl, if_pos rfl, Option.map_map]
        congr 1
        funext l
        simp [Function.comp, globMark_false]
    | sub d c =>
      have ht : PathPat.text (.sub d c) = d.text ++ '/' :: patText c := rfl
      have hne := path_text_ne hp.1
      rw [ht, globList_slash _ _ _ _ _ (patText_ne hp.2.1) hp.2.2.1, globList_slash _ _ _ _ _ (patText_ne hp.2.1) hp.2.2.1,
        if_neg hne.1, if_neg hne.1]
      split
      · cases globList sys false false true d.text with
        | none => rfl
        | some dirs =>
          simp only [Option.map_map]
          congr 1
          funext l
          simp [Function.comp, globMark_false]
      · rw [Option.map_map]
        congr 1
        funext l
        simp [Function.comp, globMark_false]
  rw [hmark, hmap, g1] at h1
  cases h1
  have hmem : ∀ q, q ∈ names ↔ ∃ n ∈ l', (if sys.isDir n = true then n ++ ['/'] else n) = q := by
    intro q
    rw [h2.mem_iff]
    simp [globMark]
  constructor
  · intro r hr hd
    exact (hmem _).2 ⟨r, g3 r hr (Or.inr hd), by rw [if_pos hd]⟩
  · intro q hq
    obtain ⟨n, hn, e⟩ := (hmem q).1 hq
    by_cases hd : sys.isDir n = true
    · rw [if_pos hd] at e
      exact Or.inl ⟨n, e.symm, hd, g2 n hn⟩
    · rw [if_neg hd] at e
      subst e
      exact Or.inr ⟨by simpa using hd, g2 n hn⟩

/-- C124.  `$(wildcard WORDS)` is the files of the first word, then those of the next, and so on, separated by single
blanks; a word that no file matches gives nothing.

Partial: for words without parentheses and that do not start with `~`. -/
theorem C124_wildcard_partial {sys : GlobSys} {coll : Str → Str → Int} {env : FsEnv} (hg : Answers sys coll env.glob)
    {ws : List Str} {text : Str} (h : Listing isBlank true ws text) (h1 : ∀ w ∈ ws, '(' ∉ w) (h2 : ∀ w ∈ ws, w.head? ≠ some '~') :
    ∃ f : Str → List Str, (∀ w ∈ ws, Globs sys coll w (f w)) ∧ stringGlob env text = some (([' '] : Str).intercalate (ws.flatMap f)) := by
  obtain ⟨f, e1, e2⟩ := wild_names hg h1 h2
  refine ⟨f, e2, ?_⟩
  have := wild_listing (env := env) h h1 [] (by intro c hc; cases hc)
  rw [List.nil_append] at this
  unfold stringGlob parseFileSeq
  rw [this, e1]
  simp [dropLast_join]

/-! ## A small tree -/

/-- A path without `./` at its start. -/
def exStrip : Str → Str
  | '.' :: '/' :: t => exStrip t
  | s => s

/-- A directory `a` with a file `x.c`, and a file `b.c`. -/
def exTree : GlobSys where
  stat s := decide (exStrip s ∈ [".".toList, "a".toList, "b.c".toList, "a/x.c".toList])
  isDir s := decide (exStrip s ∈ [".".toList, "a".toList])
  opendir d :=
    if exStrip d = ".".toList then some [{ name := "a".toList }, { name := "b.c".toList, other := true }]
    else if exStrip d = "a".toList then some [{ name := "x.c".toList, other := true }]
    else none
  cached d :=
    if exStrip d = ".".toList then some [{ name := "a".toList }, { name := "b.c".toList, other := true }]
    else if exStrip d = "a".toList then some [{ name := "x.c".toList, other := true }]
    else none

theorem exStrip_name {n : Str} (h : '/' ∉ n) : exStrip n = n := by
  unfold exStrip
  split
  · simp at h
  · rfl

theorem exStrip_cut {n : Str} (hn : n ≠ []) (h : '/' ∉ n) : ∀ d, exStrip (d ++ '/' :: n) =
    if exStrip d = ".".toList then n else exStrip d ++ '/' :: n
  | [] => by simp [exStrip]
  | [c] => by
    by_cases hc : c = '.'
    · subst hc
      simpa [exStrip] using exStrip_name h
    · have e1 : exStrip [c] = [c] := by unfold exStrip; split <;> simp_all
      rw [e1, if_neg (by simp [hc])]
      show exStrip (c :: '/' :: n) = c :: '/' :: n
      unfold exStrip
      split
      · simp_all
      · rfl
  | c :: b :: d => by
    by_cases hc : c = '.' ∧ b = '/'
    · obtain ⟨rfl, rfl⟩ := hc
      exact exStrip_cut hn h d
    · have e1 : exStrip (c :: b :: d) = c :: b :: d := by
        unfold exStrip
        split
        · simp_all
        · rfl
      rw [e1, if_neg (by simp)]
      show exStrip (c :: b :: (d ++ '/' :: n)) = _
      unfold exStrip
      split
      · simp_all
      · rfl

theorem exContents (alt : Bool) (d : Str) : exTree.contents alt d =
    if exStrip d = ".".toList then some [{ name := "a".toList }, { name := "b.c".toList, other := true }]
    else if exStrip d = "a".toList then some [{ name := "x.c".toList, other := true }]
    else none := by
  cases alt <;> rfl

theorem exTree_ok : FilesOk exTree where
  dot n _ := ⟨rfl, rfl⟩
  root n hn := by
    have h1 : ∀ t : Str, exStrip ('/' :: t) = '/' :: t := fun t => rfl
    have h2 : ∀ t : Str, '/' :: t ∉ [".".toList, "a".toList, "b.c".toList, "a/x.c".toList] := by intro t; simp
    have h3 : ∀ t : Str, '/' :: t ∉ [".".toList, "a".toList] := by intro t; simp
    constructor
    · simp only [exTree, h1, decide_eq_false (h2 _)]
    · simp only [exTree, h1, decide_eq_false (h3 _)]
  parent d n hd hn h hst := by
    have hst : exStrip (d ++ '/' :: n) ∈ [".".toList, "a".toList, "b.c".toList, "a/x.c".toList] := by
      simpa only [exTree, decide_eq_true_eq] using hst
    show decide _ = true
    rw [exStrip_cut hn h] at hst
    split at hst
    · rename_i e; rw [e]; decide
    · have : exStrip d ++ '/' :: n = "a".toList ++ '/' :: "x.c".toList := by
        have hsl : '/' ∈ exStrip d ++ '/' :: n := by simp
        simp only [List.mem_cons, List.not_mem_nil, or_false] at hst
        rcases hst with e | e | e | e
        · rw [e] at hsl; exact absurd hsl (by decide)
        · rw [e] at hsl; exact absurd hsl (by decide)
        · rw [e] at hsl; exact absurd hsl (by decide)
        · exact e
      rw [(cut_unique _ _ h (by decide) this).1]
      decide
  isFile d h := by
    have h : exStrip d ∈ [".".toList, "a".toList] := by simpa only [exTree, decide_eq_true_eq] using h
    show decide _ = true
    simp only [List.mem_cons, List.not_mem_nil, or_false] at h
    rcases h with h | h <;> rw [h] <;> decide
  opened alt d l h := by
    rw [exContents] at h
    show decide _ = true
    split at h
    · rename_i e; rw [e]; decide
    · split at h
      · rename_i e; rw [e]; decide
      · cases h
  typed alt d l h e he _ hd := by
    rw [exContents] at h
    have hd : exStrip (d ++ '/' :: e.name) ∈ [".".toList, "a".toList] := by
      simpa only [exTree, decide_eq_true_eq] using hd
    split at h
    · rename_i hs
      cases h
      simp only [List.mem_cons, List.not_mem_nil, or_false] at he
      rcases he with rfl | rfl
      · rfl
      · rw [exStrip_cut (by decide) (by decide), if_pos hs] at hd
        exact absurd hd (by decide)
    · split at h
      · rename_i hs' hs
        cases h
        simp only [List.mem_cons, List.not_mem_nil, or_false] at he
        subst he
        rw [exStrip_cut (by decide) (by decide), if_neg hs', hs] at hd
        exact absurd hd (by decide)
      · cases h
  names alt d l h e he := by
    rw [exContents] at h
    split at h
    · cases h
      simp only [List.mem_cons, List.not_mem_nil, or_false] at he
      rcases he with rfl | rfl <;> decide
    · split at h
      · cases h
        simp only [List.mem_cons, List.not_mem_nil, or_false] at he
        subst he
        decide
      · cases h
  once alt d l h := by
    rw [exContents] at h
    split at h
    · cases h; decide
    · split at h
      · cases h; decide
      · cases h

/-- The pattern `?/*.c`. -/
def exPath : PathPat := .sub (.base false [.any]) [.star, .lit false '.', .lit false 'c']

example : exPath.text = "?/*.c".toList := rfl

example : exPath.ok := by
  refine ⟨⟨by simp, by decide, by simp [GItem.plain], by simp [GItem.wild]⟩, by simp, by decide, ?_, by simp [GItem.wild]⟩
  intro p hp
  simp at hp
  rcases hp with rfl | rfl | rfl <;> simp [GItem.plain]

example : globList exTree true false false "?/*.c".toList = some ["a/x.c".toList] := by decide +kernel
example : globList exTree true false false "*".toList = some ["b.c".toList, "a".toList] := by decide +kernel
/-- A directory with wildcards that is the name of a file is passed over. -/
example : globList exTree true false false "b*/x.c".toList = some [] := by decide +kernel
example : globList exTree true false false "?*/".toList = some ["a/".toList] := by decide +kernel
example : 1 < "b.c".toList.length := by decide

/-- The deviation with slashes at the end: `b.c/` gives the file `b.c`, which is not a directory. -/
theorem C124_slash_file : globList exTree true false false "b.c/".toList = some ["b.c".toList] ∧ exTree.isDir "b.c".toList = false := by
  decide +kernel

/-- The deviation with escapes: the pattern `\a` matches the name `a`, but does not find the file `a`; `\a*` does. -/
theorem C124_escape : fnmatch {} true "\\a".toList "a".toList = some true ∧ exTree.stat "a".toList = true ∧
    globList exTree true false false "\\a".toList = some [] ∧
    globList exTree true false false "\\a*".toList = some ["a".toList] := by
  decide +kernel

/-- A tree in which make has read the directory `a` before the file `y.c` was made there. -/
def exStale : GlobSys := { exTree with
  stat := fun s => exTree.stat s || decide (exStrip s = "a/y.c".toList)
  opendir := fun d => if exStrip d = "a".toList then
      some [{ name := "x.c".toList, other := true }, { name := "y.c".toList, other := true }] else exTree.opendir d }

/-- The last directory is looked at as make has first read it: `a/y*` does not find a file that `a/y.c` finds. -/
theorem C124_stale : globList exStale true false false "a/y*".toList = some [] ∧
    globList exStale true false false "a/y.c".toList = some ["a/y.c".toList] := by
  decide +kernel

/-- Members of archives are lost: `$(wildcard l(*))` gives the name of the archive once for each member. -/
theorem C124_members (tilde : Str → Option Str) : stringGlob { tilde := tilde, glob := fun n => .found [n], arGlob := fun a _ =>
    [a ++ "(m)".toList, a ++ "(n)".toList] } "l(*)".toList = some "l l".toList := by
  have h1 : nextToken "l(*)".toList = 'l' :: "(*)".toList := by decide
  have h2 : seqWord (findMap wildFlags fun _ => false) ('l' :: "(*)".toList) = ("l(*)".toList, []) := by decide +kernel
  unfold stringGlob parseFileSeq
  rw [parseSeq_word h1 rfl h2]
  simp [parseSeq_end (p := []) rfl, wildFlags, groupOpen, groupElement, consNames, elementNames, arName, arParseName]

end Remake
