import Verif.Vpath.Library
/-!
# Properties of search paths

C38 (order of the search), C76 (memory), C77 (libraries), C78 (GPATH).
-/
set_option linter.unusedVariables false
set_option linter.unusedSimpArgs false
namespace Remake
open Remake.Spec

/-! ## Entries -/

/-- What holds of every entry: its directories are not empty and not longer than `maxlen`. -/
def EntryGood (e : VpathEntry) : Prop := ∀ d ∈ e.dirs, d ≠ [] ∧ d.length ≤ e.maxlen

theorem entryOf_good (q : Unq) (t : Str) : EntryGood (entryOf q t) :=
  fun d hd => ⟨mem_dirsOf (s := t) hd, entryOf_max q t d hd⟩

theorem construct_good (p d : Option Str) (vs : List VpathEntry) (h : ∀ e ∈ vs, EntryGood e) :
    ∀ e ∈ constructVpath p d vs, EntryGood e := by
  cases d with
  | none =>
    cases p with
    | none => intro e he; simp [constructVpath] at he
    | some p => intro e he; exact h e (List.mem_filter.1 he).1
  | some d =>
    rw [construct_some]
    split
    · exact h
    · intro e he
      rcases List.mem_cons.1 he with rfl | he
      · exact entryOf_good _ _
      · exact h e he

theorem vpathLine_good (t : Str) (vs : List VpathEntry) (h : ∀ e ∈ vs, EntryGood e) :
    ∀ e ∈ vpathLine t vs, EntryGood e := by
  unfold vpathLine
  split
  · exact construct_good _ _ _ h
  · split <;> exact construct_good _ _ _ h

theorem foldl_good (lines : List Str) (vs : List VpathEntry) (h : ∀ e ∈ vs, EntryGood e) :
    ∀ e ∈ lines.foldl (fun v t => vpathLine t v) vs, EntryGood e := by
  induction lines generalizing vs with
  | nil => exact h
  | cons t ts ih => exact ih _ (vpathLine_good t vs h)

theorem buildPath_good (t : Str) : ∀ e, buildPath t = some e → EntryGood e := by
  intro e he
  obtain ⟨h1, h2⟩ := (buildPath_spec t).2 e he
  exact fun d hd => ⟨mem_dirsOf (s := t) (h1 ▸ hd), h2 d hd⟩

/-- The lists of the program are those of the specification. -/
theorem readVpaths_lists (lines : List (Str × VpathDirective)) (h : ∀ p ∈ lines, VpathReads p.1 p.2) (vpath gpath : Str) :
    (readVpaths (lines.map (·.1)) vpath gpath).vpaths.map seen = inForce (lines.map (·.2)) ∧
    (readVpaths (lines.map (·.1)) vpath gpath).general.toList.map seen =
      (if dirsOf vpath = [] then [] else [(Pct.pat [] [], dirsOf vpath)]) := by
  constructor
  · have := (vpathLines_spec lines h [] (by simp [EntriesOk])).2
    simp only [List.reverse_nil, List.map_nil, List.filter_nil, List.nil_append] at this
    unfold readVpaths buildVpathLists
    simp only [List.foldl_map]
    exact this
  · have := (buildPath_spec vpath).1
    unfold readVpaths buildVpathLists
    simp only
    rw [← this]
    cases buildPath vpath <;> rfl

/-- Usable directories, seen from the specification. -/
def NoSlashAtEnd (ds : List VpathDirective) (vpath : Str) : Prop :=
  ∀ e ∈ searchLists ds vpath, ∀ d ∈ e.2, d.getLast? ≠ some '/'

theorem lists_ok (lines : List (Str × VpathDirective)) (h : ∀ p ∈ lines, VpathReads p.1 p.2) (vpath gpath : Str)
    (hd : NoSlashAtEnd (lines.map (·.2)) vpath) :
    (∀ e ∈ (readVpaths (lines.map (·.1)) vpath gpath).vpaths, DirsOk e.dirs) ∧
    ∀ e, (readVpaths (lines.map (·.1)) vpath gpath).general = some e → DirsOk e.dirs ∧ e.pat.toPct = .pat [] [] := by
  obtain ⟨h1, h2⟩ := readVpaths_lists lines h vpath gpath
  have hg : ∀ e ∈ (readVpaths (lines.map (·.1)) vpath gpath).vpaths, EntryGood e := by
    intro e he
    unfold readVpaths buildVpathLists at he
    exact foldl_good _ [] (by simp) e (List.mem_reverse.1 he)
  constructor
  · intro e he d hdm
    refine ⟨(hg e he d hdm).1, ?_⟩
    refine hd (seen e) ?_ d hdm
    unfold searchLists
    rw [← h1]
    exact List.mem_append_left _ (List.mem_map_of_mem he)
  · intro e he
    have he' : buildPath vpath = some e := he
    rw [he] at h2
    have hm : seen e ∈ (if dirsOf vpath = [] then [] else [(Pct.pat [] [], dirsOf vpath)]) := by rw [← h2]; simp
    have hm2 : seen e ∈ searchLists (lines.map (·.2)) vpath := List.mem_append_right _ hm
    constructor
    · intro d hdm
      exact ⟨(buildPath_good vpath e he' d hdm).1, hd (seen e) hm2 d hdm⟩
    · split at hm
      · simp at hm
      · simp only [List.mem_singleton] at hm
        exact congrArg Prod.fst hm

/-! ## C38 -/

/-- **C38.**  For every sequence of `vpath` lines, every `VPATH` and every world: the search gives the first
directory that has the file (mentioned in the makefile or existing), taking the directives in force whose
pattern matches in their order and then `VPATH`; and nothing if none has it.  Missing for the full
statement: directories that end with a slash (`C38_root_directory`) and names with a double slash
(`C38_double_slash`), where it is false. -/
theorem C38_search_partial (env : VpathEnv) (lines : List (Str × VpathDirective)) (vpath gpath file : Str)
    (hl : ∀ p ∈ lines, VpathReads p.1 p.2) (hf : Regular file) (hd : NoSlashAtEnd (lines.map (·.2)) vpath) :
    let r := (vpathSearch env (readVpaths (lines.map (·.1)) vpath gpath) file).1
    (r = .no ∧ FirstIn env file (places (lines.map (·.2)) vpath file) none) ∨
    ∃ n t, r = .yes n t ∧ FirstIn env file (places (lines.map (·.2)) vpath file) (some (n, t)) := by
  intro r
  obtain ⟨h1, h2⟩ := readVpaths_lists lines hl vpath gpath
  obtain ⟨h3, h4⟩ := lists_ok lines hl vpath gpath hd
  generalize hL : readVpaths (lines.map (·.1)) vpath gpath = L at *
  have hpl : (L.vpaths.filter (fun e => patternMatches e.pat file)).flatMap (·.dirs) ++
      (match L.general with | none => [] | some e => e.dirs) = places (lines.map (·.2)) vpath file := by
    unfold places
    congr 1
    · rw [← h1, List.filter_map, List.flatMap_map]
      congr 1
      apply List.filter_congr
      intro e he
      rw [Bool.eq_iff_iff, patternMatches_iff]
      exact (@decide_eq_true_iff _ (Classical.propDecidable _)).symm
    · cases hg : L.general with
      | none =>
        rw [hg] at h2
        split at h2
        · rename_i hh; rw [hh]
        · simp at h2
      | some e =>
        rw [hg] at h2
        split at h2
        · simp at h2
        · simp only [Option.toList_some, List.map_cons, List.map_nil, List.cons.injEq, and_true] at h2
          exact congrArg Prod.snd h2
  obtain ⟨x, k1, k2⟩ := vpathLoop_spec env file hf L.general (fun e he => (h4 e he).1) L.vpaths h3 0
  have k2 : FirstIn env file (places (lines.map (·.2)) vpath file) x := by
    rw [← hpl]
    obtain ⟨vs, g, gp⟩ := L
    cases g <;> exact k2
  have hr : r = (vpathLoop env L.general file 0 L.vpaths).1 := by
    have hrL : r = (vpathSearch env L file).1 := by rw [← hL]
    rw [hrL]
    unfold vpathSearch
    split
    · rename_i hc
      rcases hc with hc | ⟨hc1, hc2⟩
      · exact absurd hc hf.1
      · rw [hc1, hc2]; rfl
    · rfl
  rw [← hr] at k1
  cases hrr : r with
  | no => rw [hrr] at k1; simp only [hitOf, Option.some.injEq] at k1; subst k1; exact Or.inl ⟨rfl, k2⟩
  | yes n t => rw [hrr] at k1; simp only [hitOf, Option.some.injEq] at k1; subst k1; exact Or.inr ⟨n, t, rfl, k2⟩
  | overrun => rw [hrr] at k1; simp [hitOf] at k1

/-- **C38.**  Names that start at the root are not searched for. -/
theorem C38_absolute (env : VpathEnv) (l : VpathLists) (file : Str) (h : file.head? = some '/') :
    (vpathSearch env l file).1 = .no := by
  unfold vpathSearch
  rw [if_pos (Or.inl h)]

/-- **C38.**  Every `vpath` line has a reading, so the hypothesis of `C38_search_partial` on the lines can always be met. -/
theorem C38_lines (s : Str) : ∃ d, VpathReads s d := by
  have hbl : ∀ (s : Str), ∃ a r, s = a ++ r ∧ (∀ c ∈ a, isSpace c = true) ∧ ∀ c, r.head? = some c → isSpace c = false := by
    intro s
    refine ⟨s.takeWhile isSpace, s.dropWhile isSpace, List.takeWhile_append_dropWhile.symm, fun c hc => mem_takeWhile_imp hc, ?_⟩
    intro c hc
    cases hd : s.dropWhile isSpace with
    | nil => rw [hd] at hc; simp at hc
    | cons x xs =>
      have := List.head_dropWhile_not isSpace (l := s) (by simp [hd])
      rw [hd] at hc
      simp only [List.head?_cons, Option.some.injEq] at hc
      subst hc
      simpa [hd] using this
  obtain ⟨a, r, rfl, ha, hr⟩ := hbl s
  by_cases hre : r = []
  · subst hre; exact ⟨.clear, .clear (by simpa using ha)⟩
  · have hsplit := (List.takeWhile_append_dropWhile (p := fun c => !isSpace c) (l := r)).symm
    have hns : ∀ c ∈ r.takeWhile (fun c => !isSpace c), isSpace c = false := fun c hc => by simpa using mem_takeWhile_imp hc
    have hwne : r.takeWhile (fun c => !isSpace c) ≠ [] := by
      cases r with
      | nil => exact absurd rfl hre
      | cons c cs => simp [hr c rfl]
    generalize r.takeWhile (fun c => !isSpace c) = w at *
    obtain ⟨q, hq⟩ := ReadsAs_exists (stop := '%') w
    obtain ⟨b, r2, he, hb, hr2⟩ := hbl (r.dropWhile (fun c => !isSpace c))
    have hhead : ∀ c, (b ++ r2).head? = some c → isSpace c = true := by
      intro c hc
      rw [← he] at hc
      cases hd : r.dropWhile (fun c => !isSpace c) with
      | nil => rw [hd] at hc; simp at hc
      | cons x xs =>
        have := List.head_dropWhile_not (fun c => !isSpace c) (l := r) (by simp [hd])
        rw [hd] at hc
        simp only [List.head?_cons, Option.some.injEq] at hc
        subst hc
        simpa [hd] using this
    rw [hsplit, he]
    by_cases hr2e : r2 = []
    · subst hr2e
      exact ⟨.remove q, by simpa using VpathReads.remove ha hwne hns hb hq⟩
    · have hbne : b ≠ [] := by
        rintro rfl
        cases r2 with
        | nil => exact hr2e rfl
        | cons x xs =>
          have h1 := hhead x rfl
          have h2 := hr2 x rfl
          rw [h1] at h2; exact absurd h2 (by simp)
      exact ⟨.add q (dirsOf r2), by simpa using VpathReads.add ha hwne hns hb hbne hr2e hr2 hq⟩

/-- A world in which exactly these files exist, and the makefile mentions nothing. -/
def worldOf (files : List Str) : VpathEnv where
  lookup _ := none
  dirHas d b := decide ((if d = ['/'] then d ++ b else d ++ '/' :: b) ∈ files)
  stat n := if n ∈ files then some 1 else none

/-- `vpath %.c src:lib`, `vpath %.c gen`, `vpath %.h inc`, `vpath %.h` (taken back), and `VPATH = all`. -/
def demoLines : List (Str × VpathDirective) :=
  [(" %.c src/:lib ".toList, .add (.pat [] ".c".toList) ["src".toList, "lib".toList]),
   (" %.h inc".toList, .add (.pat [] ".h".toList) ["inc".toList]),
   ("%.c . gen".toList, .add (.pat [] ".c".toList) ["gen".toList]),
   ("%.h".toList, .remove (.pat [] ".h".toList))]

example : ∀ p ∈ demoLines, VpathReads p.1 p.2 := by
  have hq : ∀ x : Char, x ≠ '\\' → x ≠ '%' → ReadsAs '%' ['%', '.', x] (.pat [] ['.', x]) := by
    intro x _ _
    exact ReadsAs.unquoted (a := []) (k := 0) (post := ['.', x]) (by simp) (by simp)
  intro p hp
  simp only [demoLines, List.mem_cons, List.not_mem_nil, or_false] at hp
  rcases hp with rfl | rfl | rfl | rfl
  · exact VpathReads.add (a := [' ']) (w := "%.c".toList) (b := [' ']) (r := "src/:lib ".toList) (by decide) (by decide) (by decide) (by decide) (by decide) (by decide) (by decide) (hq 'c' (by decide) (by decide))
  · exact VpathReads.add (a := [' ']) (w := "%.h".toList) (b := [' ']) (r := "inc".toList) (by decide) (by decide) (by decide) (by decide) (by decide) (by decide) (by decide) (hq 'h' (by decide) (by decide))
  · exact VpathReads.add (a := []) (w := "%.c".toList) (b := [' ']) (r := ". gen".toList) (by decide) (by decide) (by decide) (by decide) (by decide) (by decide) (by decide) (hq 'c' (by decide) (by decide))
  · exact VpathReads.remove (a := []) (w := "%.h".toList) (b := []) (by decide) (by decide) (by decide) (by decide) (hq 'h' (by decide) (by decide))

example : inForce (demoLines.map (·.2)) = [(.pat [] ".c".toList, ["src".toList, "lib".toList]), (.pat [] ".c".toList, ["gen".toList])] := by
  decide
example : NoSlashAtEnd (demoLines.map (·.2)) "all".toList := by unfold NoSlashAtEnd; decide
example : Regular "sub/x.c".toList := by
  refine ⟨by decide, ?_⟩
  intro d b h hb
  have := dirPrefix_split _ d b h hb
  rw [← this]
  decide

/-- A run. -/
theorem C38_demo :
    (vpathSearch (worldOf ["gen/sub/x.c".toList, "all/sub/x.c".toList]) (readVpaths (demoLines.map (·.1)) "all".toList []) "sub/x.c".toList).1 =
      .yes "gen/sub/x.c".toList (.stat 1) ∧
    (vpathSearch (worldOf ["inc/x.h".toList, "all/x.h".toList]) (readVpaths (demoLines.map (·.1)) "all".toList []) "x.h".toList).1 =
      .yes "all/x.h".toList (.stat 1) ∧
    (vpathSearch (worldOf ["inc/x.h".toList]) (readVpaths (demoLines.map (·.1)) "all".toList []) "x.h".toList).1 = .no := by
  decide +kernel

/-- **C38 does not hold in full**: with the root as search directory, `foo` is not found though `/foo`
exists; and if there is also a file `//oo`, that one is returned for `foo`. -/
theorem C38_root_directory :
    (vpathSearch (worldOf ["/foo".toList]) (readVpaths [] "/".toList []) "foo".toList).1 = .no ∧
    (vpathSearch (worldOf ["/foo".toList, "//oo".toList]) (readVpaths [] "/".toList []) "foo".toList).1 =
      .yes "//oo".toList (.stat 1) ∧
    (vpathSearch (worldOf ["d//foo".toList]) (readVpaths [] "d//".toList []) "foo".toList).1 = .no := by
  decide +kernel

/-- **C38 does not hold in full**: for the name `a//bc` with `VPATH = d`, the existing `d/a//bc` is not
found. -/
theorem C38_double_slash :
    (vpathSearch { worldOf ["d/a//bc".toList] with dirHas := fun d b => decide (d = "d/a/".toList ∧ b = "bc".toList) }
      (readVpaths [] "d".toList []) "a//bc".toList).1 = .no := by
  decide +kernel

/-! ## C76: memory -/

/-- **C76.**  The array of directories has room for all of them and the terminating nil. -/
theorem C76_list (text : Str) : (splitDirs 0 (skipSeps text)).1.length + 1 ≤ maxElem text := by
  rw [(splitDirs_eq 0 (skipSeps text) (skipSeps_head text)).1, dirsOf_skip]
  exact dirsOf_length text

/-- **C76.**  The name built for a directory fits in the memory set aside for it, whatever lines were
read and whatever name is searched for. -/
theorem C76_name (lines : List Str) (vpath gpath file : Str) (e : VpathEntry)
    (he : e ∈ (readVpaths lines vpath gpath).vpaths ∨ (readVpaths lines vpath gpath).general = some e)
    (d : Str) (hd : d ∈ e.dirs) : nameUsed d file ≤ nameRoom e.maxlen file := by
  apply nameUsed_le
  rcases he with he | he
  · unfold readVpaths buildVpathLists at he
    exact (foldl_good _ [] (by simp) e (List.mem_reverse.1 he) d hd).2
  · exact (buildPath_good vpath e he d hd).2

/-- **C76.**  The name is never read beyond its end, for regular names and directories.  Missing for the
full statement: `C76_overrun`. -/
theorem C76_reads_partial (env : VpathEnv) (lines : List (Str × VpathDirective)) (vpath gpath file : Str)
    (hl : ∀ p ∈ lines, VpathReads p.1 p.2) (hf : Regular file) (hd : NoSlashAtEnd (lines.map (·.2)) vpath) :
    (vpathSearch env (readVpaths (lines.map (·.1)) vpath gpath) file).1 ≠ .overrun := by
  rcases C38_search_partial env lines vpath gpath file hl hf hd with ⟨h, _⟩ | ⟨n, t, h, _⟩ <;> rw [h] <;> simp

example : (splitDirs 0 (skipSeps ": a:b/ c".toList)) = (["a".toList, "b".toList, "c".toList], 1) ∧
    maxElem ": a:b/ c".toList = 4 := by decide +kernel

/-- **C76 does not hold in full**: for the name `a//`, if the directory `d/a/` exists, the NUL that ends
the name is overwritten and the name is read beyond it. -/
theorem C76_overrun :
    (vpathSearch { worldOf [] with dirHas := fun d b => decide (d = "d/a/".toList ∧ b = []) }
      (readVpaths [] "d".toList []) "a//".toList).1 = .overrun := by
  decide +kernel

/-! ## C77: libraries -/

theorem vpathSearch_index (env : VpathEnv) (lines : List (Str × VpathDirective)) (vpath gpath : Str)
    (hl : ∀ p ∈ lines, VpathReads p.1 p.2) (hd : NoSlashAtEnd (lines.map (·.2)) vpath) (n : Str) (hn : Regular n) :
    (∃ k, vpathSearch env (readVpaths (lines.map (·.1)) vpath gpath) n = (.no, k) ∧
      ∀ i j r, ¬ FoundAt env (searchLists (lines.map (·.2)) vpath) n i j r) ∨
    ∃ i j r t, vpathSearch env (readVpaths (lines.map (·.1)) vpath gpath) n = (.yes r t, i, j) ∧
      FoundAt env (searchLists (lines.map (·.2)) vpath) n i j r ∧
      ∀ i' j' r', PlaceLt i' j' i j → ¬ FoundAt env (searchLists (lines.map (·.2)) vpath) n i' j' r' := by
  obtain ⟨h1, h2⟩ := readVpaths_lists lines hl vpath gpath
  obtain ⟨h3, h4⟩ := lists_ok lines hl vpath gpath hd
  generalize readVpaths (lines.map (·.1)) vpath gpath = L at *
  have hs : L.vpaths.map seen ++ L.general.toList.map seen = searchLists (lines.map (·.2)) vpath := by
    rw [h1, h2]; rfl
  have hr := vpathLoop_index env n hn L.general h4 L.vpaths h3 0
  rw [hs] at hr
  have he : vpathSearch env L n = if L.vpaths = [] ∧ L.general = none then (.no, 0, 0) else vpathLoop env L.general n 0 L.vpaths := by
    unfold vpathSearch
    have := hn.1
    simp [this]
  rw [he]
  split
  · rename_i hc
    rcases hr with ⟨k, e, hno⟩ | ⟨k, j, r, t, e, _⟩
    · exact Or.inl ⟨(0, 0), rfl, hno⟩
    · rw [hc.1, hc.2] at e; simp [vpathLoop] at e
  · rcases hr with ⟨k, e, hno⟩ | ⟨k, j, r, t, e, hfa, hlt⟩
    · exact Or.inl ⟨k, e, hno⟩
    · exact Or.inr ⟨k, j, r, t, by simpa using e, hfa, hlt⟩

/-- **C77.**  A library is the file in the earliest place that has one of the names made from
`.LIBPATTERNS`: the current directory, the search directories in order, the standard directories; in that
place the first name counts.  Missing for the full statement: names and directories that are not
regular, as for C38, and more than about four thousand million directives. -/
theorem C77_library_partial (env : VpathEnv) (lines : List (Str × VpathDirective)) (vpath gpath : Str) (std : List Str)
    (patterns lib : Str) (hl : ∀ p ∈ lines, VpathReads p.1 p.2) (hd : NoSlashAtEnd (lines.map (·.2)) vpath)
    (hr : ∀ n ∈ libNames patterns lib, Regular n)
    (hsize : (searchLists (lines.map (·.2)) vpath).length + std.length < 2 ^ 32) :
    ∃ res, librarySearch env (readVpaths (lines.map (·.1)) vpath gpath) std patterns lib = some res ∧
      LibFound env (searchLists (lines.map (·.2)) vpath) std (libNames patterns lib) res := by
  have hloop := libLoop_ok env (readVpaths (lines.map (·.1)) vpath gpath) (searchLists (lines.map (·.2)) vpath) std
    (2 ^ 32 - 1 - std.length) (by omega) (fun n hn => vpathSearch_index env lines vpath gpath hl hd n hn)
    (libNames patterns lib) [] hr none (by simp [BestOk])
  unfold librarySearch
  rcases hloop with ⟨a, n, c, h1, h2, h3, h4⟩ | ⟨h1, best, h2, h3⟩
  · exact ⟨some n, h4, .here h1 h2 h3⟩
  · exact ⟨_, h2, bestOk_found h1 (by simpa using h3)⟩

/-- **C77.**  The names of a library: one for each word of `.LIBPATTERNS` with a `%`, which stands for the
name after `-l`. -/
theorem C77_names (patterns lib : Str) :
    ∀ n, n ∈ libNames patterns lib ↔
      ∃ w ∈ wordsOf patterns, ∃ pre post, ReadsAs '%' w (.pat pre post) ∧ n = pre ++ lib ++ post := by
  intro n
  unfold libNames
  rw [tokens_eq]
  simp only [List.mem_filterMap]
  constructor
  · rintro ⟨w, hw, h⟩
    cases hp : findPercent w with
    | none s => rw [hp] at h; simp at h
    | found pre c post =>
      rw [hp] at h
      simp only [Option.some.injEq] at h
      exact ⟨w, hw, pre, post, (ReadsAs_iff (by decide)).2 (by show (findPercent w).toPct = _; rw [hp]; rfl), h.symm⟩
  · rintro ⟨w, hw, pre, post, hq, rfl⟩
    refine ⟨w, hw, ?_⟩
    have := findPercent_reads hq
    cases hp : findPercent w with
    | none s => rw [hp] at this; simp [Unq.toPct] at this
    | found pre' c post' =>
      rw [hp] at this
      simp only [Unq.toPct, Pct.pat.injEq] at this
      rw [this.1, this.2]

/-- The later pattern in the earlier directory wins. -/
theorem C77_demo :
    librarySearch (worldOf ["b/libm.so".toList, "a/libm.a".toList, "/lib/libm.so".toList])
      (readVpaths ["% a b".toList] [] []) ["/lib".toList] "lib%.so lib%.a".toList "m".toList = some (some "a/libm.a".toList) ∧
    librarySearch (worldOf ["b/libm.so".toList, "a/libm.a".toList, "libm.a".toList])
      (readVpaths ["% a b".toList] [] []) ["/lib".toList] "lib%.so x lib%.a".toList "m".toList = some (some "libm.a".toList) ∧
    librarySearch (worldOf ["/usr/lib/libm.so".toList, "/lib/libm.a".toList])
      (readVpaths ["% a b".toList] [] []) ["/lib".toList, "/usr/lib".toList] "lib%.so lib%.a".toList "m".toList = some (some "/lib/libm.a".toList) := by
  decide +kernel

/-! ## C78: GPATH -/

theorem gpathSearch_iff (lines : List Str) (vpath gpath dir : Str) :
    gpathSearch (readVpaths lines vpath gpath) dir = true ↔ dir ∈ dirsOf gpath := by
  unfold gpathSearch readVpaths buildVpathLists
  simp only
  have h := (buildPath_spec gpath)
  cases hb : buildPath gpath with
  | none =>
    rw [hb] at h
    simp only
    have hd : dirsOf gpath = [] := by
      have h1 := h.1
      by_cases hd : dirsOf gpath = []
      · exact hd
      · rw [if_neg hd] at h1; exact absurd h1 (by simp)
    rw [hd]; simp
  | some e =>
    obtain ⟨h1, h2⟩ := h.2 e hb
    simp only [Bool.and_eq_true, decide_eq_true_eq, List.any_eq_true, beq_iff_eq]
    constructor
    · rintro ⟨_, d, hd, rfl⟩; rw [← h1]; exact hd
    · intro hd
      rw [← h1] at hd
      exact ⟨h2 dir hd, dir, hd, rfl⟩

theorem applyGpath_joined (l : VpathLists) (d file : Str) :
    applyGpath l file (joinedDir d file) = if gpathSearch l d then .renamed (joinedDir d file) else .rehashed (joinedDir d file) := by
  unfold applyGpath
  have hlen : (joinedDir d file).length = d.length + 1 + file.length := by simp [joinedDir]; omega
  rw [if_neg (by omega)]
  have hn : (joinedDir d file).length - file.length = d.length + 1 := by omega
  simp only [hn]
  have hc : (joinedDir d file)[d.length + 1 - 1]? = some '/' := by simp [joinedDir]
  rw [if_pos hc]
  have ht : (joinedDir d file).take (d.length + 1 - 1) = d := by simp [joinedDir]
  rw [ht]

/-- **C78.**  A missing file found in a search directory is known by its new name at once exactly if the
directory is listed in `GPATH`; otherwise the new name is used only if the file need not be remade.
Missing for the full statement: names and directories that are not regular, as for C38, and libraries
(`C78_library`, `C78_outside`). -/
theorem C78_gpath_partial (env : VpathEnv) (lines : List (Str × VpathDirective)) (vpath gpath file : Str)
    (std : List Str) (patterns d : Str) (t : VpathTime)
    (hl : ∀ p ∈ lines, VpathReads p.1 p.2) (hf : Regular file) (hd : NoSlashAtEnd (lines.map (·.2)) vpath)
    (h : FirstIn env file (places (lines.map (·.2)) vpath file) (some (joinedDir d file, t))) :
    searchFile env (readVpaths (lines.map (·.1)) vpath gpath) std patterns file =
      if d ∈ dirsOf gpath then .renamed (joinedDir d file) else .rehashed (joinedDir d file) := by
  have := C38_search_partial env lines vpath gpath file hl hf hd
  simp only at this
  rcases this with ⟨_, h2⟩ | ⟨n, t', h1, h2⟩
  · exact absurd (firstIn_unique h2 h) (by simp)
  · have hu := firstIn_unique h2 h
    simp only [Option.some.injEq, Prod.mk.injEq] at hu
    obtain ⟨rfl, rfl⟩ := hu
    unfold searchFile
    rw [h1]
    simp only
    rw [applyGpath_joined]
    by_cases hg : d ∈ dirsOf gpath
    · rw [if_pos ((gpathSearch_iff ..).2 hg), if_pos hg]
    · rw [if_neg (fun hh => hg ((gpathSearch_iff ..).1 hh)), if_neg hg]

/-- **C78.**  A file that is in no search directory and is not a library stays missing. -/
theorem C78_missing_partial (env : VpathEnv) (lines : List (Str × VpathDirective)) (vpath gpath file : Str)
    (std : List Str) (patterns : Str)
    (hl : ∀ p ∈ lines, VpathReads p.1 p.2) (hf : Regular file) (hd : NoSlashAtEnd (lines.map (·.2)) vpath)
    (h : FirstIn env file (places (lines.map (·.2)) vpath file) none) (hlib : ∀ x, file ≠ '-' :: 'l' :: x) :
    searchFile env (readVpaths (lines.map (·.1)) vpath gpath) std patterns file = .missing := by
  have := C38_search_partial env lines vpath gpath file hl hf hd
  simp only at this
  rcases this with ⟨h1, _⟩ | ⟨n, t', h1, h2⟩
  · unfold searchFile
    rw [h1]
    simp only
    rw [if_neg]
    intro ht
    match file, ht with
    | a :: b :: r, ht =>
      simp only [List.take_succ_cons, List.take_zero, List.cons.injEq, and_true] at ht
      exact hlib r (by rw [ht.1, ht.2])
  · exact absurd (firstIn_unique h2 h) (by simp)

/-- Runs. -/
theorem C78_demo :
    searchFile (worldOf ["src/x.c".toList]) (readVpaths [] "src:lib".toList "src".toList) [] [] "x.c".toList = .renamed "src/x.c".toList ∧
    searchFile (worldOf ["lib/x.c".toList]) (readVpaths [] "src:lib".toList "src".toList) [] [] "x.c".toList = .rehashed "lib/x.c".toList ∧
    searchFile (worldOf []) (readVpaths [] "src:lib".toList "src".toList) [] [] "x.c".toList = .missing := by
  decide +kernel

/-- **C78 does not hold for libraries**: the directory of the file found is computed from the length of the
name `-lm`, so the library in a directory of `GPATH` is not renamed, and one whose path happens to start
with a `GPATH` directory of that length is. -/
theorem C78_library :
    searchFile (worldOf ["src/libm.a".toList]) (readVpaths [] "src".toList "src".toList) [] "lib%.a".toList "-lm".toList =
      .rehashed "src/libm.a".toList ∧
    searchFile (worldOf ["src/libm.a".toList]) (readVpaths [] "src".toList "src/lib".toList) [] "lib%.a".toList "-lm".toList =
      .renamed "src/libm.a".toList := by
  decide +kernel

/-- **C78 does not hold for libraries**: if the file found has a name not longer than `-lm`, the name is
read before its start. -/
theorem C78_outside :
    searchFile (worldOf ["m.a".toList]) (readVpaths [] [] []) [] "%.a".toList "-lm".toList = .outside := by
  decide +kernel

end Remake
