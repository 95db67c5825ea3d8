import Verif.Base.Lemmas
import Verif.Quote.Model
/-!
# Text functions

Models `src/function.c` (lines cited at each definition) and
`collapse_continuations` (`src/misc.c` 56-118).

Every `func_*` of the C code appends to the variable buffer at `o`; the model returns
the text appended.  "Kill the last space" (`--o`) is `dropLast` on that text.
`int` counters that only count words are unbounded naturals (a text of 2^31 words is
out of scope); the user-supplied numbers of `word` and `wordlist` are 32-bit `int`s.
-/
set_option linter.unusedVariables false
namespace Remake

/-- Outcome of a piece of C code: a value, a `fatal()` diagnostic, or undefined
behaviour. -/
inductive Res (α : Type) where
  | ok (a : α)
  | fatal
  | ub
deriving Repr, DecidableEq

/-- The loop `while ((p = find_next_token (&it, &len)) != 0)` that occurs throughout
function.c: the list of tokens it visits. -/
def tokens (s : Str) : List Str :=
  match h : findNextToken s with
  | none => []
  | some (t, r) => t :: tokens r
termination_by s.length
decreasing_by exact findNextToken_lt h

/-- `if (doneany) --o;`: kill the last space. -/
def killLast (doneany : Bool) (o : Str) : Str := if doneany then o.dropLast else o

/-- Text between two pointers into the same string, given as suffixes. -/
def between (p e : Str) : Str := p.take (p.length - e.length)

/-! ## words, word, wordlist, firstword, lastword, findstring -/

/-- `func_words` (function.c 669-683).  `sprintf "%d"` is `Nat.toDigits 10`. -/
def funcWords (text : Str) : Str := Nat.toDigits 10 (tokens text).length

/-- `func_firstword` (function.c 639-650). -/
def funcFirstword (text : Str) : Str :=
  match findNextToken text with
  | none => []
  | some (t, _) => t

/-- The loop of `func_lastword` (function.c 660-661): `p`/`i` as last set. -/
def lastwordGo (p : Option Str) (s : Str) : Option Str :=
  match h : findNextToken s with
  | none => p
  | some (t, r) => lastwordGo (some t) r
termination_by s.length
decreasing_by exact findNextToken_lt h

/-- `func_lastword` (function.c 652-667). -/
def funcLastword (text : Str) : Str :=
  match lastwordGo none text with
  | none => []
  | some p => p

/-- `strip_whitespace` (function.c 690-698) applied to a whole string: the text between
the updated `begpp` and `endpp` (inclusive). -/
def stripWhitespace (s : Str) : Str :=
  ((s.dropWhile isSpace).reverse.dropWhile isSpace).reverse

/-- `check_numeric` (function.c 700-713): `true` when it returns.  Note that the test
`end - beg < 0` compares with the *original* start, so a blank, non-empty string is
accepted. -/
def checkNumeric (s : Str) : Bool :=
  (stripWhitespace s).all isDigitC && !s.isEmpty

/-- Decimal value of a digit string. -/
def digitsVal (ds : Str) : Nat := ds.foldl (fun v c => 10 * v + (c.toNat - '0'.toNat)) 0

/-- `atoi` as glibc implements it, `(int) strtol (s, 0, 10)`: leading white space, digits,
saturation at `LONG_MAX`, truncation to 32 bits.  (A sign cannot occur: every caller
modelled here has run `check_numeric` before.) -/
def atoi (s : Str) : Int :=
  let v := digitsVal ((s.dropWhile isSpace).takeWhile isDigitC)
  Int.bmod (min v (2 ^ 63 - 1) : Nat) (2 ^ 32)

/-- Smallest `int`. -/
def intMin : Int := -(2 ^ 31)

/-- The loop of `func_word` (function.c 733-738): the word found when `i` reaches 0.
Decrementing `INT_MIN` is undefined. -/
def wordGo (i : Int) (s : Str) : Res Str :=
  match h : findNextToken s with
  | none => .ok []
  | some (t, r) =>
    if i - 1 < intMin then .ub
    else if i - 1 = 0 then .ok t
    else wordGo (i - 1) r
termination_by s.length
decreasing_by exact findNextToken_lt h

/-- `func_word` (function.c 717-741). -/
def funcWord (n text : Str) : Res Str :=
  if !checkNumeric n then .fatal
  else if atoi n = 0 then .fatal
  else wordGo (atoi n) text

/-- `while (((p = find_next_token (&end_p, 0)) != 0) && --start)` (function.c 767): the
pointer `p` to the start of the `start`th word and `end_p` after it. -/
def wordlistStart (start : Nat) (s : Str) : Option (Str × Str) :=
  match h : findNextToken s with
  | none => none
  | some (_, r) =>
    if start - 1 = 0 then some (nextToken s, r)
    else wordlistStart (start - 1) r
termination_by s.length
decreasing_by exact findNextToken_lt h

/-- `while (--count && (find_next_token (&end_p, 0) != 0))` (function.c 773): the final
`end_p`. -/
def wordlistEnd (count : Nat) (e : Str) : Str :=
  if count - 1 = 0 then e
  else
    match h : findNextToken e with
    | none => e
    | some (_, r) => wordlistEnd (count - 1) r
termination_by e.length
decreasing_by exact findNextToken_lt h

/-- `func_wordlist` (function.c 743-782).  `atoi (argv[1]) - start + 1` is `int`
arithmetic: below `INT_MIN` it is undefined. -/
def funcWordlist (a b text : Str) : Res Str :=
  if !checkNumeric a then .fatal
  else if !checkNumeric b then .fatal
  else if atoi a < 1 then .fatal
  else if atoi b - atoi a < intMin then .ub
  else
    let count := atoi b - atoi a + 1
    if count > 0 then
      match wordlistStart (atoi a).toNat text with
      | none => .ok []
      | some (p, e) => .ok (between p (wordlistEnd count.toNat e))
    else .ok []

/-- `strstr (t, sub)`: the text before the first occurrence and the suffix that starts
at it. -/
def strstr (sub : Str) : Str → Option (Str × Str)
  | [] => if sub.isEmpty then some ([], []) else none
  | c :: cs =>
    if sub.isPrefixOf (c :: cs) then some ([], c :: cs)
    else
      match strstr sub cs with
      | none => none
      | some (b, p) => some (c :: b, p)

/-- `func_findstring` (function.c 784-792). -/
def funcFindstring (find text : Str) : Str :=
  match strstr find text with
  | some _ => find
  | none => []

/-! ## strip -/

/-- The loop of `func_strip` (function.c 1018-1032): text output so far, `doneany`. -/
def stripGo (o : Str) (doneany : Bool) (p : Str) : Str × Bool :=
  match h : findNextToken p with        -- NEXT_TOKEN, then the `for` loop; `!i` breaks
  | none => (o, doneany)                -- also covers `*p == '\0'`
  | some (w, r) => stripGo (o ++ w ++ [' ']) true r
termination_by p.length
decreasing_by exact findNextToken_lt h

/-- `func_strip` (function.c 1012-1039). -/
def funcStrip (text : Str) : Str :=
  let r := stripGo [] false text
  killLast r.2 r.1

/-! ## join, addprefix, addsuffix -/

/-- The loop of `func_join` (function.c 430-448). -/
def joinGo (o : Str) (doneany : Bool) (l1 l2 : Str) : Str × Bool :=
  match h1 : findNextToken l1, h2 : findNextToken l2 with
  | none, none => (o, doneany)
  | some (t, r1), none => joinGo (o ++ t ++ [' ']) true r1 l2
  | none, some (p, r2) => joinGo (o ++ p ++ [' ']) true l1 r2
  | some (t, r1), some (p, r2) => joinGo (o ++ t ++ p ++ [' ']) true r1 r2
termination_by l1.length + l2.length
decreasing_by
  · have := findNextToken_lt h1; omega
  · have := findNextToken_lt h2; omega
  · have := findNextToken_lt h1; have := findNextToken_lt h2; omega

/-- `func_join` (function.c 417-454). -/
def funcJoin (a b : Str) : Str :=
  let r := joinGo [] false a b
  killLast r.2 r.1

/-- The loop of `func_addsuffix_addprefix` (function.c 611-620). -/
def addfixStep (isPrefix : Bool) (fix : Str) (st : Str × Bool) (p : Str) : Str × Bool :=
  ((if isPrefix then st.1 ++ fix else st.1) ++ p ++ (if isPrefix then [] else fix) ++ [' '], true)

/-- `func_addsuffix_addprefix` (function.c 599-627). -/
def funcAddfix (isPrefix : Bool) (fix text : Str) : Str :=
  let r := (tokens text).foldl (addfixStep isPrefix fix) ([], false)
  killLast r.2 r.1

/-! ## dir, notdir, basename, suffix -/

/-- The backward scan `p = p2+len-1; while (p >= p2 && !STOP_SET (*p, stop)) --p;`
(function.c 528-531, 574-576): the token up to and including `*p` (empty when `p < p2`)
and the part after `p`. -/
def backScan (stop : Char → Bool) (w : Str) : Str × Str :=
  ((w.reverse.dropWhile (fun c => !stop c)).reverse,
   (w.reverse.takeWhile (fun c => !stop c)).reverse)

/-- Body of the loop of `func_notdir_suffix` (function.c 526-550). -/
def notdirSuffixStep (isSuffix : Bool) (st : Str × Bool) (w : Str) : Str × Bool :=
  let hd := (backScan (fun c => c == '/' || (isSuffix && c == '.')) w).1
  let tl := (backScan (fun c => c == '/' || (isSuffix && c == '.')) w).2
  match hd.getLast? with
  | some c =>
    if !isSuffix then (st.1 ++ tl ++ [' '], true)
    else if c != '.' then st                        -- continue
    else (st.1 ++ (c :: tl) ++ [' '], true)
  | none =>
    if !isSuffix then (st.1 ++ w ++ [' '], true) else st

/-- `func_notdir_suffix` (function.c 514-557). -/
def funcNotdirSuffix (isSuffix : Bool) (text : Str) : Str :=
  let r := (tokens text).foldl (notdirSuffixStep isSuffix) ([], false)
  killLast r.2 r.1

/-- Body of the loop of `func_basename_dir` (function.c 572-590). -/
def basenameDirStep (isBasename : Bool) (st : Str × Bool) (w : Str) : Str × Bool :=
  let hd := (backScan (fun c => c == '/' || (isBasename && c == '.')) w).1
  match hd.getLast? with
  | some c =>
    if !isBasename then (st.1 ++ hd ++ [' '], true)
    else if c == '.' then (st.1 ++ hd.dropLast ++ [' '], true)
    else (st.1 ++ w ++ [' '], true)
  | none =>
    if !isBasename then (st.1 ++ ['.', '/'] ++ [' '], true)
    else (st.1 ++ w ++ [' '], true)

/-- `func_basename_dir` (function.c 560-597). -/
def funcBasenameDir (isBasename : Bool) (text : Str) : Str :=
  let r := (tokens text).foldl (basenameDirStep isBasename) ([], false)
  killLast r.2 r.1

/-! ## subst and patsubst -/

/-- The last character of `b`, or `prev` when `b` is empty: `p[-1]`, with `none` for
`p == text`. -/
def prevChar (prev : Option Char) (b : Str) : Option Char :=
  match b.getLast? with
  | some c => some c
  | none => prev

/-- The test of `subst_expand` (function.c 117-119) that a by-word match is not
a whole word: `before` is `p[-1]` (if `p > text`), `after` starts at `p[slen]`. -/
def struckOut (before : Option Char) (after : Str) : Bool :=
  (match before with | some c => !isSpace c | none => false) ||
  (match after with | [] => false | c :: _ => !isSpace c)

theorem strstr_eq {sub : Str} : ∀ {t b p : Str}, strstr sub t = some (b, p) → b ++ p = t
  | [], b, p, h => by
    unfold strstr at h; split at h
    · simp at h; simp [h]
    · cases h
  | c :: cs, b, p, h => by
    unfold strstr at h; split at h
    · simp at h; obtain ⟨rfl, rfl⟩ := h; rfl
    · split at h
      · cases h
      · rename_i b' p' hh
        simp at h; obtain ⟨rfl, rfl⟩ := h
        simp [strstr_eq hh]

theorem strstr_prefix {sub : Str} : ∀ {t b p : Str}, strstr sub t = some (b, p) → sub <+: p
  | [], b, p, h => by
    unfold strstr at h; split at h
    · simp at h; rename_i hs; simp at hs; subst hs; exact List.nil_prefix
    · cases h
  | c :: cs, b, p, h => by
    unfold strstr at h; split at h
    · rename_i hp; simp at h; obtain ⟨rfl, rfl⟩ := h; exact List.isPrefixOf_iff_prefix.mp hp
    · split at h
      · cases h
      · rename_i b' p' hh
        simp at h; obtain ⟨rfl, rfl⟩ := h
        exact strstr_prefix hh

/-- The `do ... while (*t != '\0')` loop of `subst_expand` (function.c 94-129) for
`slen > 0`.  `prev` is the character before `t` (`none` when `t == text`). -/
def substGo (sub rep : Str) (byWord : Bool) (prev : Option Char) (t : Str) : Str :=
  if hs : sub = [] then t else                      -- not reached with slen == 0
  match h : strstr sub t with
  | none => t
  | some (b, p) =>
    let after := p.drop sub.length
    let out := if byWord && struckOut (prevChar prev b) after then sub else rep
    match ha : after with
    | [] => b ++ out
    | _ :: _ => b ++ out ++ substGo sub rep byWord sub.getLast? after
termination_by t.length
decreasing_by
  have h1 := strstr_eq h
  have h2 := (strstr_prefix h).length_le
  have h3 : 0 < sub.length := List.length_pos_iff.mpr hs
  subst h1
  simp [after] at *
  omega

/-- The same loop when `by_word && slen == 0` (function.c 96-99): the match is the
end of each token. -/
def substEmptyGo (rep : Str) (prev : Option Char) (t : Str) : Str :=
  let skip := t.takeWhile isSpace
  let p := endOfToken (nextToken t)
  let b := skip ++ tokenPrefix (nextToken t)
  let out := if struckOut (prevChar prev b) p then [] else rep
  match h : p with
  | [] => b ++ out
  | c :: cs => b ++ out ++
    (if hlt : (c :: cs).length < t.length then substEmptyGo rep (prevChar prev b) (c :: cs)
     else [])                                        -- not reached: `p > t` here
termination_by t.length

/-- `subst_expand` (function.c 78-132). -/
def substExpand (text sub rep : Str) (byWord : Bool) : Str :=
  if sub.isEmpty && !byWord then text ++ rep
  else if byWord && sub.isEmpty then substEmptyGo rep none text
  else substGo sub rep byWord none text

/-- `func_subst` (function.c 629-636). -/
def funcSubst (sub rep text : Str) : Str := substExpand text sub rep false

/-- The match test of `patsubst_expand_pat` (function.c 183-200) for a token `t` against
`pre % post`: long enough, prefix matches, suffix matches.  The three-step character
comparisons of the C code together compare the whole prefix and the whole suffix. -/
def patMatch (pre post t : Str) : Bool :=
  !(t.length < pre.length + post.length) &&
  (t.take pre.length == pre) &&
  (t.drop (t.length - post.length) == post)

/-- Body of the loop of `patsubst_expand_pat` (function.c 179-232). -/
def patsubstStep (pre post : Str) (rep : Unq) (st : Str × Bool) (t : Str) : Str × Bool :=
  if !patMatch pre post t then (st.1 ++ t ++ [' '], true)
  else
    match rep with
    | .none r =>
      if r.length > 0 then (st.1 ++ r ++ [' '], true) else (st.1 ++ r, st.2)
    | .found rpre _ rpost =>
      let stem := (t.drop pre.length).take (t.length - (pre.length + post.length))
      if rpre.length > 0 || t.length + rpost.length > 0 then
        (st.1 ++ rpre ++ stem ++ rpost ++ [' '], true)
      else (st.1 ++ rpre ++ stem ++ rpost, st.2)

/-- `strlen`-based view of a string after `find_percent`: the whole compacted text. -/
def Unq.text : Unq → Str
  | .none t => t
  | .found pre c post => pre ++ c :: post

/-- `patsubst_expand_pat` (function.c 145-238) on a pattern and a replacement that have
been run through `find_percent`. -/
def patsubstExpandPat (text : Str) (pat rep : Unq) : Str :=
  match pat with
  | .none p => substExpand text p rep.text true
  | .found pre _ post =>
    let r := (tokens text).foldl (patsubstStep pre post rep) ([], false)
    killLast r.2 r.1

/-- `patsubst_expand` (function.c 250-264). -/
def patsubstExpand (text pat rep : Str) : Str :=
  patsubstExpandPat text (findPercent pat) (findPercent rep)

/-- `pattern_matches` (function.c 290-314). -/
def patternMatches (pat : Unq) (s : Str) : Bool :=
  match pat with
  | .none p => p == s
  | .found pre _ post =>
    if s.length < pre.length + post.length || s.take pre.length != pre then false
    else post == s.drop (s.length - post.length)

/-! ## filter and filter-out -/

/-- A `struct a_word` (function.c 842-849); `chain` is represented by the table below. -/
structure AWord where
  str : Str
  matched : Bool
deriving Repr, DecidableEq

/-- Mark words by one pattern without the hash table (function.c 970-972, 985-988). -/
def markLinear (p : Unq) (ws : List AWord) : List AWord :=
  match p with
  | .found .. => ws.map (fun w => { w with matched := w.matched || patternMatches p w.str })
  | .none lit => ws.map (fun w =>
      { w with matched := w.matched || (w.str.length == lit.length && lit.isPrefixOf w.str) })

/-- The hash table of words (function.c 953-960), as a map from word text to the list of
word indexes reachable through `chain`, newest first: `hash_insert` returns the
old item, which becomes the `chain` of the new one.  The table itself (hash.c) is
the finite map it is proved to be in `Verif.Hash`. -/
def buildTable : Nat → List AWord → (Str → List Nat) → (Str → List Nat)
  | _, [], tbl => tbl
  | i, w :: ws, tbl =>
    buildTable (i + 1) ws (fun k => if k = w.str then i :: tbl k else tbl k)

/-- Mark the words reached from one literal pattern through the table
(function.c 973-984). -/
def markHashed (tbl : Str → List Nat) (p : Unq) (ws : List AWord) : List AWord :=
  match p with
  | .found .. => markLinear p ws
  | .none lit => ws.mapIdx (fun i w =>
      { w with matched := w.matched || (tbl lit).contains i })

/-- Number of literal patterns (function.c 919-920). -/
def literalCount (ps : List Unq) : Nat :=
  (ps.filter (fun p => match p with | .none _ => true | .found .. => false)).length

/-- One output step of filter (function.c 992-998). -/
def filterOutStep (isFilter : Bool) (st : Str × Bool) (w : AWord) : Str × Bool :=
  if (if isFilter then w.matched else !w.matched) then (st.1 ++ w.str ++ [' '], true) else st

/-- `func_filter_filterout` (function.c 881-1009). -/
def funcFilter (isFilter : Bool) (patterns text : Str) : Str :=
  let ps := (tokens patterns).map findPercent
  let ws := (tokens text).map (fun t => ({ str := t, matched := false } : AWord))
  let hashing := literalCount ps ≥ 2 && literalCount ps * ws.length ≥ 10
  let tbl := buildTable 0 ws (fun _ => [])
  let marked := ps.foldl (fun ws p => if hashing then markHashed tbl p ws else markLinear p ws) ws
  let r := marked.foldl (filterOutStep isFilter) ([], false)
  if ws.length = 0 then [] else killLast r.2 r.1

/-! ## sort -/

/-- Signed value of a `char` (x86: `char` is signed). -/
def schar (c : Char) : Int := if c.toNat < 128 then c.toNat else (c.toNat : Int) - 256

/-- `*s` as an integer, 0 at the end of the string. -/
def headSchar : Str → Int
  | [] => 0
  | c :: _ => schar c

/-- `strcmp` (compares bytes as `unsigned char`; sign of the result only). -/
def strcmp : Str → Str → Int
  | [], [] => 0
  | [], _ :: _ => -1
  | _ :: _, [] => 1
  | a :: as, b :: bs =>
    if a = b then strcmp as bs else if a.toNat < b.toNat then -1 else 1

/-- `alpha_compare` (misc.c 41-50). -/
def alphaCompare (a b : Str) : Int :=
  if headSchar a ≠ headSchar b then headSchar a - headSchar b else strcmp a b

/-- Skip white space in the memory of a buffer (`next_token`).  `none`: the scan ran past
the memory we know about. -/
def memNext (mem : Str) : Str := mem.dropWhile isSpace

/-- The scan of `func_sort` (function.c 1107-1111 and 1118-1123) over the *memory*
that starts at `argv[0]`: after each token `t` is stepped once more, over the separator
or over the terminating NUL.  Running off the known memory is undefined behaviour.  Both
passes visit the same words, since the NULs stored by the second pass are behind `t`. -/
def sortScan (mem : Str) : Res (List Str) :=
  match h : mem.dropWhile isSpace with
  | [] => .ub
  | c :: cs =>
    if c = '\x00' then .ok []
    else
      let w := (c :: cs).takeWhile (fun c => !isSpace c && c != '\x00')
      match h2 : (c :: cs).dropWhile (fun c => !isSpace c && c != '\x00') with
      | [] => .ub
      | _ :: rest =>
        match sortScan rest with
        | .ok ws => .ok (w :: ws)
        | .fatal => .fatal
        | .ub => .ub
termination_by mem.length
decreasing_by
  have h1 := dropWhile_length_le isSpace mem
  have h3 := dropWhile_length_le (fun c => !isSpace c && c != '\x00') (c :: cs)
  rw [h] at h1; rw [h2] at h3
  simp at *
  omega

/-- The output loop of `func_sort` (function.c 1133-1145): skip a word equal to its
successor, kill the last space. -/
def sortOutGo : List Str → Str
  | [] => []
  | [w] => w ++ [' ']
  | w :: x :: ws =>
    if x.length ≠ w.length ∨ strcmp w x ≠ 0 then w ++ [' '] ++ sortOutGo (x :: ws)
    else sortOutGo (x :: ws)

/-- `func_sort` (function.c 1095-1151) after `qsort` has produced `sorted`. -/
def funcSortOut (sorted : List Str) : Str :=
  if sorted.isEmpty then [] else (sortOutGo sorted).dropLast

/-- What `qsort (words, n, sizeof (char *), alpha_compare)` may produce: a permutation
that is ordered by the comparison function. -/
def QsortResult (ws sorted : List Str) : Prop :=
  sorted.Perm ws ∧ sorted.Pairwise (fun a b => alphaCompare a b ≤ 0)

/-! ## if, or, and -/

/-- `func_if` (function.c 1165-1202).  `expand` is `expand_argument` (it may have side
effects on the state `σ`); `args` are the unexpanded arguments. -/
def funcIf {σ : Type} (expand : Str → σ → Str × σ) (args : List Str) (s : σ) : Str × σ :=
  match args with
  | [] => ([], s)                                    -- excluded by minimum_args
  | cond :: rest =>
    let c := stripWhitespace cond
    let r : Bool × σ :=
      if c.isEmpty then (false, s)
      else
        let e := expand c s
        (!e.1.isEmpty, e.2)
    match (if r.1 then rest.head? else rest.tail.head?) with
    | some a => expand a r.2
    | none => ([], r.2)

/-- `func_or` (function.c 1218-1252). -/
def funcOr {σ : Type} (expand : Str → σ → Str × σ) : List Str → σ → Str × σ
  | [], s => ([], s)
  | a :: as, s =>
    let c := stripWhitespace a
    if c.isEmpty then funcOr expand as s
    else
      let e := expand c s
      if e.1.isEmpty then funcOr expand as e.2 else e

/-- `func_and` (function.c 1268-1306). -/
def funcAnd {σ : Type} (expand : Str → σ → Str × σ) : List Str → σ → Str × σ
  | [], s => ([], s)                                 -- excluded by minimum_args
  | a :: as, s =>
    let c := stripWhitespace a
    if c.isEmpty then ([], s)
    else
      let e := expand c s
      if e.1.isEmpty then ([], e.2)
      else if as.isEmpty then e
      else funcAnd expand as e.2

/-! ## fold_newlines -/

/-- The copying loop of `fold_newlines` (function.c 1383-1396): output reversed (`dst`),
and the number of characters output up to and including the last one that is not a
newline (`last_nonnl + 1 - buffer`). -/
def foldGo (out : Str) (lastNonnl : Nat) : Str → Str × Nat
  | [] => (out, lastNonnl)
  | '\r' :: '\n' :: cs => foldGo out lastNonnl ('\n' :: cs)
  | c :: cs =>
    if c = '\x00' then (out, lastNonnl)
    else if c = '\n' then foldGo (' ' :: out) lastNonnl cs
    else foldGo (c :: out) (out.length + 1) cs
termination_by s => s.length

/-- `fold_newlines` (function.c 1376-1403).  The comparison `last_nonnl < dst - 2` is on
pointers starting at `buffer - 1`. -/
def foldNewlines (trim : Bool) (buf : Str) : Str :=
  let r := foldGo [] 0 buf
  let last : Nat := if !trim && r.2 + 1 < r.1.length then r.1.length - 1 else r.2
  r.1.reverse.take last

/-! ## collapse_continuations -/

/-- `collapse_continuations` (misc.c 56-118).  `out`: output so far, reversed; `seg`:
text from `in` up to the scan position, reversed; `skip`: in the `while (ISBLANK (*in))
++in` loop.  The backslash count of the C code runs back to the start of the buffer,
but the character before `in` is never a backslash, so it stops at `in`. -/
def collapseGo (posix : Bool) (skip : Bool) (out seg : Str) : Str → Str
  | [] => (seg ++ out).reverse
  | c :: cs =>
    if skip && isBlank c then collapseGo posix true out seg cs
    else if c = '\n' then
      let n := bsCount seg
      let kept := halveBs seg ++ out
      if n % 2 = 1 then
        collapseGo posix true (' ' :: (if posix then kept else kept.dropWhile isBlank)) [] cs
      else collapseGo posix false ('\n' :: kept) [] cs
    else collapseGo posix false out (c :: seg) cs

/-- `collapse_continuations (line)` (misc.c 56-118). -/
def collapseContinuations (posix : Bool) (line : Str) : Str :=
  collapseGo posix false [] [] line

end Remake
