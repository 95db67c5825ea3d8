import Verif.Base.Chars
/-!
# Backslash quoting: `find_char_unquote`, `find_map_unquote`, `unescape_char`

Models `src/read.c` lines 1436-1454 and 2322-2498.

The in-place compaction of the C code is modelled with a zipper: `rev` is the
text already scanned (and compacted), in reverse, `rest` starts at the scan
pointer `p`.  The bytes that the C code leaves after the moved NUL are not part of
the string and are not represented.
-/
namespace Remake

/-- Result of a quoted search over a string that is compacted in place:
`none` means the stop character was not found (the NULL return) and `text` is the
compacted string; `found pre post` means the string is now `pre ++ c :: post` and the
returned pointer is at `c`. -/
inductive Unq where
  | none (text : Str)
  | found (pre : Str) (c : Char) (post : Str)
deriving Repr, DecidableEq

/-- Number of backslashes directly before the scan pointer (read.c 2417-2423 and
2374-2380: the `i = -2; while (&p[i] >= string && p[i] == '\\') --i; ++i` loops; the
count is `-i`). -/
def bsCount (rev : Str) : Nat := (rev.takeWhile (· == '\\')).length

/-- The text before the scan pointer after "swallow half of them" (read.c 2429,
2386): `n` backslashes become `n/2`. -/
def halveBs (rev : Str) : Str :=
  List.replicate (bsCount rev / 2) '\\' ++ rev.drop (bsCount rev)

/-- `find_char_unquote` (read.c 2404-2442), from scan position `rest` with `rev`
scanned. -/
def findCharUnquoteGo (stop : Char) (rev : Str) : Str → Unq
  | [] => .none rev.reverse
  | c :: cs =>
    if c == stop then
      if bsCount rev == 0 then
        .found rev.reverse c cs
      else if bsCount rev % 2 == 0 then
        .found (halveBs rev).reverse c cs
      else
        findCharUnquoteGo stop (c :: halveBs rev) cs
    else findCharUnquoteGo stop (c :: rev) cs

/-- `find_char_unquote (string, stop)` (read.c 2404-2442). -/
def findCharUnquote (stop : Char) (s : Str) : Unq := findCharUnquoteGo stop [] s

/-- `find_percent` (read.c 2494-2498). -/
def findPercent (s : Str) : Unq := findCharUnquote '%' s

/-- The loop skipping the contents of `$(...)` (read.c 2356-2367): `pcount` open
parentheses so far.  Returns the characters skipped (reversed, pushed on `rev`) and the
new scan position. -/
def skipRef (openc closec : Char) : Nat → Str → Str → Str × Str
  | _, rev, [] => (rev, [])
  | pcount, rev, c :: cs =>
    if c == openc then skipRef openc closec (pcount + 1) (c :: rev) cs
    else if c == closec then
      if pcount - 1 == 0 then (c :: rev, cs)
      else skipRef openc closec (pcount - 1) (c :: rev) cs
    else skipRef openc closec pcount (c :: rev) cs

theorem skipRef_length (o c : Char) : ∀ (cs : Str) (n : Nat) (rev : Str),
    (skipRef o c n rev cs).2.length ≤ cs.length := by
  intro cs
  induction cs with
  | nil => intro n rev; simp [skipRef]
  | cons d ds ih =>
    intro n rev
    unfold skipRef
    split
    · have := ih (n+1) (d :: rev); simp; omega
    · split
      · split
        · simp
        · have := ih (n-1) (d :: rev); simp; omega
      · have := ih n (d :: rev); simp; omega

/-- `find_map_unquote` (read.c 2322-2402).  `stop` is the stop set; `vars` says
whether `MAP_VARIABLE` is in it (then `'$'` is a stop character that skips a
reference). -/
def findMapUnquoteGo (stop : Char → Bool) (vars : Bool) (rev : Str) (s : Str) : Unq :=
  match s with
  | [] => .none rev.reverse
  | c :: cs =>
    if vars && c == '$' then
      match cs with
      | [] => .none (c :: rev).reverse          -- '$' is the last character: break
      | o :: cs' =>
        if o == '(' || o == '{' then
          let r := skipRef o (if o == '(' then ')' else '}') 1 (o :: c :: rev) cs'
          findMapUnquoteGo stop vars r.1 r.2
        else findMapUnquoteGo stop vars (o :: c :: rev) cs'
    else if stop c then
      if bsCount rev == 0 then
        .found rev.reverse c cs
      else if bsCount rev % 2 == 0 then
        .found (halveBs rev).reverse c cs
      else
        findMapUnquoteGo stop vars (c :: halveBs rev) cs
    else findMapUnquoteGo stop vars (c :: rev) cs
termination_by s.length
decreasing_by
  all_goals simp_wf
  all_goals first
    | (have := skipRef_length o (if o == '(' then ')' else '}') cs' 1 (o :: c :: rev)
       simp only [beq_iff_eq] at this; omega)
    | omega

/-- `find_map_unquote (string, stopmap)` (read.c 2322-2402). -/
def findMapUnquote (stop : Char → Bool) (vars : Bool) (s : Str) : Unq :=
  findMapUnquoteGo stop vars [] s

/-- The text of the line after `remove_comments` (read.c 1436-1454); the recording of
`#:` target descriptions is modelled by `commentDescription`. -/
def removeComments (line : Str) : Str :=
  match findMapUnquote (· == '#') true line with
  | .none text => text
  | .found pre _ _ => pre

/-- The target description recorded by `remove_comments` (read.c 1444-1450): the
text after `#: ` when the comment starts that way. -/
def commentDescription (line : Str) : Option Str :=
  match findMapUnquote (· == '#') true line with
  | .none _ => none
  | .found _ _ post =>
    match post with
    | ':' :: ' ' :: d => some d
    | _ => none

/-- `unescape_char` (read.c 2446-2490), with `n` backslashes of the current run
already passed over by the inner `while (*e == '\\') ++e` loop (2460-2461).  At the end
of a run of `l = n` backslashes: kept as they are unless the run is odd and followed
by `ch`, in which case half of them are kept. -/
def unescapeCharGo (ch : Char) : Nat → Str → Str
  | n, [] => List.replicate n '\\'
  | n, c :: cs =>
    if c == '\\' then unescapeCharGo ch (n + 1) cs
    else if c != ch || n % 2 == 0 then
      List.replicate n '\\' ++ c :: unescapeCharGo ch 0 cs
    else
      List.replicate (n / 2) '\\' ++ c :: unescapeCharGo ch 0 cs

/-- `unescape_char (string, c)` (read.c 2446-2490). -/
def unescapeChar (ch : Char) (s : Str) : Str := unescapeCharGo ch 0 s

/-- The loop of `find_percent_cached` (read.c 2519-2560) once the first character is known
not to be `%`: `rev` is the text before `p` (in `*string` or in the copy `new`), the flag says
whether the copy has been made.  The copy is compacted like in `find_char_unquote`. -/
def findPercentCachedGo (copied : Bool) (rev : Str) : Str → Unq × Bool
  | [] => (.none rev.reverse, copied)
  | c :: cs =>
    if c == '%' then
      if rev.head? != some '\\' then (.found rev.reverse c cs, copied)
      else if bsCount rev % 2 == 0 then (.found (halveBs rev).reverse c cs, true)
      else findPercentCachedGo true (c :: halveBs rev) cs
    else findPercentCachedGo copied (c :: rev) cs

/-- `find_percent_cached` (read.c 2506-2574): the search result on the string that `*string`
denotes afterwards, and whether `*string` was replaced. -/
def findPercentCached (s : Str) : Unq × Bool :=
  match s with
  | '%' :: cs => (.found [] '%' cs, false)
  | _ => findPercentCachedGo false [] s

end Remake
