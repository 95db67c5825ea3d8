import Verif.Base.Chars
/-!
# Matching of wildcards

Models `internal_fnmatch` and `fnmatch` (lib/fnmatch.c 152-487), the version that is compiled where the C library is not
GNU's, without `HAVE_WCTYPE_H` (config.h.in does not have it).

Strings end at their NUL, which is the end of the list here.  `FNM_CASEFOLD` and `FNM_LEADING_DIR` are left out: the callers
(lib/glob.c 1309-1314, ar.c 202) never give them, so that `FOLD (c)` is `c`.  `flags2` (fnmatch.c 244, 269) differs from
`flags` only by `FNM_PERIOD`, which is read only together with `FNM_FILE_NAME`, where they are the same.
-/
set_option linter.unusedVariables false
namespace Remake

/-- The flags, and whether `POSIXLY_CORRECT` is set (fnmatch.c 298-299). -/
structure FnFlags where
  noescape : Bool := false
  pathname : Bool := false
  posixly : Bool := false
deriving DecidableEq, Repr

/-- What has become of a bracket: no match of the whole, a read outside of the pattern, or the rest of the pattern. -/
inductive BrEnd where
  | noMatch
  | undef
  | at (p : Str)
deriving DecidableEq, Repr

/-- `do if (*++p == '\0') return FNM_NOMATCH; while (*p != ':' || p[1] == ']');` (fnmatch.c 446-449), from the text after
`*p`: what follows the colon, or none for the return. -/
def skipClass : Str → Option Str
  | [] => none
  | c :: r => if c = ':' ∧ r.head? ≠ some ']' then some r else skipClass r

theorem skipClass_length : ∀ (s r : Str), skipClass s = some r → r.length < s.length
  | [], _, h => by cases h
  | c :: s, r, h => by
    rw [skipClass] at h
    split at h
    · cases h; simp
    · have := skipClass_length s r h; simp; omega

/-- The rest of a bracket after a match (`matched`, fnmatch.c 428-453); `c`: the variable, none for NUL. -/
def skipMatched (ne : Bool) (c : Option Char) (p : Str) : BrEnd :=
  if c = some ']' then .at p
  else if c = none then .noMatch
  else
    match p with
    | [] => .noMatch
    | c :: p =>
      if ne = false ∧ c = '\\' then
        match p with
        | [] => .noMatch
        | _ :: p => skipMatched ne (some c) p
      else if c = '[' ∧ p.head? = some ':' then
        match h : skipClass p.tail with
        | none => .noMatch
        | some [] => .undef
        | some (_ :: p) => skipMatched ne p.head? p
      else skipMatched ne (some c) p
termination_by p.length
decreasing_by
  · simp; omega
  · have := skipClass_length _ _ h
    simp at this ⊢
    omega
  · simp

/-- `CHAR_CLASS_MAX_LENGTH` (fnmatch.c 108). -/
def classMax : Nat := 6

/-- What a text after `[:` is. -/
inductive ClassName where
  | tooLong
  | notClass
  | name (str rest : Str)
deriving DecidableEq, Repr

/-- The name of a class (fnmatch.c 343-366), from the text after the colon; `str`: what is read, in reverse. -/
def className (str : Str) (p : Str) : ClassName :=
  if str.length = classMax then .tooLong
  else
    match p with
    | [] => .notClass
    | c :: p =>
      if c = ':' ∧ p.head? = some ']' then .name str.reverse p.tail
      else if c < 'a' ∨ 'z' ≤ c then .notClass
      else className (c :: str) p
termination_by p.length

theorem className_length (str p n r : Str) (h : className str p = .name n r) : r.length ≤ p.length := by
  fun_induction className str p with
  | case1 => cases h
  | case2 => cases h
  | case3 => cases h; simp; omega
  | case4 => cases h
  | case5 str hs c p h1 h2 ih => have := ih h; simp; omega

/-- The classes (fnmatch.c 377-388) in the C locale. -/
def inClass (name : Str) (c : Char) : Bool :=
  let n := c.toNat
  let upper := 65 ≤ n && n ≤ 90
  let lower := 97 ≤ n && n ≤ 122
  let digit := 48 ≤ n && n ≤ 57
  let graph := 33 ≤ n && n ≤ 126
  (name == "alnum".toList && (upper || lower || digit)) || (name == "alpha".toList && (upper || lower)) ||
  (name == "blank".toList && (n == 32 || n == 9)) || (name == "cntrl".toList && (n < 32 || n == 127)) ||
  (name == "digit".toList && digit) || (name == "graph".toList && graph) || (name == "lower".toList && lower) ||
  (name == "print".toList && (graph || n == 32)) || (name == "punct".toList && graph && !(upper || lower || digit)) ||
  (name == "space".toList && (n == 32 || 9 ≤ n && n ≤ 13)) || (name == "upper".toList && upper) ||
  (name == "xdigit".toList && (digit || 65 ≤ n && n ≤ 70 || 97 ≤ n && n ≤ 102))

/-- How a turn of the loop over a bracket (fnmatch.c 319-422) ends: no match of the whole, `goto matched` with the value of
`c`, the end of the bracket, or another turn. -/
inductive BrTest where
  | fail
  | hit (c : Char) (p : Str)
  | miss (p : Str)
  | next (c : Char) (p : Str)
deriving DecidableEq, Repr

/-- `cold <= fn` (fnmatch.c 413): `cold` is a signed character. -/
def coldLe (cold fn : Char) : Bool := decide (128 ≤ cold.toNat) || decide (cold ≤ fn)

/-- The next character (`c = *p++`, then fnmatch.c 420-421 and 392-394). -/
def bracketNext : Str → BrTest
  | [] => .fail
  | c :: p => if c = ']' then .miss p else .next c p

/-- The end `e` of a range (fnmatch.c 413-416). -/
def bracketRange (fn cold e : Char) (p : Str) : BrTest :=
  if coldLe cold fn && decide (fn ≤ e) then .hit '-' p else bracketNext p

/-- An ordinary character or a range (fnmatch.c 397-418). -/
def bracketChar (ne : Bool) (fn : Char) (cold : Char) (p : Str) : BrTest :=
  if cold = fn then .hit cold p
  else if p.head? = some '-' ∧ p.tail.head? ≠ some ']' then
    match p.tail with
    | [] => .fail
    | e :: p =>
      if ne = false ∧ e = '\\' then
        match p with
        | [] => .fail
        | e :: p => bracketRange fn cold e p
      else bracketRange fn cold e p
  else bracketNext p

/-- A turn of the loop over a bracket (fnmatch.c 319-422), for the character `fn` of the name. -/
def bracketStep (ne : Bool) (fn : Char) (c : Char) (p : Str) : BrTest :=
  if ne = false ∧ c = '\\' then
    match p with
    | [] => .fail
    | c :: p => if c = fn then .hit c p else if c = ']' then .miss p else .next c p
  else if c = '[' ∧ p.head? = some ':' then
    match className [] p.tail with
    | .tooLong => .fail
    | .notClass => bracketChar ne fn '[' p
    | .name str p => if inClass str fn then .hit ':' p else .next ':' p
  else bracketChar ne fn c p

/-- The text that a turn leaves. -/
def BrTest.rest : BrTest → Str
  | .fail => []
  | .hit _ p => p
  | .miss p => p
  | .next _ p => p

theorem bracketNext_length (p : Str) : (bracketNext p).rest.length ≤ p.length ∧
    ((∃ c q, bracketNext p = .next c q) → (bracketNext p).rest.length < p.length) := by
  cases p with
  | nil => simp [bracketNext, BrTest.rest]
  | cons c p =>
    rw [bracketNext]
    split <;> simp [BrTest.rest]

theorem bracketRange_length (fn cold e : Char) (p : Str) : (bracketRange fn cold e p).rest.length ≤ p.length := by
  rw [bracketRange]
  split
  · exact Nat.le_refl _
  · exact (bracketNext_length p).1

theorem bracketChar_length (ne : Bool) (fn cold : Char) (p : Str) : (bracketChar ne fn cold p).rest.length ≤ p.length ∧
    ((∃ c q, bracketChar ne fn cold p = .next c q) → (bracketChar ne fn cold p).rest.length < p.length) := by
  rw [bracketChar]
  split
  · exact ⟨Nat.le_refl _, fun ⟨c, q, h⟩ => by cases h⟩
  · split
    · cases p with
      | nil => simp_all
      | cons x p =>
        simp only [List.tail_cons]
        cases p with
        | nil => simp [BrTest.rest]
        | cons e p =>
          simp only
          split
          · cases p with
            | nil => simp [BrTest.rest]
            | cons e p =>
              have := bracketRange_length fn cold e p
              simp only [List.length_cons]
              exact ⟨by omega, fun _ => by omega⟩
          · have := bracketRange_length fn cold e p
            simp only [List.length_cons]
            exact ⟨by omega, fun _ => by omega⟩
    · exact bracketNext_length p

theorem bracketStep_length (ne : Bool) (fn c : Char) (p : Str) : (bracketStep ne fn c p).rest.length ≤ p.length ∧
    ((∃ c' q, bracketStep ne fn c p = .next c' q) → (bracketStep ne fn c p).rest.length < p.length) := by
  unfold bracketStep
  split
  · cases p with
    | nil => simp [BrTest.rest]
    | cons x p =>
      simp only
      split
      · simp [BrTest.rest]
      · split <;> simp [BrTest.rest]
  · split
    · rename_i h
      cases p with
      | nil => simp at h
      | cons x p =>
        simp only [List.tail_cons]
        split
        · simp [BrTest.rest]
        · exact bracketChar_length ne fn '[' (x :: p)
        · rename_i str q hq
          have := className_length _ _ _ _ hq
          split <;> simp [BrTest.rest] <;> omega
    · exact bracketChar_length ne fn c p

/-- The loop over a bracket (fnmatch.c 319-422). -/
def bracketLoop (ne : Bool) (fn : Char) (c : Char) (p : Str) : BrTest :=
  match h : bracketStep ne fn c p with
  | .next c' p' => bracketLoop ne fn c' p'
  | r => r
termination_by p.length
decreasing_by
  have := (bracketStep_length ne fn c p).2 ⟨_, _, h⟩
  rw [h] at this
  exact this

theorem bracketLoop_length (ne : Bool) (fn c : Char) (p : Str) : (bracketLoop ne fn c p).rest.length ≤ p.length := by
  fun_induction bracketLoop ne fn c p with
  | case1 c p c' p' h ih =>
    have := (bracketStep_length ne fn c p).1
    rw [h] at this
    simp only [BrTest.rest] at this
    omega
  | case2 c p _ => exact (bracketStep_length ne fn c p).1

/-- A bracket after `!` (fnmatch.c 318-457), for the character `fn` of the name. -/
def bracketBody (ne neg : Bool) (fn : Char) : Str → BrEnd
  | [] => .noMatch
  | c :: p =>
    match bracketLoop ne fn c p with
    | .fail => .noMatch
    | .miss p => if neg then .at p else .noMatch
    | .next _ _ => .noMatch
    | .hit c p =>
      match skipMatched ne (some c) p with
      | .noMatch => .noMatch
      | .undef => .undef
      | .at p => if neg then .noMatch else .at p

/-- `not` (fnmatch.c 314). -/
def bracketNot (fl : FnFlags) (p : Str) : Bool :=
  p.head? == some '!' || (!fl.posixly && p.head? == some '^')

/-- A bracket (fnmatch.c 314-457), from the text after `[`, for the character `fn` of the name. -/
def bracket (fl : FnFlags) (fn : Char) (p : Str) : BrEnd :=
  bracketBody fl.noescape (bracketNot fl p) fn (if bracketNot fl p then p.tail else p)

/-- The wildcards after a `*` (fnmatch.c 211-228): the rest of the pattern and of the name, and whether `lead` still holds. -/
def starLoop (fl : FnFlags) (lead : Bool) : (p n : Str) → Option (Bool × Str × Str)
  | [], n => some (lead, [], n)
  | c :: p, n =>
    if c = '?' ∨ c = '*' then
      if n.head? = some '/' ∧ fl.pathname then none
      else if c = '?' then
        match n with
        | [] => none
        | _ :: n => starLoop fl false p n
      else starLoop fl lead p n
    else some (lead, c :: p, n)

/-- A loop `for (; n < endp; ++n)` (fnmatch.c 247, 275): `f` is the body, `endp` is the end or the next slash. -/
def tryFrom (stop : Char → Bool) (f : (lead : Bool) → Str → Option Bool) (lead : Bool) : Str → Option Bool
  | [] => some false
  | x :: n =>
    if stop x then some false
    else
      match f lead (x :: n) with
      | none => none
      | some true => some true
      | some false => tryFrom stop f false n

theorem starLoop_length (fl : FnFlags) : ∀ (p : Str) (lead : Bool) (n : Str) (l : Bool) (p' n' : Str)
    (_ : starLoop fl lead p n = some (l, p', n')), p'.length ≤ p.length
  | [], lead, n, l, p', n', h => by
    cases h; simp
  | c :: p, lead, n, l, p', n', h => by
    unfold starLoop at h
    split at h
    · split at h
      · cases h
      · split at h
        · cases n with
          | nil => cases h
          | cons x n => have := starLoop_length fl p _ _ _ _ _ h; simp; omega
        · have := starLoop_length fl p _ _ _ _ _ h; simp; omega
    · cases h; simp

theorem skipMatched_length (ne : Bool) (c : Option Char) (p q : Str) (h : skipMatched ne c p = .at q) : q.length ≤ p.length := by
  fun_induction skipMatched ne c p with
  | case1 => cases h; simp
  | case2 => cases h
  | case3 => cases h
  | case4 => cases h
  | case5 => have := ‹_ → _› h; simp; omega
  | case6 => cases h
  | case7 => cases h
  | case8 => 
    have h1 := ‹_ → _› h
    have h2 := skipClass_length _ _ ‹skipClass _ = _›
    simp at h1 h2 ⊢
    omega
  | case9 => have := ‹_ → _› h; simp; omega

theorem bracketBody_length (ne neg : Bool) (fn : Char) (p q : Str) (h : bracketBody ne neg fn p = .at q) : q.length ≤ p.length := by
  cases p with
  | nil => cases h
  | cons c p1 =>
    rw [bracketBody] at h
    have h2 := bracketLoop_length ne fn c p1
    cases hb : bracketLoop ne fn c p1 with
    | fail => rw [hb] at h; cases h
    | next => rw [hb] at h; cases h
    | miss r =>
      rw [hb] at h h2
      simp only [BrTest.rest] at h h2
      split at h
      · cases h; simp; omega
      · cases h
    | hit c2 r =>
      rw [hb] at h h2
      simp only [BrTest.rest] at h h2
      cases hs : skipMatched ne (some c2) r with
      | noMatch => rw [hs] at h; cases h
      | undef => rw [hs] at h; cases h
      | «at» r2 =>
        have h3 := skipMatched_length _ _ _ _ hs
        rw [hs] at h
        simp only at h
        split at h
        · cases h
        · cases h; simp; omega

theorem bracket_length (fl : FnFlags) (fn : Char) (p q : Str) (h : bracket fl fn p = .at q) : q.length ≤ p.length := by
  have := bracketBody_length _ _ _ _ _ h
  split at this
  · simp at this; omega
  · exact this

/-- `internal_fnmatch` (fnmatch.c 157-477); none: a read outside of the pattern.  `nlp`: `no_leading_period`; `lead`: `n == string
|| (n[-1] == '/' && (flags & FNM_FILE_NAME))`; `period`: `flags & FNM_PERIOD`. -/
def fnmatchFrom (fl : FnFlags) (period : Bool) (nlp lead : Bool) (p n : Str) : Option Bool :=
  match p with
  | [] => some n.isEmpty
  | c :: p =>
    let slash := fun x => fl.pathname && x == '/'
    let bar := nlp && lead && n.head? == some '.'
    if c = '?' then
      match n with
      | [] => some false
      | x :: n => if slash x || bar then some false else fnmatchFrom fl period nlp (slash x) p n
    else if c = '\\' ∧ fl.noescape = false then
      match p with
      | [] => some false
      | d :: p =>
        match n with
        | [] => some false
        | x :: n => if x = d then fnmatchFrom fl period nlp (slash x) p n else some false
    else if c = '*' then
      if bar then some false
      else
        match h : starLoop fl lead p n with
        | none => some false
        | some (_, [], n) => some !(n.any slash)
        | some (lead, c :: p, n) =>
          if c = '[' then
            tryFrom slash (fun lead n => fnmatchFrom fl period (nlp && lead) true (c :: p) n) lead n
          else if slash c then
            match n.dropWhile (· ≠ '/') with
            | [] => some false
            | _ :: n => fnmatchFrom fl period period true p n
          else
            let d := if c = '\\' ∧ fl.noescape = false then p.head? else some c
            tryFrom slash (fun lead n =>
              if n.head? = d then fnmatchFrom fl period (nlp && lead) true (c :: p) n else some false) lead n
    else if c = '[' then
      match n with
      | [] => some false
      | x :: n =>
        if slash x || bar then some false
        else
          match h : bracket fl x p with
          | .noMatch => some false
          | .undef => none
          | .at p => fnmatchFrom fl period nlp (slash x) p n
    else
      match n with
      | [] => some false
      | x :: n => if x = c then fnmatchFrom fl period nlp (slash x) p n else some false
termination_by p.length
decreasing_by
  · simp
  · simp; omega
  · have := starLoop_length _ _ _ _ _ _ _ h
    simp at this ⊢; omega
  · have := starLoop_length _ _ _ _ _ _ _ h
    simp at this ⊢; omega
  · have := starLoop_length _ _ _ _ _ _ _ h
    simp at this ⊢; omega
  · have := bracket_length _ _ _ _ h
    simp; omega
  · simp

/-- `fnmatch` (fnmatch.c 480-487): does the name match the pattern? -/
def fnmatch (fl : FnFlags) (period : Bool) (p n : Str) : Option Bool := fnmatchFrom fl period period true p n

end Remake
