/-!
# Strings, character classes and the token scanner

Models `src/makeint.h` lines 398-448, `src/misc.c` lines 217-252 and 764-807.

A C string is modelled by the list of its bytes up to (not including) the
terminating NUL; a `char *` into a string is the remaining suffix.  Byte `b` is
represented by `Char.ofNat b`.  Characters are classified as in the "C" locale.
-/
namespace Remake

/-- NUL-terminated byte string (contents without the NUL). -/
abbrev Str := List Char

/-- `MAP_BLANK` (misc.c 790-791): space and tab. -/
def isBlank (c : Char) : Bool := c == ' ' || c == '\t'

/-- `MAP_NEWLINE` (misc.c 799-803): every `isspace` character that is not blank.
In the C locale: `\n`, `\v`, `\f`, `\r`. -/
def isNewlineClass (c : Char) : Bool :=
  c == '\n' || c == '\x0b' || c == '\x0c' || c == '\r'

/-- `ISSPACE` = `MAP_SPACE` = `MAP_BLANK|MAP_NEWLINE` (makeint.h 420, 446). -/
def isSpace (c : Char) : Bool := isBlank c || isNewlineClass c

/-- `ISDIGIT` (makeint.h): a decimal digit. -/
def isDigitC (c : Char) : Bool := '0' ≤ c && c ≤ '9'

/-- `isalnum` in the C locale. -/
def isAlnumC (c : Char) : Bool :=
  isDigitC c || ('a' ≤ c && c ≤ 'z') || ('A' ≤ c && c ≤ 'Z')

/-- `MAP_USERFUNC` (misc.c 779, 787-788, 804-805): alphanumerics, `.`, `-`, `_`. -/
def isUserFunc (c : Char) : Bool := isAlnumC c || c == '.' || c == '-' || c == '_'

/-- `next_token` / `NEXT_TOKEN` (misc.c 228-233, makeint.h 447). -/
def nextToken (s : Str) : Str := s.dropWhile isSpace

/-- The characters passed over by `end_of_token` (misc.c 219-224). -/
def tokenPrefix (s : Str) : Str := s.takeWhile (fun c => !isSpace c)

/-- `end_of_token` / `END_OF_TOKEN` (misc.c 219-224, makeint.h 448). -/
def endOfToken (s : Str) : Str := s.dropWhile (fun c => !isSpace c)

/-- `find_next_token` (misc.c 239-252): `none` is the NULL return, otherwise the
token text (pointer + length) and the updated `*ptr`. -/
def findNextToken (s : Str) : Option (Str × Str) :=
  match nextToken s with
  | [] => none
  | p => some (tokenPrefix p, endOfToken p)

end Remake
