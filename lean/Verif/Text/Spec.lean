import Verif.Base.Chars
/-!
# Specification vocabulary for the text functions

Small, model-independent definitions in which the properties C04-C15, C17, C19 are stated.
-/
namespace Remake.Spec
open Remake

/-- The whitespace-separated words of a text. -/
def wordsOf (s : Str) : List Str := (s.splitOnP isSpace).filter (fun w => !w.isEmpty)

/-- A list of words written with single spaces between them. -/
def unwords (ws : List Str) : Str := [' '].intercalate ws

/-- Pairwise concatenation of two lists, keeping the excess of the longer one. -/
def zipLong : List Str → List Str → List Str
  | [], bs => bs
  | as, [] => as
  | a :: as, b :: bs => (a ++ b) :: zipLong as bs

/-- Decimal numeral of `n`. -/
def numeral (n : Nat) : Str := (toString n).toList

/-- `s` is a decimal numeral of value `n`, possibly with leading zeros and surrounded by
white space. -/
def IsNumeral (s : Str) (n : Nat) : Prop :=
  ∃ a z b, s = a ++ (List.replicate z '0' ++ numeral n) ++ b ∧ a.all isSpace ∧ b.all isSpace

/-- A `%`-pattern after quoting has been resolved. -/
inductive Pct where
  /-- no unquoted `%` -/
  | lit (s : Str)
  /-- `pre % post` -/
  | pat (pre post : Str)
deriving DecidableEq, Repr

/-- Put text in front of a pattern. -/
def Pct.prepend (a : Str) : Pct → Pct
  | .lit s => .lit (a ++ s)
  | .pat pre post => .pat (a ++ pre) post

/-- A resolved pattern as plain text. -/
def Pct.text : Pct → Str
  | .lit s => s
  | .pat pre post => pre ++ '%' :: post

/-- How a written pattern is to be read: backslashes directly before a `%` quote each
other in pairs; an odd one quotes the `%`; the first unquoted `%` is the pattern
character and what follows it is taken verbatim. -/
inductive ReadsAs (stop : Char) : Str → Pct → Prop where
  | none {s : Str} : stop ∉ s → ReadsAs stop s (.lit s)
  | unquoted {a post : Str} {k : Nat} : stop ∉ a → a.getLast? ≠ some '\\' →
      ReadsAs stop (a ++ List.replicate (2 * k) '\\' ++ stop :: post)
        (.pat (a ++ List.replicate k '\\') post)
  | quoted {a rest : Str} {k : Nat} {p : Pct} : stop ∉ a → a.getLast? ≠ some '\\' →
      ReadsAs stop rest p →
      ReadsAs stop (a ++ List.replicate (2 * k + 1) '\\' ++ stop :: rest)
        (p.prepend (a ++ List.replicate k '\\' ++ [stop]))

/-- A resolved pattern matches a word: equal, or `pre ++ stem ++ post`. -/
def Pct.Matches : Pct → Str → Prop
  | .lit s, w => w = s
  | .pat pre post, w => ∃ stem, w = pre ++ stem ++ post

/-- The written pattern `p` matches `w`. -/
def WrittenMatches (p w : Str) : Prop := ∃ q, ReadsAs '%' p q ∧ q.Matches w

/-- `Occurs sub t i`: `sub` occurs in `t` at offset `i`. -/
def OccursAt (sub t : Str) (i : Nat) : Prop := sub <+: t.drop i

/-- `out` is `t` with the occurrences of `sub`, taken from the left without overlap,
replaced by `rep`. -/
inductive Substituted (sub rep : Str) : Str → Str → Prop where
  | none {t : Str} : (∀ i ≤ t.length, ¬ OccursAt sub t i) → Substituted sub rep t t
  | here {b rest out : Str} :
      (∀ i < b.length, ¬ OccursAt sub (b ++ sub ++ rest) i) →
      Substituted sub rep rest out →
      Substituted sub rep (b ++ sub ++ rest) (b ++ rep ++ out)

/-- The spacing of a text is kept, each word is mapped. -/
inductive WordMapped (f : Str → Str) : Str → Str → Prop where
  | done {s : Str} : (∀ c ∈ s, isSpace c = true) → WordMapped f s s
  | word {a w r out : Str} : (∀ c ∈ a, isSpace c = true) → w ≠ [] → (∀ c ∈ w, isSpace c = false) →
      (∀ c, r.head? = some c → isSpace c = true) → WordMapped f r out →
      WordMapped f (a ++ w ++ r) (a ++ f w ++ out)

/-- What one word becomes under a substitution `pre%post -> rep`. -/
def PatsubstWord (pre post : Str) (rep : Pct) (w out : Str) : Prop :=
  (∃ stem, w = pre ++ stem ++ post ∧
    match rep with
    | .lit r => out = r
    | .pat a b => out = a ++ stem ++ b) ∨
  ((¬ ∃ stem, w = pre ++ stem ++ post) ∧ out = w)

/-- `d` and `n` are the directory part and the file-within-directory part of `w`. -/
def DirSplit (w d n : Str) : Prop :=
  w = d ++ n ∧ '/' ∉ n ∧ (d = [] ∨ d.getLast? = some '/')

/-- `b` and `x` are the basename and the suffix of `w`: the suffix is empty or starts with
the last `.` of the last file-name component. -/
def SuffixSplit (w b x : Str) : Prop :=
  w = b ++ x ∧
  ((x = [] ∧ ∃ d n, DirSplit w d n ∧ '.' ∉ n) ∨
   (∃ t, x = '.' :: t ∧ '.' ∉ t ∧ '/' ∉ t))

/-- Remove each `\r` that is directly followed by `\n`. -/
def dropCr : Str → Str
  | [] => []
  | c :: cs => if c = '\r' ∧ cs.head? = some '\n' then dropCr cs else c :: dropCr cs

/-- Trailing newlines removed. -/
def rtrimNl (s : Str) : Str := (s.reverse.dropWhile (· == '\n')).reverse

/-- One trailing newline removed. -/
def chompNl (s : Str) : Str := if s.getLast? = some '\n' then s.dropLast else s

/-- `m` is `s` without the white space at both ends. -/
def IsTrim (s m : Str) : Prop :=
  ∃ a b, s = a ++ m ++ b ∧ (∀ c ∈ a, isSpace c = true) ∧ (∀ c ∈ b, isSpace c = true) ∧
    (∀ c, m.head? = some c → isSpace c = false) ∧ (∀ c, m.getLast? = some c → isSpace c = false) ∧
    (m = [] → a ++ b = s)

/-- The texts of the first list, trimmed. -/
inductive Trims : List Str → List Str → Prop where
  | nil : Trims [] []
  | cons {a c : Str} {as cs : List Str} : IsTrim a c → Trims as cs → Trims (a :: as) (c :: cs)

/-- Expanding the texts in order from state `s` ends in state `s'`, and every expansion
satisfies `P`. -/
inductive ExpandSeq {σ : Type} (expand : Str → σ → Str × σ) (P : Str → Prop) :
    List Str → σ → σ → Prop where
  | nil {s : σ} : ExpandSeq expand P [] s s
  | cons {a : Str} {as : List Str} {s s' : σ} : P (expand a s).1 →
      ExpandSeq expand P as (expand a s).2 s' → ExpandSeq expand P (a :: as) s s'

/-- Blanks at the end of `s` removed. -/
def rtrimBlank (s : Str) : Str := (s.reverse.dropWhile isBlank).reverse

/-- A text with backslash-newlines collapsed.  An odd run of backslashes before a newline
ends in a continuation: the newline, the odd backslash and the blanks that follow
become one space, the other backslashes are halved; outside POSIX mode the blanks before the
backslash go too.  An even run is halved and the newline stays. -/
inductive Collapsed (posix : Bool) : Str → Str → Prop where
  | last {l : Str} : '\n' ∉ l → Collapsed posix l l
  | plain {a rest out : Str} {k : Nat} : '\n' ∉ a → a.getLast? ≠ some '\\' →
      Collapsed posix rest out →
      Collapsed posix (a ++ List.replicate (2 * k) '\\' ++ '\n' :: rest)
        (a ++ List.replicate k '\\' ++ '\n' :: out)
  | cont {a rest out : Str} {k : Nat} : '\n' ∉ a → a.getLast? ≠ some '\\' →
      Collapsed posix (rest.dropWhile isBlank) out →
      Collapsed posix (a ++ List.replicate (2 * k + 1) '\\' ++ '\n' :: rest)
        (if posix then a ++ List.replicate k '\\' ++ ' ' :: out
         else rtrimBlank (a ++ List.replicate k '\\') ++ ' ' :: out.dropWhile isBlank)

/-- Newlines to spaces. -/
def nlToSpace (s : Str) : Str := s.map (fun c => if c = '\n' then ' ' else c)

end Remake.Spec
