import Verif.Base.Chars
/-!
# The format of archives

What `ar` writes: a header of 60 bytes for each member, with its name, date, owner and size, then the contents, filled up to an even number of bytes.
Written from the description of the format in `ar(5)`, apart from the model of the reader.
-/
namespace Remake.Spec

/-- A field of a header: filled up with blanks. -/
def arField (n : Nat) (s : Str) : Str := s ++ List.replicate (n - s.length) ' '

/-- A header: `owner` are the fields for user, group and mode. -/
def arHead (name date owner : Str) (size : Nat) : Str :=
  arField 16 name ++ arField 12 date ++ owner ++ arField 10 (Nat.toDigits 10 size) ++ ['`', '\n']

/-- The texts in a header have room there. -/
structure HeadFits (name date owner : Str) (size : Nat) : Prop where
  name : name.length ≤ 16
  date : date.length ≤ 12
  owner : owner.length = 20
  size : size < 10 ^ 10

/-- A member of an archive: its name, whether the name is in the header, the position of the header, its size and its date. -/
structure ArMember where
  name : Str
  inHeader : Bool
  pos : Nat
  size : Nat
  date : Nat
deriving DecidableEq, Repr

/-- A name that can be in a header. -/
structure ShortName (n : Str) : Prop where
  nonempty : n ≠ []
  noNul : Char.ofNat 0 ∉ n
  first : n.head? ≠ some ' ' ∧ n.head? ≠ some '/'
  last : n.getLast? ≠ some ' ' ∧ n.getLast? ≠ some '/'
  plain : ¬ ['#', '1', '/'] <+: n

/-- How a name is written in a header: with a slash after it (as GNU and System V do), or not (BSD).  The name of the table of names cannot be used. -/
def NameField (n t : Str) : Prop := t = n ∨ t = n ++ ['/'] ∧ n ≠ "ARFILENAMES".toList

/-- At `off` the table of long names has the name `n`: the name, a slash (in most archives) and a newline. -/
def TableHas (table : Str) (off : Nat) (n : Str) : Prop :=
  n ≠ [] ∧ Char.ofNat 0 ∉ n ∧ '\n' ∉ n ∧ ∃ pre post, off = pre.length ∧
    (table = pre ++ n ++ '/' :: '\n' :: post ∨ n.getLast? ≠ some '/' ∧ table = pre ++ n ++ '\n' :: post)

/-- `ArText table pos ms t`: the bytes `t`, which start at `pos` in the file, hold the members `ms`; `table` is the table of long names before them. -/
inductive ArText : Option Str → Nat → List ArMember → Str → Prop
  | nil {table : Option Str} {pos : Nat} : ArText table pos [] []
  /-- An index of symbols. -/
  | index {table : Option Str} {pos : Nat} {ms : List ArMember} {t date owner data fill : Str} :
      HeadFits ['/'] date owner data.length → fill.length = data.length % 2 →
      ArText table (pos + 60 + data.length + fill.length) ms t →
      ArText table pos ms (arHead ['/'] date owner data.length ++ data ++ fill ++ t)
  /-- The table of long names; it does not start with an empty line. -/
  | table {table : Option Str} {pos : Nat} {ms : List ArMember} {t date owner data fill : Str} :
      HeadFits ['/', '/'] date owner data.length → fill.length = data.length % 2 →
      data.length < 2 ^ 31 → data.head? ≠ some '\n' →
      ArText (some data) (pos + 60 + data.length + fill.length) ms t →
      ArText table pos ms (arHead ['/', '/'] date owner data.length ++ data ++ fill ++ t)
  /-- A member with its name in the header. -/
  | short {table : Option Str} {pos date : Nat} {ms : List ArMember} {t n field owner data fill : Str} :
      ShortName n → NameField n field →
      HeadFits field (Nat.toDigits 10 date) owner data.length → date < 10 ^ 11 → fill.length = data.length % 2 →
      ArText table (pos + 60 + data.length + fill.length) ms t →
      ArText table pos (⟨n, true, pos, data.length, date⟩ :: ms)
        (arHead field (Nat.toDigits 10 date) owner data.length ++ data ++ fill ++ t)
  /-- A member with its name in the table. -/
  | long {table : Str} {off pos date : Nat} {ms : List ArMember} {t n owner data fill : Str} :
      TableHas table off n → off < 2 ^ 31 →
      HeadFits ('/' :: Nat.toDigits 10 off) (Nat.toDigits 10 date) owner data.length → date < 10 ^ 11 →
      fill.length = data.length % 2 →
      ArText (some table) (pos + 60 + data.length + fill.length) ms t →
      ArText (some table) pos (⟨n, false, pos, data.length, date⟩ :: ms)
        (arHead ('/' :: Nat.toDigits 10 off) (Nat.toDigits 10 date) owner data.length ++ data ++ fill ++ t)
  /-- A member with its name before its contents, filled up with NULs (4.4BSD); the name counts as part of the contents. -/
  | bsd {table : Option Str} {pos date nuls : Nat} {ms : List ArMember} {t n owner data fill : Str} :
      n ≠ [] → Char.ofNat 0 ∉ n → n.length + nuls < 2 ^ 31 →
      HeadFits (['#', '1', '/'] ++ Nat.toDigits 10 (n.length + nuls)) (Nat.toDigits 10 date) owner
        (n ++ List.replicate nuls (Char.ofNat 0) ++ data).length → date < 10 ^ 11 →
      fill.length = (n ++ List.replicate nuls (Char.ofNat 0) ++ data).length % 2 →
      ArText table (pos + 60 + (n ++ List.replicate nuls (Char.ofNat 0) ++ data).length + fill.length) ms t →
      ArText table pos (⟨n, false, pos, (n ++ List.replicate nuls (Char.ofNat 0) ++ data).length, date⟩ :: ms)
        (arHead (['#', '1', '/'] ++ Nat.toDigits 10 (n.length + nuls)) (Nat.toDigits 10 date) owner
            (n ++ List.replicate nuls (Char.ofNat 0) ++ data).length
          ++ (n ++ List.replicate nuls (Char.ofNat 0) ++ data) ++ fill ++ t)

/-- An archive with these members. -/
def IsArchive (ms : List ArMember) (bytes : Str) : Prop :=
  ∃ t, bytes = "!<arch>\n".toList ++ t ∧ ArText none 8 ms t

/-- The part of a name after the last slash. -/
def IsBase (b name : Str) : Prop := '/' ∉ b ∧ (name = b ∨ ∃ d, name = d ++ '/' :: b)

/-- No member whose name is in the header has a name that agrees with `b` in the first 15 characters but is not `b`. -/
def Unambiguous (ms : List ArMember) (b : Str) : Prop :=
  ∀ m ∈ ms, m.inHeader = true → m.name.take 15 = b.take 15 → m.name = b

/-- The first member with a name. -/
def firstMember (ms : List ArMember) (b : Str) : Option ArMember := ms.find? fun m => m.name = b

/-- The members after a member got a new date. -/
def redated (ms : List ArMember) (m : ArMember) (date : Nat) : List ArMember :=
  ms.map fun x => if x.pos = m.pos then { x with date := date } else x

/-- The bytes of a file from `k` on. -/
def bytesAt (bytes : Str) (k n : Nat) : Str := (bytes.drop k).take n

/-- Wherever a header may be (its last two bytes are there), the size has no minus sign. -/
def NoMinus (bytes : Str) : Prop := ∀ k, bytesAt bytes (k + 58) 2 = ['`', '\n'] → '-' ∉ bytesAt bytes (k + 48) 10

/-- No table of long names starts with an empty line. -/
def NoEmptyLine (bytes : Str) : Prop :=
  ∀ k, (['/', '/'] <+: bytesAt bytes k 16 ∨ "ARFILENAMES/".toList <+: bytesAt bytes k 16) → bytesAt bytes (k + 60) 1 ≠ ['\n']

/-- `Unquoted p u`: `u` are the characters of the pattern that no backslash quotes. -/
inductive Unquoted : Str → Str → Prop
  | nil : Unquoted [] []
  | lone : Unquoted ['\\'] []
  | quoted {c : Char} {p u : Str} : Unquoted p u → Unquoted ('\\' :: c :: p) u
  | char {c : Char} {p u : Str} : c ≠ '\\' → Unquoted p u → Unquoted (c :: p) (c :: u)

/-- The characters of a pattern make it one with wildcards. -/
def Wild (u : Str) : Prop := '?' ∈ u ∨ '*' ∈ u ∨ ∃ a b c, u = a ++ '[' :: b ++ ']' :: c

end Remake.Spec
