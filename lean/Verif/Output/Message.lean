import Verif.Output.Lemmas2
import Verif.Text.Lemmas

/-!
# Messages

Models `src/output.c` lines 80-146 (`log_working_directory`) and 541-658 (`get_buffer`, `message`, `error`, `fatal`), and the macros of
`src/makeint.h` 467, 488-500 that call them.

Simplifications.  A format is a list of pieces: text, `%s` with its string, and conversions of numbers with their texts (`%u`, `%lu`, `%d`);
the number of characters of a conversion in the format is at least 2.  The text of a message is `Str`, without the NUL, and its length is the
number of bytes.  `outputs` is not followed here.
-/
set_option linter.unusedVariables false
namespace Remake

/-- `INTSTR_LENGTH` (makeint.h 467). -/
def intstrLength : Nat := 20

/-- A piece of a format with its argument (makeint.h 488-500): text, a string, or a number with the length of its conversion. -/
inductive FmtPiece where
  | lit (s : Str)
  | str (s : Str)
  | num (conv : Nat) (n : Int)
deriving DecidableEq, Repr

/-- The text of a number. -/
def numText (n : Int) : Str :=
  match n with
  | .ofNat k => Nat.toDigits 10 k
  | .negSucc k => '-' :: Nat.toDigits 10 (k + 1)

/-- What `vsprintf` makes of a piece. -/
def FmtPiece.render : FmtPiece → Str
  | .lit s => s
  | .str s => s
  | .num _ n => numText n

/-- The characters of the format: its share of `strlen (fmt)` (output.c 570, 600, 632). -/
def FmtPiece.fmtLen : FmtPiece → Nat
  | .lit s => s.length
  | .str _ => 2
  | .num conv _ => conv

/-- What the macros pass for a piece (makeint.h 488-500): `strlen` of strings and `INTSTR_LENGTH` for numbers. -/
def FmtPiece.argLen : FmtPiece → Nat
  | .lit _ => 0
  | .str s => s.length
  | .num _ _ => intstrLength

/-- The text of a format with its arguments. -/
def renderFmt (l : List FmtPiece) : Str := l.flatMap FmtPiece.render
/-- The length of the format. -/
def fmtLen (l : List FmtPiece) : Nat := (l.map FmtPiece.fmtLen).sum
/-- The length that the macros pass (makeint.h 488-500). -/
def argLen (l : List FmtPiece) : Nat := (l.map FmtPiece.argLen).sum

/-- The prefix with the name of the program (output.c 576-579, 607-610, 639-642); `stars` is the text `*** ` of `fatal`. -/
def programPrefix (program : Str) (makelevel : Nat) (stars : Str) : Str :=
  if makelevel = 0 then program ++ ": ".toList ++ stars
  else program ++ "[".toList ++ Nat.toDigits 10 makelevel ++ "]: ".toList ++ stars

/-- The prefix with the place (output.c 605-606, 637-638). -/
def locPrefix (file : Str) (line : Nat) (stars : Str) : Str :=
  file ++ ":".toList ++ Nat.toDigits 10 line ++ ": ".toList ++ stars

/-- The static buffer: its size (output.c 541-545). -/
abbrev FmtBuf := Nat

/-- `get_buffer` (output.c 547-560): the new size. -/
def getBuffer (size need : Nat) : Nat := if need > size then size + need * 2 else size

/-- `message` (output.c 564-590): the size asked for, and the text. -/
def messageText (program : Str) (makelevel len : Nat) (pre : Bool) (fmt : List FmtPiece) : Nat × Str :=
  (len + fmtLen fmt + program.length + intstrLength + 4 + 1 + 1,
   (if pre then programPrefix program makelevel [] else []) ++ renderFmt fmt ++ "\n".toList)

/-- `error` (output.c 594-621). -/
def errorText (program : Str) (makelevel : Nat) (loc : Option (Str × Nat)) (len : Nat) (fmt : List FmtPiece) : Nat × Str :=
  (len + (fmtLen fmt + program.length + (match loc with | some (f, _) => f.length | none => 0) + intstrLength + 4 + 1 + 1),
   (match loc with | some (f, n) => locPrefix f n [] | none => programPrefix program makelevel []) ++ renderFmt fmt ++ "\n".toList)

/-- `fatal` (output.c 625-658); `stop` is the translated text `.  Stop.`. -/
def fatalText (program : Str) (makelevel : Nat) (stop : Str) (loc : Option (Str × Nat)) (len : Nat) (fmt : List FmtPiece) : Nat × Str :=
  (len + (fmtLen fmt + program.length + (match loc with | some (f, _) => f.length | none => 0) + intstrLength + 8 + stop.length + 1),
   (match loc with | some (f, n) => locPrefix f n "*** ".toList | none => programPrefix program makelevel "*** ".toList) ++ renderFmt fmt ++ stop)

/-- The pieces of the message on the directory (output.c 95-117): `a`, `b` and `c` are the texts around the conversions in the translated
format, e.g. none, `: Entering directory '` and `'` and newline. -/
def dirFmt (program : Str) (makelevel : Nat) (dir : Option Str) (a b c d : Str) : List FmtPiece :=
  [.lit a, .str program] ++ (if makelevel = 0 then [] else [.lit b, .num 2 makelevel]) ++ [.lit c] ++
    (match dir with | some x => [.str x, .lit d] | none => [])

/-- `log_working_directory` (output.c 80-146): the size asked for and the text. -/
def logDirText (program : Str) (makelevel : Nat) (dir : Option Str) (database : Bool) (a b c d : Str) : Nat × Str :=
  (program.length + intstrLength + 2 + 1 + (match dir with | some x => x.length | none => 0) + fmtLen (dirFmt program makelevel dir a b c d),
   (if database then "# ".toList else []) ++ renderFmt (dirFmt program makelevel dir a b c d))

/-! ## Lemmas -/

theorem toDigits_len (k : Nat) : ∀ n, n < 10 ^ (k + 1) → (Nat.toDigits 10 n).length ≤ k + 1 := by
  induction k with
  | zero => intro n h; rw [Nat.toDigits_of_lt_base (by omega)]; simp
  | succ k ih =>
    intro n h
    by_cases hn : n < 10
    · rw [Nat.toDigits_of_lt_base hn]; simp
    · rw [Nat.toDigits_of_base_le (by omega) (by omega), List.length_append]
      have := ih (n / 10) (by rw [Nat.pow_succ] at h; omega)
      simp; omega

theorem toDigits_u64 (n : Nat) (h : n < 2 ^ 64) : (Nat.toDigits 10 n).length ≤ 20 := toDigits_len 19 n (by omega)

theorem toDigits_u32 (n : Nat) (h : n < 2 ^ 32) : (Nat.toDigits 10 n).length ≤ 10 := toDigits_len 9 n (by omega)

/-- The numbers of a format are those of C types. -/
def FmtPiece.Fits : FmtPiece → Prop
  | .num conv n => 2 ≤ conv ∧ -(2 ^ 63) ≤ n ∧ n < 2 ^ 64
  | _ => True

theorem numText_len (n : Int) (h1 : -(2 ^ 63) ≤ n) (h2 : n < 2 ^ 64) : (numText n).length ≤ 20 := by
  unfold numText
  split
  · rename_i k; exact toDigits_u64 k (by have : (Int.ofNat k) = (k : Int) := rfl; omega)
  · rename_i k
    have := toDigits_len 18 (k + 1) (by have := Int.negSucc_eq k; omega)
    simp only [List.length_cons]; omega

theorem render_len (l : List FmtPiece) (h : ∀ p ∈ l, p.Fits) : (renderFmt l).length ≤ argLen l + fmtLen l := by
  induction l with
  | nil => simp [renderFmt]
  | cons p l ih =>
    have := ih (fun q hq => h q (List.mem_cons_of_mem _ hq))
    simp only [renderFmt, List.flatMap_cons, List.length_append, argLen, fmtLen, List.map_cons, List.sum_cons] at this ⊢
    have hp := h p List.mem_cons_self
    have : p.render.length ≤ p.argLen + p.fmtLen := by
      cases p with
      | lit s => simp [FmtPiece.render, FmtPiece.argLen, FmtPiece.fmtLen]
      | str s => simp [FmtPiece.render, FmtPiece.argLen, FmtPiece.fmtLen]
      | num conv n =>
        have := numText_len n hp.2.1 hp.2.2
        simp only [FmtPiece.render, FmtPiece.argLen, FmtPiece.fmtLen, intstrLength]; omega
    omega

theorem programPrefix_len (program : Str) (lvl : Nat) (stars : Str) (h : lvl < 2 ^ 32) :
    (programPrefix program lvl stars).length ≤ program.length + 14 + stars.length := by
  unfold programPrefix
  have := toDigits_u32 lvl h
  split <;> simp <;> omega

theorem locPrefix_len (file : Str) (line : Nat) (stars : Str) (h : line < 2 ^ 64) :
    (locPrefix file line stars).length ≤ file.length + 23 + stars.length := by
  unfold locPrefix
  have := toDigits_u64 line h
  simp; omega

/-! ## Properties -/

/-- C86.  `message`: the text and its NUL fit in the size asked for, if the caller has passed at least what its arguments take beyond their
conversions; the macros always have. -/
theorem C86_message (program : Str) (lvl len : Nat) (pre : Bool) (fmt : List FmtPiece) (hl : lvl < 2 ^ 32)
    (hfmt : (renderFmt fmt).length ≤ len + fmtLen fmt) :
    (messageText program lvl len pre fmt).2.length + 1 ≤ (messageText program lvl len pre fmt).1 := by
  have := programPrefix_len program lvl [] hl
  simp only [messageText, intstrLength]
  split <;> simp at this ⊢ <;> omega

/-- C86.  `error`. -/
theorem C86_error (program : Str) (lvl len : Nat) (loc : Option (Str × Nat)) (fmt : List FmtPiece) (hl : lvl < 2 ^ 32)
    (hloc : ∀ f n, loc = some (f, n) → n < 2 ^ 64) (hfmt : (renderFmt fmt).length ≤ len + fmtLen fmt) :
    (errorText program lvl loc len fmt).2.length + 1 ≤ (errorText program lvl loc len fmt).1 := by
  simp only [errorText, intstrLength]
  cases loc with
  | none =>
    have := programPrefix_len program lvl [] hl
    simp at this ⊢; omega
  | some q =>
    obtain ⟨f, n⟩ := q
    have := locPrefix_len f n [] (hloc f n rfl)
    simp at this ⊢; omega

/-- C86.  `fatal`, in any language. -/
theorem C86_fatal (program : Str) (lvl len : Nat) (stop : Str) (loc : Option (Str × Nat)) (fmt : List FmtPiece) (hl : lvl < 2 ^ 32)
    (hloc : ∀ f n, loc = some (f, n) → n < 2 ^ 64) (hfmt : (renderFmt fmt).length ≤ len + fmtLen fmt) :
    (fatalText program lvl stop loc len fmt).2.length + 1 ≤ (fatalText program lvl stop loc len fmt).1 := by
  simp only [fatalText, intstrLength]
  cases loc with
  | none =>
    have := programPrefix_len program lvl "*** ".toList hl
    simp at this ⊢; omega
  | some q =>
    obtain ⟨f, n⟩ := q
    have := locPrefix_len f n "*** ".toList (hloc f n rfl)
    simp at this ⊢; omega

/-- C86.  What the macros `O`, `OS`, `ON` and so on pass is enough, whatever the strings and numbers are. -/
theorem C86_macros (fmt : List FmtPiece) (h : ∀ p ∈ fmt, p.Fits) : (renderFmt fmt).length ≤ argLen fmt + fmtLen fmt := render_len fmt h

/-- C86.  The buffer is always as large as asked for, after any messages, and never shrinks. -/
theorem C86_buffer (size need : Nat) : need ≤ getBuffer size need ∧ size ≤ getBuffer size need := by
  unfold getBuffer; split <;> omega

/-- C86.  The message on the directory, for any program, directory, level and translation. -/
theorem C86_directory (program : Str) (lvl : Nat) (dir : Option Str) (db : Bool) (a b c d : Str) (hl : lvl < 2 ^ 32) :
    (logDirText program lvl dir db a b c d).2.length + 1 ≤ (logDirText program lvl dir db a b c d).1 := by
  have hn : (numText (lvl : Int)).length ≤ 10 := by
    have : numText (lvl : Int) = Nat.toDigits 10 lvl := rfl
    rw [this]; exact toDigits_u32 lvl hl
  simp only [logDirText, dirFmt, intstrLength]
  cases dir <;> cases db <;> by_cases h0 : lvl = 0 <;>
    simp [h0, renderFmt, fmtLen, FmtPiece.render, FmtPiece.fmtLen] <;> omega

/-- C86.  The callers that pass a length of their own, each with any names: two recipes for a file (file.c 113-128), too few arguments for a
function (function.c 2231-2233, where fewer than 4 are expected), no closing parenthesis (function.c 2309-2311), an option without its
argument (main.c 2723-2725, 2787-2789), no rule for a target (remake.c 391-409).  The texts between the conversions are any, for translations. -/
theorem C86_callers (t1 t2 t3 t4 x y z : Str) (line : Nat) (hline : line < 2 ^ 64) (argc : Nat) (ha : argc < 4) (ch : Char) :
    (renderFmt [.lit t1, .str x, .lit t2, .str y, .lit t3, .num 3 line, .lit t4]).length ≤
      (x.length + y.length + intstrLength) + fmtLen [.lit t1, .str x, .lit t2, .str y, .lit t3, .num 3 line, .lit t4] ∧
    (renderFmt [.lit t1, .str x, .lit t2]).length ≤ x.length + fmtLen [.lit t1, .str x, .lit t2] ∧
    (renderFmt [.lit t1, .str x, .lit t2, .str y, .lit t3]).length ≤ (x.length + y.length) + fmtLen [.lit t1, .str x, .lit t2, .str y, .lit t3] ∧
    (renderFmt [.lit t1, .num 2 argc, .lit t2, .str x, .lit t3]).length ≤ x.length + fmtLen [.lit t1, .num 2 argc, .lit t2, .str x, .lit t3] ∧
    (renderFmt [.lit t1, .str x, .lit t2, .str [ch], .lit t3]).length ≤ x.length + fmtLen [.lit t1, .str x, .lit t2, .str [ch], .lit t3] ∧
    (∀ dash : Str, dash.length ≤ 2 → (renderFmt [.lit t1, .str dash, .str x, .lit t2]).length ≤ x.length + fmtLen [.lit t1, .str dash, .str x, .lit t2]) ∧
    (renderFmt [.lit t1, .str [ch], .lit t2]).length ≤ 0 + fmtLen [.lit t1, .str [ch], .lit t2] ∧
    (∀ stars dot : Str, stars.length ≤ 4 → dot.length ≤ 1 →
      (renderFmt [.str stars, .lit t1, .str x, .lit t2, .str y, .lit t3, .str dot]).length ≤
        (x.length + y.length + 4) + fmtLen [.str stars, .lit t1, .str x, .lit t2, .str y, .lit t3, .str dot] ∧
      (renderFmt [.str stars, .lit t1, .str x, .lit t2, .str dot]).length ≤ (x.length + 4) + fmtLen [.str stars, .lit t1, .str x, .lit t2, .str dot]) := by
  have h1 : (numText (line : Int)).length ≤ 20 := numText_len _ (by omega) (by omega)
  have h2 : (numText (argc : Int)).length ≤ 1 := by
    have : numText (argc : Int) = Nat.toDigits 10 argc := rfl
    rw [this]; exact toDigits_len 0 argc (by omega)
  refine ⟨?_, ?_, ?_, ?_, ?_, ?_, ?_, ?_⟩
  all_goals simp only [renderFmt, fmtLen, FmtPiece.render, FmtPiece.fmtLen, intstrLength, List.flatMap_cons, List.flatMap_nil, List.length_append,
      List.map_cons, List.map_nil, List.sum_cons, List.sum_nil, List.length_nil, List.length_cons]
  · omega
  · omega
  · omega
  · omega
  · omega
  · intro dash h; omega
  · omega
  · intro stars dot hs hd; constructor <;> omega

/-- The message for a missing rule (remake.c 391-399) asks for 4 characters for the texts `*** ` and `.`; the conversions make up for it. -/
example (name parent : Str) : (renderFmt [.str "*** ".toList, .lit "No rule to make target '".toList, .str name, .lit "', needed by '".toList, .str parent, .lit "'".toList, .str ".".toList]).length ≤
    (name.length + parent.length + 4) + fmtLen [.str "*** ".toList, .lit "No rule to make target '".toList, .str name, .lit "', needed by '".toList, .str parent, .lit "'".toList, .str ".".toList] := by
  simp [renderFmt, fmtLen, FmtPiece.render, FmtPiece.fmtLen]; omega

/-- A message on the directory in the first make. -/
example : (logDirText "make".toList 0 (some "/tmp".toList) true [] [] ": Entering directory '".toList "'\n".toList) =
    (4 + 20 + 2 + 1 + 4 + 28, "# make: Entering directory '/tmp'\n".toList) := by decide +kernel

end Remake
