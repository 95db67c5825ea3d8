import Verif.Read.LineLemmas
/-!
# C16: logical lines
-/
set_option linter.unusedVariables false
namespace Remake
open Spec

/-- **C16** Reading a file without NUL bytes (to its end, with the buffer growing as
needed) gives exactly the logical lines of its text, CR-LF being read as LF: the text is
cut at the newlines preceded by an even number of backslashes and nowhere else, nothing
is lost, and each line's count is the number of newlines it took up. -/
theorem C16_file_partial (f : Str) (h : '\x00' ∉ f) :
    ∃ ls, readFile f = some ls ∧ CountedLines (dropCr f) ls :=
  readFileGo_spec _ f 200 h (by omega) (by omega)

example : '\x00' ∉ "a: b \\\n  c\r\n\techo \\\\\nlast".toList := by decide
example : CountedLines ['a', '\\', '\n', 'b', '\n', 'c']
    [(['a', '\\', '\n', 'b'], 2), (['c'], 1)] := by
  have he : AllEscaped (['a'] ++ ['\\'] ++ ['\n'] ++ ['b']) :=
    allEscaped_append_no_nl (allEscaped_snoc (allEscaped_no_nl (l := ['a']) (by decide)) (by decide) (by decide)) (by decide)
  exact .line (l := ['a', '\\', '\n', 'b']) (rest := ['c']) he
    (by rw [endsOdd_iff]; decide) (.last (by simp) (allEscaped_no_nl (by decide)))

/-- **C16** Whatever the initial buffer size (of at least 80 bytes), the lines read are
the same: growing the buffer never changes a line. -/
theorem C16_buffer_partial (f : Str) (h : '\x00' ∉ f) (size : Nat) (h80 : 80 ≤ size) :
    ∃ ls, readFileGo (f.length + 1) size f = some ls ∧ readFile f = some ls := by
  obtain ⟨ls, h1, h2⟩ := readFileGo_spec (f.length + 1) f size h (by omega) h80
  obtain ⟨ls', h1', h2'⟩ := C16_file_partial f h
  exact ⟨ls, h1, by rw [h1', h2.unique h2']⟩

/-- **C16** Reading from a string (`$(eval)`, command-line text) gives the logical lines
of the string. -/
theorem C16_string (s : Str) : LogicalLines s (readString s) :=
  readStringGo_spec _ s (by omega)

example : readString "x=1\\\n2\ny\\\\\nz".toList = ["x=1\\\n2".toList, "y\\\\".toList, "z".toList] := by
  decide

/-- **C16** A text has only one division into logical lines, so the above determine the
result; and a CR-free text is divided the same way whether it comes from a file or a
string. -/
theorem C16_same_partial (f : Str) (h : '\x00' ∉ f) (hcr : '\r' ∉ f) :
    ∃ ls, readFile f = some ls ∧ ls.map (·.1) = readString f := by
  obtain ⟨ls, h1, h2⟩ := C16_file_partial f h
  have e : dropCr f = f := by
    clear h h1 h2
    induction f with
    | nil => rfl
    | cons c cs ih =>
      simp only [List.mem_cons, not_or] at hcr
      rw [dropCr, if_neg (fun hh => hcr.1 hh.1.symm), ih hcr.2]
  rw [e] at h2
  exact ⟨ls, h1, h2.logical.unique (C16_string f)⟩

example : '\r' ∉ "a\\\nb\nc\n".toList := by decide

/-- **C16** (deviation for NUL bytes): a NUL in the middle of a line swallows not only the
rest of the line, as the warning says for a NUL at its beginning, but also the newline:
the next line is appended. -/
theorem C16_nul_joins_lines :
    (readFile "a\x00b\nc\nd\n".toList).map (·.map (·.1)) = some ["ac".toList, "d".toList] := by
  have h1 : readlineLoop [] 200 0 ("a\x00b\nc\nd\n".toList) = some ⟨1, "ac".toList, 400, "d\n".toList⟩ := by
    rw [readlineLoop.eq_def, dif_neg (by decide), dif_neg (by decide)]
    have e1 : (fgets (200 - ([] : Str).length) "a\x00b\nc\nd\n".toList) = ("a\x00b\n".toList, "c\nd\n".toList) := by decide
    simp only [e1]
    rw [if_pos (by decide)]
    rw [readlineLoop.eq_def, dif_neg (by decide)]
    have e2 : (fgets (200 * 2 - ([] ++ if (List.takeWhile (· != '\x00') "a\x00b\n".toList) = [] then ['\n'] else List.takeWhile (· != '\x00') "a\x00b\n".toList : Str).length) "c\nd\n".toList) = ("c\n".toList, "d\n".toList) := by decide
    rw [e2, dif_neg (by decide)]
    simp only
    rw [if_neg (by decide), if_pos (by decide)]
    rfl
  have h2 : readlineLoop [] 400 0 ("d\n".toList) = some ⟨1, "d".toList, 400, []⟩ := by
    rw [readlineLoop.eq_def, dif_neg (by decide), dif_neg (by decide)]
    have e1 : (fgets (400 - ([] : Str).length) "d\n".toList) = ("d\n".toList, []) := by decide
    simp only [e1]
    rw [if_neg (by decide), if_pos (by decide)]
    rfl
  have h3 : readlineLoop [] 400 0 [] = some ⟨-1, [], 400, []⟩ := by
    rw [readlineLoop.eq_def, dif_pos rfl]; rfl
  have hl : ("a\x00b\nc\nd\n".toList).length + 1 = 9 := by decide
  unfold readFile
  rw [hl]
  simp only [readFileGo, readline, h1, h2, h3]
  decide

end Remake
