import Verif.FileFn.Lemmas

/-!
# C127: the function `file`

The buffer `b` is the one the expansion is written to: a call gives a text by adding it there.
-/
set_option linter.unusedVariables false
set_option linter.unusedSimpArgs false
namespace Remake
open Spec

/-! ## Writing -/

/-- `$(file >NAME,TEXT)` makes the file consist of the text as whole lines, changes no other file and gives nothing. -/
theorem C127_write (errs : FileErrs) (move : Nat → Nat → Nat) {arg name t : Str} (h : Asks arg .write name) (files : Str → Option Str)
    (b : OutBuf) (ho : errs.openWrite name = false) (hw : errs.write name = false) :
    ∃ l files', funcFile errs move arg (some t) files b = .done b files' ∧ AsLines t l ∧ files' name = some l ∧ SameBut name files files' := by
  obtain ⟨fn, rfl, e⟩ := funcFile_asks errs move h (some t) files b
  obtain ⟨_, _, _, hn, _⟩ := h
  refine ⟨fileLine t, putFile files (nextToken fn) (fileLine t), ?_, fileLine_spec t, by simp [putFile], fun n hne => by simp [putFile, hne]⟩
  rw [e]; simp [fileWrite, fileName_ne_nil hn, ho, hw]

/-- `$(file >>NAME,TEXT)` adds the text as whole lines at the end of the file, which may be missing, changes no other file and gives
nothing. -/
theorem C127_append (errs : FileErrs) (move : Nat → Nat → Nat) {arg name t : Str} (h : Asks arg .append name) (files : Str → Option Str)
    (b : OutBuf) (ho : errs.openWrite name = false) (hw : errs.write name = false) :
    ∃ old l files', funcFile errs move arg (some t) files b = .done b files' ∧
      (files name = some old ∨ files name = none ∧ old = []) ∧ AsLines t l ∧ files' name = some (old ++ l) ∧ SameBut name files files' := by
  obtain ⟨fn, rfl, e⟩ := funcFile_asks errs move h (some t) files b
  obtain ⟨_, _, _, hn, _⟩ := h
  refine ⟨(files (nextToken fn)).getD [], fileLine t, putFile files (nextToken fn) ((files (nextToken fn)).getD [] ++ fileLine t), ?_, ?_,
    fileLine_spec t, by simp [putFile], fun n hne => by simp [putFile, hne]⟩
  · rw [e]; simp [fileWrite, fileName_ne_nil hn, ho, hw]
  · cases files (nextToken fn) <;> simp

/-- Without a text `>` makes the file empty and `>>` leaves what is there, or makes an empty file. -/
theorem C127_no_text (errs : FileErrs) (move : Nat → Nat → Nat) {arg name : Str} {op : FileOp} (hop : op ≠ .read) (h : Asks arg op name)
    (files : Str → Option Str) (b : OutBuf) (ho : errs.openWrite name = false) :
    ∃ files', funcFile errs move arg none files b = .done b files' ∧ SameBut name files files' ∧
      (op = .write ∨ files name = none → files' name = some []) ∧ (∀ old, op = .append → files name = some old → files' name = some old) := by
  obtain ⟨fn, rfl, e⟩ := funcFile_asks errs move h none files b
  obtain ⟨_, _, _, hn, _⟩ := h
  cases op with
  | read => exact absurd rfl hop
  | write =>
    refine ⟨putFile files (nextToken fn) [], ?_, fun n hne => by simp [putFile, hne], fun _ => by simp [putFile], fun _ h => by cases h⟩
    rw [e]; simp [fileWrite, fileName_ne_nil hn, ho]
  | append =>
    refine ⟨putFile files (nextToken fn) ((files (nextToken fn)).getD []), ?_, fun n hne => by simp [putFile, hne], ?_, ?_⟩
    · rw [e]; simp [fileWrite, fileName_ne_nil hn, ho]
    · intro h
      rcases h with h | h
      · cases h
      · simp [putFile, h]
    · intro old _ h; simp [putFile, h]

/-- Any number of `$(file >>NAME,TEXT)`, one after the other, leave the texts as lines in their order after what was there. -/
theorem C127_history (errs : FileErrs) (move : Nat → Nat → Nat) {arg name : Str} (h : Asks arg .append name) (ts : List Str)
    (files : Str → Option Str) (b : OutBuf) (old : Str) (hold : files name = some old) (ho : errs.openWrite name = false)
    (hw : errs.write name = false) :
    ∃ ls files', fileCalls errs move (ts.map fun t => (arg, some t)) files b = .done b files' ∧ WholeLines ts ls ∧
      files' name = some (old ++ ls) ∧ SameBut name files files' := by
  induction ts generalizing files old with
  | nil => exact ⟨[], files, rfl, .nil, by simpa using hold, fun _ _ => rfl⟩
  | cons t ts ih =>
    obtain ⟨old', l, f1, e1, h1, h2, h3, h4⟩ := C127_append errs move h (t := t) files b ho hw
    have : old' = old := by
      rcases h1 with h1 | h1
      · rw [hold] at h1; exact (Option.some.inj h1).symm
      · rw [hold] at h1; cases h1.1
    subst this
    obtain ⟨ls, f2, e2, g1, g2, g3⟩ := ih f1 (old' ++ l) h3
    refine ⟨l ++ ls, f2, ?_, .cons h2 g1, by rw [g2, List.append_assoc], fun n hn => (g3 n hn).trans (h4 n hn)⟩
    simp only [List.map_cons, fileCalls, e1]
    exact e2

/-! ## Reading -/

/-- `$(file <NAME)` for a file that is not there gives nothing and changes nothing. -/
theorem C127_missing (errs : FileErrs) (move : Nat → Nat → Nat) {arg name : Str} (h : Asks arg .read name) (files : Str → Option Str)
    (b : OutBuf) (ho : errs.openRead name = false) (hf : files name = none) : funcFile errs move arg none files b = .done b files := by
  obtain ⟨fn, rfl, e⟩ := funcFile_asks errs move h none files b
  obtain ⟨_, _, _, hn, _⟩ := h
  rw [e]; simp [fileRead, fileName_ne_nil hn, ho, hf]

/-- `$(file <NAME)` gives the content without its last end of line and changes no file, if the content fits into the buffer as it is. -/
theorem C127_read_fits_partial (errs : FileErrs) (move : Nat → Nat → Nat) {arg name c : Str} (h : Asks arg .read name)
    (files : Str → Option Str) (b : OutBuf) (ho : errs.openRead name = false) (hr : errs.read name = false) (hf : files name = some c)
    (hfit : b.text.length + c.length + 5 ≤ b.len) :
    ∃ r, CutEol c r ∧ funcFile errs move arg none files b = .done ⟨b.base, b.len, b.text ++ r⟩ files := by
  obtain ⟨fn, rfl, e⟩ := funcFile_asks errs move h none files b
  obtain ⟨_, _, _, hn, _⟩ := h
  obtain ⟨r, h1, h2⟩ := cutNewline_spec b.ptr { b with text := b.text ++ c } b.text c rfl (Nat.le_refl _) (Or.inl rfl)
  refine ⟨r, h1, ?_⟩
  have h3 : ∀ (p : Nat) (x : OutBuf), (cutNewline p x).base = x.base ∧ (cutNewline p x).len = x.len := by
    intro p x; unfold cutNewline; split
    · dsimp only; split <;> exact ⟨rfl, rfl⟩
    · exact ⟨rfl, rfl⟩
  rw [e]; simp only [fileRead, fileName_ne_nil hn, ho, hf, hr, freadLoop_fits move c b hfit]
  have h4 := h3 b.ptr { b with text := b.text ++ c }
  generalize cutNewline b.ptr { b with text := b.text ++ c } = x at h2 h4
  cases x
  simp at h2 h4
  simp [h2, h4]

/-- If the buffer has to grow the same holds when it is never moved to a lower address and not just a newline is read after a carriage
return. -/
theorem C127_read_grown_partial (errs : FileErrs) (move : Nat → Nat → Nat) (hm : ∀ a n, a ≤ move a n) {arg name c : Str}
    (h : Asks arg .read name) (files : Str → Option Str) (b : OutBuf) (ho : errs.openRead name = false) (hr : errs.read name = false)
    (hf : files name = some c) (hc : c ≠ ['\n'] ∨ ¬ EndsIn '\r' b.text) :
    ∃ r b', CutEol c r ∧ funcFile errs move arg none files b = .done b' files ∧ b'.text = b.text ++ r := by
  obtain ⟨fn, rfl, e⟩ := funcFile_asks errs move h none files b
  obtain ⟨_, _, _, hn, _⟩ := h
  have hb := freadLoop_base move hm c b
  by_cases hc0 : c = []
  · subst hc0
    refine ⟨[], b, Or.inr (Or.inr ⟨rfl, by rw [endsIn_iff]; simp⟩), ?_, by simp⟩
    have : freadLoop move [] b = b := by rw [freadLoop]; simp
    rw [e]; simp [fileRead, fileName_ne_nil hn, ho, hf, hr, this, cutNewline]
  · obtain ⟨r, h1, h2⟩ := cutNewline_spec b.ptr (freadLoop move c b) b.text c (freadLoop_text move c b)
      (by unfold OutBuf.ptr; omega) (by rcases hc with h | h <;> simp [h, hc0])
    refine ⟨r, _, h1, ?_, h2⟩
    rw [e]; simp [fileRead, fileName_ne_nil hn, ho, hf, hr]

/-- It is false in general: where the buffer that has to grow is moved below its old place, far enough, the newline is kept.  For every
content of a block that ends in a newline and does not fit. -/
theorem C127_newline_kept (errs : FileErrs) (move : Nat → Nat → Nat) {arg name c : Str} (h : Asks arg .read name)
    (files : Str → Option Str) (b : OutBuf) (ho : errs.openRead name = false) (hr : errs.read name = false) (hf : files name = some c)
    (hgrow : b.len < b.text.length + c.length + 5) (hblock : c.length < 1024) (hnl : EndsIn '\n' c)
    (hdown : ∀ n, move b.base n + c.length ≤ b.base) :
    ∃ b', funcFile errs move arg none files b = .done b' files ∧ b'.text = b.text ++ c := by
  obtain ⟨fn, rfl, e⟩ := funcFile_asks errs move h none files b
  obtain ⟨_, _, _, hn, _⟩ := h
  obtain ⟨u, rfl⟩ := hnl
  have e2 : ∃ n, freadLoop move (u ++ ['\n']) b = ⟨move b.base n, n, b.text ++ (u ++ ['\n'])⟩ := by
    rw [freadLoop, if_pos hblock, if_pos (by simp), outPut, if_pos (by omega)]
    exact ⟨_, rfl⟩
  obtain ⟨n, e2⟩ := e2
  refine ⟨cutNewline b.ptr (freadLoop move (u ++ ['\n']) b), ?_, ?_⟩
  · rw [e]; simp [fileRead, fileName_ne_nil hn, ho, hf, hr]
  · rw [e2, cutNewline, if_neg]
    intro h
    have h3 := h.1
    have h4 := hdown n
    simp only [OutBuf.ptr, List.length_append] at h3 h4 ⊢
    omega

/-- It is also false where the buffer is moved up: a carriage return from before the call is taken away. -/
theorem C127_cr_eaten (errs : FileErrs) (move : Nat → Nat → Nat) {arg name t : Str} (h : Asks arg .read name)
    (files : Str → Option Str) (b : OutBuf) (ho : errs.openRead name = false) (hr : errs.read name = false) (hf : files name = some ['\n'])
    (ht : b.text = t ++ ['\r']) (hgrow : b.len < b.text.length + 6) (hup : ∀ n, b.base < move b.base n) :
    ∃ b', funcFile errs move arg none files b = .done b' files ∧ b'.text = t := by
  obtain ⟨fn, rfl, e⟩ := funcFile_asks errs move h none files b
  obtain ⟨_, _, _, hn, _⟩ := h
  have e2 : ∃ n, freadLoop move ['\n'] b = ⟨move b.base n, n, b.text ++ ['\n']⟩ := by
    rw [freadLoop, if_pos (by simp), if_pos (by simp), outPut, if_pos (by simp; omega)]
    exact ⟨_, rfl⟩
  obtain ⟨n, e2⟩ := e2
  refine ⟨cutNewline b.ptr (freadLoop move ['\n'] b), ?_, ?_⟩
  · rw [e]; simp [fileRead, fileName_ne_nil hn, ho, hf, hr]
  · have := hup n
    rw [e2, cutNewline, if_pos ⟨by simp [OutBuf.ptr]; omega, by simp⟩]
    simp only [List.dropLast_concat]
    rw [if_pos ⟨by simp [OutBuf.ptr]; omega, by simp [ht]⟩]
    simp [ht]

/-! ## Both -/

/-- A text that ends neither in a newline nor in a carriage return is read back as it was written. -/
theorem C127_round_trip_partial (errs : FileErrs) (move : Nat → Nat → Nat) {w r name t : Str} (hw : Asks w .write name)
    (hr : Asks r .read name) (files : Str → Option Str) (b : OutBuf) (h1 : errs.openWrite name = false) (h2 : errs.write name = false)
    (h3 : errs.openRead name = false) (h4 : errs.read name = false) (hn : ¬ EndsIn '\n' t) (hc : ¬ EndsIn '\r' t)
    (hfit : b.text.length + t.length + 6 ≤ b.len) :
    ∃ files', fileCalls errs move [(w, some t), (r, none)] files b = .done ⟨b.base, b.len, b.text ++ t⟩ files' := by
  obtain ⟨l, f1, e1, ha, hl, _⟩ := C127_write errs move hw (t := t) files b h1 h2
  have hl' : l = t ++ ['\n'] := by rcases ha with ⟨h, _⟩ | ⟨_, h⟩; exact absurd h hn; exact h
  subst hl'
  obtain ⟨x, hx, e2⟩ := C127_read_fits_partial errs move hr f1 b h3 h4 hl (by simp; omega)
  have : x = t := cutEol_unique hx (Or.inr (Or.inl ⟨rfl, hc⟩))
  subst this
  exact ⟨f1, by simp only [fileCalls, e1, e2]⟩

/-- One that ends in a newline or a carriage return is not: the last character is lost, and with a carriage return and a newline both. -/
theorem C127_round_trip_lost (errs : FileErrs) (move : Nat → Nat → Nat) {w r name t : Str} {c : Char} (hw : Asks w .write name)
    (hr : Asks r .read name) (files : Str → Option Str) (b : OutBuf) (h1 : errs.openWrite name = false) (h2 : errs.write name = false)
    (h3 : errs.openRead name = false) (h4 : errs.read name = false) (hc : c = '\n' ∧ ¬ EndsIn '\r' t ∨ c = '\r')
    (hfit : b.text.length + t.length + 7 ≤ b.len) :
    ∃ files', fileCalls errs move [(w, some (t ++ [c])), (r, none)] files b = .done ⟨b.base, b.len, b.text ++ t⟩ files' := by
  obtain ⟨l, f1, e1, ha, hl, _⟩ := C127_write errs move hw (t := t ++ [c]) files b h1 h2
  have hlen : l.length ≤ t.length + 2 := by rcases ha with ⟨_, rfl⟩ | ⟨_, rfl⟩ <;> simp
  obtain ⟨x, hx, e2⟩ := C127_read_fits_partial errs move hr f1 b h3 h4 hl (by omega)
  have hx' : CutEol l t := by
    rcases hc with ⟨rfl, hc⟩ | rfl
    · rcases ha with ⟨_, rfl⟩ | ⟨h, _⟩
      · exact Or.inr (Or.inl ⟨rfl, hc⟩)
      · exact absurd ⟨_, rfl⟩ h
    · rcases ha with ⟨h, _⟩ | ⟨_, rfl⟩
      · rw [endsIn_iff] at h; simp at h
      · exact Or.inl (by simp)
  have : x = t := cutEol_unique hx hx'
  subst this
  exact ⟨f1, by simp only [fileCalls, e1, e2]⟩

/-- Blanks after the name belong to it: such a call leaves the file without them as it is. -/
theorem C127_blank_in_name (errs : FileErrs) (move : Nat → Nat → Nat) {name t : Str} (hn : FileName name) (hq : ∀ rest, name ≠ '>' :: rest)
    (files : Str → Option Str) (b : OutBuf) (ho : ∀ n, errs.openWrite n = false) (hw : ∀ n, errs.write n = false) :
    ∃ files', funcFile errs move ('>' :: name ++ [' ']) (some t) files b = .done b files' ∧ files' name = files name ∧
      files' (name ++ [' ']) ≠ none := by
  have ha : Asks ('>' :: name ++ [' ']) .write (name ++ [' ']) := by
    refine ⟨[], by simp [FileOp.chars], (fun _ h => nomatch h), ?_, ?_⟩
    · obtain ⟨c, r, rfl, h⟩ := hn; exact ⟨c, r ++ [' '], rfl, h⟩
    · intro _ _ rest h
      obtain ⟨c, r, rfl, _⟩ := hn
      have : c = '>' := by simpa using (List.cons.inj h).1
      exact hq r (by rw [this])
  obtain ⟨l, f1, e1, _, h2, h3⟩ := C127_write errs move ha (t := t) files b (ho _) (hw _)
  exact ⟨f1, e1, h3 name (fun h => by have := congrArg List.length h; simp at this), by rw [h2]; simp⟩

/-! ## Errors -/

/-- Which calls are fatal errors, and which: all others give a result. -/
theorem C127_fatal (errs : FileErrs) (move : Nat → Nat → Nat) (arg : Str) (t : Option Str) (files : Str → Option Str) (b : OutBuf)
    (e : FileErr) : funcFile errs move arg t files b = .fatal e ↔ FileFails errs files arg t e := by
  constructor
  · intro h
    rcases arg_cases arg with ⟨h1, h2⟩ | ⟨op, ws, hw, rfl⟩ | ⟨op, name, ha⟩
    · have : e = .invalid := by
        unfold funcFile at h; split at h
        · exact absurd rfl (h1 _)
        · exact absurd rfl (h2 _)
        · exact (FileRes.fatal.inj h).symm
      subst this; exact .invalid h1 h2
    · have : e = .missingName := by
        have hq : ∀ fn, ws ≠ '>' :: fn := by
          rintro fn rfl; exact absurd (hw '>' (List.mem_cons_self ..)) (by decide)
        cases op <;> simp [FileOp.chars, funcFile] at h
        · simp [fileWrite, nextToken_white_nil hw] at h; exact h.symm
        · simp [fileWrite, nextToken_white_nil hw] at h; exact h.symm
        · simp [fileRead, nextToken_white_nil hw] at h; exact h.symm
      subst this; exact .noName hw
    · obtain ⟨fn, hfn, e1⟩ := funcFile_asks errs move ha t files b
      have hne : name ≠ [] := by obtain ⟨_, _, _, hn, _⟩ := ha; exact fileName_ne_nil hn
      have hwr : ∀ a, op ≠ .read → fileWrite errs a fn t files b = .fatal e → FileFails errs files arg t e := by
        intro a hop h
        simp only [fileWrite, hfn, hne, if_false] at h
        by_cases ho : errs.openWrite name = true
        · simp only [ho, if_true] at h; cases h; exact .openWrite hop ha ho
        · simp only [Bool.not_eq_true] at ho
          simp only [ho, Bool.false_eq_true, if_false] at h
          cases t with
          | none => cases h
          | some t =>
            by_cases hw : errs.write name = true
            · simp only [hw, if_true] at h; cases h; exact .write hop ha ho hw
            · simp only [hw, if_false] at h; cases h
      rw [e1] at h
      cases op with
      | write => exact hwr _ (by simp) h
      | append => exact hwr _ (by simp) h
      | read =>
        simp only [fileRead, hfn, hne, if_false] at h
        cases t with
        | some t => simp at h; subst h; exact .tooMany ha
        | none =>
          by_cases ho : errs.openRead name = true
          · simp [ho] at h; subst h; exact .openRead ha ho
          · simp only [Bool.not_eq_true] at ho
            simp [ho] at h
            cases hf : files name with
            | none => simp [hf] at h
            | some c =>
              by_cases hr : errs.read name = true
              · simp [hf, hr] at h; subst h; exact .read ha ho (by simp [hf]) hr
              · simp [hf, hr] at h
  · intro h
    cases h with
    | invalid h1 h2 =>
      unfold funcFile; split
      · exact absurd rfl (h1 _)
      · exact absurd rfl (h2 _)
      · rfl
    | @noName op ws t hw =>
      cases op
      · simp only [FileOp.chars, funcFile, List.cons_append, List.nil_append]
        split
        · exact absurd (hw '>' (List.mem_cons_self ..)) (by decide)
        · simp [fileWrite, nextToken_white_nil hw]
      · simp [FileOp.chars, funcFile, fileWrite, nextToken_white_nil hw]
      · simp [FileOp.chars, funcFile, fileRead, nextToken_white_nil hw]
    | @tooMany _ _ t ha =>
      obtain ⟨fn, rfl, e1⟩ := funcFile_asks errs move ha (some t) files b
      obtain ⟨_, _, _, hn, _⟩ := ha
      rw [e1]; simp [fileRead, fileName_ne_nil hn]
    | @openWrite _ op _ _ hop ha ho =>
      obtain ⟨fn, rfl, e1⟩ := funcFile_asks errs move ha t files b
      obtain ⟨_, _, _, hn, _⟩ := ha
      rw [e1]; cases op <;> simp_all [fileWrite, fileName_ne_nil hn]
    | openRead ha ho =>
      obtain ⟨fn, rfl, e1⟩ := funcFile_asks errs move ha none files b
      obtain ⟨_, _, _, hn, _⟩ := ha
      rw [e1]; simp [fileRead, fileName_ne_nil hn, ho]
    | @write _ op _ t hop ha ho hw =>
      obtain ⟨fn, rfl, e1⟩ := funcFile_asks errs move ha (some t) files b
      obtain ⟨_, _, _, hn, _⟩ := ha
      rw [e1]; cases op <;> simp_all [fileWrite, fileName_ne_nil hn]
    | read ha ho hf hr =>
      obtain ⟨fn, rfl, e1⟩ := funcFile_asks errs move ha none files b
      obtain ⟨_, _, _, hn, _⟩ := ha
      rw [e1]
      cases h : files (nextToken fn) with
      | none => exact absurd h hf
      | some c => simp [fileRead, fileName_ne_nil hn, ho, h, hr]

/-! ## Cases -/

/-- `$(file > out,a b)`. -/
example : Asks ['>', ' ', 'o', 'u', 't'] .write ['o', 'u', 't'] :=
  ⟨[' '], rfl, (by intro c hc; simp at hc; subst hc; decide), ⟨'o', ['u', 't'], rfl, by decide⟩, fun _ h => by cases h⟩

/-- `$(file >>out,…)`. -/
example : Asks ['>', '>', 'o'] .append ['o'] := ⟨[], rfl, (fun _ h => nomatch h), ⟨'o', [], rfl, by decide⟩, fun h => by cases h⟩

/-- `$(file <out)`. -/
example : Asks ['<', 'o'] .read ['o'] := ⟨[], rfl, (fun _ h => nomatch h), ⟨'o', [], rfl, by decide⟩, fun h => by cases h⟩

/-- `$(file > >x)` writes the file `>x`. -/
example : Asks ['>', ' ', '>', 'x'] .write ['>', 'x'] :=
  ⟨[' '], rfl, (by intro c hc; simp at hc; subst hc; decide), ⟨'>', ['x'], rfl, by decide⟩, fun _ h => by cases h⟩

/-- A text that a round trip keeps, with an end of line inside. -/
example : ¬ EndsIn '\n' ['a', '\n', 'b'] ∧ ¬ EndsIn '\r' ['a', '\n', 'b'] := by
  constructor <;> (rw [endsIn_iff]; decide)

/-- A line that does not fit into the first 200 bytes, and a buffer that is moved down. -/
example : ∃ (move : Nat → Nat → Nat) (c : Str), EndsIn '\n' c ∧ c.length < 1024 ∧ 200 < c.length + 5 ∧
    ∀ n, move 4096 n + c.length ≤ 4096 := by
  refine ⟨fun _ _ => 1024, List.replicate 300 'a' ++ ['\n'], ⟨_, rfl⟩, ?_, ?_, fun n => ?_⟩ <;>
    (try dsimp only
     rw [List.length_append, List.length_replicate, List.length_singleton]; omega)

/-- A fatal error of a call: a text for reading. -/
example : FileFails {} (fun _ => none) ['<', 'o'] (some []) .tooMany :=
  .tooMany ⟨[], rfl, (fun _ h => nomatch h), ⟨'o', [], rfl, by decide⟩, fun h => by cases h⟩

/-- Two texts in a file, the second one with its own end of line. -/
example : WholeLines [['a'], ['b', '\n']] ['a', '\n', 'b', '\n'] :=
  .cons (l := ['a', '\n']) (Or.inr ⟨by rw [endsIn_iff]; decide, rfl⟩)
    (.cons (l := ['b', '\n']) (Or.inl ⟨⟨['b'], rfl⟩, rfl⟩) .nil)

end Remake
