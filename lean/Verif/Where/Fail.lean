import Verif.Where.Spec
set_option linter.unusedVariables false
set_option linter.unusedSimpArgs false
/-!
# C142: messages about commands that fail
-/
namespace Remake
namespace Spec

/-- What follows the place in the message about a failed command. -/
inductive FailLine (target : Str) : CeEnd → Bool → Str → Prop
  | status (code : Nat) : FailLine target (.exited code) false ("*** [".toList ++ target ++ "] error ".toList ++ (Nat.repr code).toList)
  | statusIgnored (code : Nat) :
      FailLine target (.exited code) true ("[".toList ++ target ++ "] error ".toList ++ (Nat.repr code).toList ++ " (ignored)".toList)
  | signal (name : Str) : FailLine target (.signal name false) false ("*** [".toList ++ target ++ "] ".toList ++ name)
  | dump (name : Str) :
      FailLine target (.signal name true) false ("*** [".toList ++ target ++ "] ".toList ++ name ++ " (core dumped)".toList)
  | signalIgnored (name : Str) : FailLine target (.signal name false) true ("[".toList ++ target ++ "] ".toList ++ name ++ " (ignored)".toList)
  | dumpIgnored (name : Str) :
      FailLine target (.signal name true) true ("[".toList ++ target ++ "] ".toList ++ name ++ " (core dumped) (ignored)".toList)

/-- The place of a target as messages give it. -/
def placeText (file : Str) (line : Nat) : Str := file ++ ":".toList ++ (Nat.repr line).toList ++ ": ".toList

end Spec
open Spec

theorem ce_text_line (target : Str) (e : CeEnd) (ignored : Bool) : FailLine target e ignored (ceText target e ignored) := by
  cases e with
  | exited code =>
    cases ignored with
    | false =>
      have := FailLine.status (target := target) code
      simpa [ceText, ceNat] using this
    | true => exact .statusIgnored code
  | signal name core =>
    cases ignored <;> cases core
    · have := FailLine.signal (target := target) name
      simpa [ceText] using this
    · have := FailLine.dump (target := target) name
      simpa [ceText, List.append_assoc] using this
    · have := FailLine.signalIgnored (target := target) name
      simpa [ceText] using this
    · have := FailLine.dumpIgnored (target := target) name
      simpa [ceText, List.append_assoc] using this

/-- The line tells the target, how the command ended and whether that is ignored: two commands with the same
line after the place, of targets whose names have no `]`, ended alike. -/
theorem C142_tells (t t' : Str) (c c' : Nat) (i i' : Bool) (ht : ']' ∉ t) (ht' : ']' ∉ t')
    (h : ceText t (.exited c) i = ceText t' (.exited c') i') : t = t' ∧ i = i' ∧ c = c' := by
  have split : ∀ {a a' b b' : Str}, ']' ∉ a → ']' ∉ a' → a ++ ']' :: b = a' ++ ']' :: b' → a = a' ∧ b = b' := by
    intro a
    induction a with
    | nil =>
      intro a' b b' _ h2 he
      cases a' with
      | nil => simpa using he
      | cons x a' => simp at he; exact absurd (by rw [he.1]; simp) h2
    | cons x a ih =>
      intro a' b b' h1 h2 he
      cases a' with
      | nil => simp at he; exact absurd (by rw [he.1]; simp) h1
      | cons y a' =>
        simp only [List.cons_append, List.cons.injEq] at he
        obtain ⟨rfl, he⟩ := he
        obtain ⟨h3, h4⟩ := ih (fun hh => h1 (by simp [hh])) (fun hh => h2 (by simp [hh])) he
        exact ⟨by rw [h3], h4⟩
  have inj : ∀ {a b : Nat}, (Nat.repr a).toList = (Nat.repr b).toList → a = b := by
    intro a b hh
    rw [Nat.toList_repr, Nat.toList_repr] at hh
    rw [← Nat.ofDigitChars_ten_toDigits (n := a), hh, Nat.ofDigitChars_ten_toDigits]
  have e1 : "*** ".toList = ['*', '*', '*', ' '] := rfl
  have e2 : "[".toList = ['['] := rfl
  have e3 : "] error ".toList = ']' :: " error ".toList := rfl
  cases i <;> cases i'
  · simp only [ceText, Bool.false_eq_true, if_false, List.append_nil, List.append_assoc, List.append_cancel_left_eq] at h
    rw [e3, List.cons_append] at h
    obtain ⟨h1, h2⟩ := split ht ht' h
    exact ⟨h1, rfl, inj (List.append_cancel_left h2)⟩
  · simp only [ceText, Bool.false_eq_true, if_false, if_true, List.append_assoc, e1, e2, List.cons_append, List.nil_append] at h
    exact absurd (List.cons.inj h).1 (by decide)
  · simp only [ceText, Bool.false_eq_true, if_false, if_true, List.append_assoc, e1, e2, List.cons_append, List.nil_append] at h
    exact absurd (List.cons.inj h).1 (by decide)
  · simp only [ceText, if_true, List.append_assoc, List.nil_append, List.append_cancel_left_eq] at h
    rw [e3, List.cons_append] at h
    obtain ⟨h1, h2⟩ := split ht ht' h
    exact ⟨h1, rfl, inj (List.append_cancel_right (List.append_cancel_left h2))⟩

example : ']' ∉ "all".toList ∧ ceText "all".toList (.exited 2) false = "*** [all] error 2".toList := by decide

/-- C142: make says nothing about a command that succeeds; it says of a command that fails, on one line, what it
belongs to and how it ended, unless the target is one that need not be made, or its failure is ignored and `-s` is given.
Partial: what stands before (`C142_other_place`, `C142_builtin`). -/
theorem C142_line_partial (program : Str) (level : Nat) (silent question dontcare noerror ignoreAll : Bool) (call : CeCall)
    (target : Str) (e : CeEnd) :
    (e = .exited 0 → reapSays program level silent question dontcare noerror ignoreAll call target e = none) ∧
    (e ≠ .exited 0 → noerror = true ∨ ignoreAll = true → silent = true →
      reapSays program level silent question dontcare noerror ignoreAll call target e = none) ∧
    (e ≠ .exited 0 → noerror = true ∨ ignoreAll = true → silent = false →
      ∃ pre line, reapSays program level silent question dontcare noerror ignoreAll call target e = some (pre ++ line) ∧
        FailLine target e true line) ∧
    (e ≠ .exited 0 → noerror = false → ignoreAll = false → dontcare = false → ¬ (question = true ∧ e = .exited 1) →
      ∃ pre line, reapSays program level silent question dontcare noerror ignoreAll call target e = some (pre ++ line) ∧
        FailLine target e false line) := by
  refine ⟨?_, ?_, ?_, ?_⟩
  · intro h; unfold reapSays; rw [if_pos h]
  · intro h hi hs
    unfold reapSays childError
    rw [if_neg h, if_neg (by rcases hi with hi | hi <;> simp [hi]), if_pos ⟨rfl, hs⟩]
  · intro h hi hs
    unfold reapSays childError
    rw [if_neg h, if_neg (by rcases hi with hi | hi <;> simp [hi]), if_neg (by simp [hs])]
    exact ⟨_, _, rfl, ce_text_line target e true⟩
  · intro h h1 h2 h3 h4
    unfold reapSays childError
    rw [if_neg h, if_pos ⟨h1, h2⟩, if_pos ⟨h3, h4⟩, if_neg (by simp)]
    exact ⟨_, _, rfl, ce_text_line target e false⟩

example : reapSays "remake".toList 0 false false false false false (.target (some ⟨"Makefile".toList, 3, 0⟩)) "all".toList (.exited 2) =
    some "Makefile:3: *** [all] error 2".toList := by decide

/-- C142: without `-j` a command is waited for while its own target is being made, and the line begins with the place of
that target. -/
theorem C142_place (program : Str) (level : Nat) (silent question : Bool) (p : CePlace) (target : Str) (e : CeEnd) (he : e ≠ .exited 0)
    (hq : ¬ (question = true ∧ e = .exited 1)) :
    ∃ line, reapSays program level silent question false false false (.target (some p)) target e =
      some (placeText p.file (p.line + p.offset) ++ line) ∧ FailLine target e false line := by
  unfold reapSays childError
  rw [if_neg he, if_pos ⟨rfl, rfl⟩, if_pos ⟨rfl, hq⟩, if_neg (by simp)]
  exact ⟨_, rfl, ce_text_line target e false⟩

theorem ceProgram_first (program line : Str) : ceProgram program 0 ++ line = program ++ ':' :: ' ' :: line := by
  have e : ": ".toList = [':', ' '] := by decide
  rw [ceProgram, if_pos rfl, e]
  simp only [List.append_assoc, List.cons_append, List.nil_append]

theorem ceProgram_sub (program : Str) (level : Nat) (h : 0 < level) (line : Str) :
    ceProgram program level ++ line = program ++ '[' :: ((Nat.repr level).toList ++ ']' :: ':' :: ' ' :: line) := by
  have e : "[".toList = ['['] := by decide
  have e' : "]: ".toList = [']', ':', ' '] := by decide
  rw [ceProgram, if_neg (by omega), e, e', ceNat]
  simp only [List.append_assoc, List.cons_append, List.nil_append]

/-- C142.  When make waits with no target at hand, the message begins with the program; a sub-make adds its level, the first make does not. -/
theorem C142_program (program : Str) (level : Nat) (silent question : Bool) (target : Str) (e : CeEnd) (he : e ≠ .exited 0)
    (hq : ¬ (question = true ∧ e = .exited 1)) :
    ∃ line, FailLine target e false line ∧
      (level = 0 → reapSays program level silent question false false false .none target e = some (program ++ ':' :: ' ' :: line)) ∧
      (0 < level → reapSays program level silent question false false false .none target e =
        some (program ++ '[' :: ((Nat.repr level).toList ++ ']' :: ':' :: ' ' :: line))) := by
  unfold reapSays childError
  rw [if_neg he, if_pos ⟨rfl, rfl⟩, if_pos ⟨rfl, hq⟩, if_neg (by simp)]
  refine ⟨ceText target e false, ce_text_line target e false, ?_, ?_⟩ <;> generalize ceText target e false = line
  · intro h
    subst h
    exact congrArg some (ceProgram_first program line)
  · intro h
    exact congrArg some (ceProgram_sub program level h line)

example : reapSays "remake".toList 2 false false false false false .none ['a'] (.exited 3) = some "remake[2]: *** [a] error 3".toList := by
  decide

/-- C142 is violated here: with `-j` the end of a command may be noticed when make begins with another target; the
place is then that of the other target. -/
theorem C142_other_place (program : Str) (level : Nat) (place : Str → Option CePlace) (t u : Str) (p q : CePlace)
    (ht : place t = some p) (hu : place u = some q) (e : CeEnd) (he : e ≠ .exited 0) :
    ∃ line, newJobSays program level place u [(t, e)] = [placeText q.file (q.line + q.offset) ++ line] ∧ FailLine t e false line := by
  obtain ⟨line, h1, h2⟩ := C142_place program level false false q t e he (by simp)
  exact ⟨line, by simp [newJobSays, hu, h1], h2⟩

example : newJobSays "remake".toList 0 (fun t => if t = ['a'] then some ⟨"Makefile".toList, 3, 0⟩ else some ⟨"Makefile".toList, 30, 0⟩)
    ['b'] [(['a'], .exited 2)] = ["Makefile:30: *** [a] error 2".toList] := by decide

/-- C142 is violated here: for a target without a rule of its own, nothing separates the place from the line. -/
theorem C142_builtin (program : Str) (level : Nat) :
    reapSays program level false false false false false (.target none) "a.o".toList (.exited 1) =
      some "<builtin>*** [a.o] error 1".toList := rfl

end Remake
