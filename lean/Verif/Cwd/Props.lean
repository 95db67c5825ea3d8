import Verif.Cwd.Model
set_option linter.unusedVariables false
set_option linter.unusedSimpArgs false
/-!
# C150: the directory make works in
-/
namespace Remake
variable {δ φ : Type}

/-- What is asked of the kernel: names of directories are absolute and lead back to them; absolute names lead to the same file from everywhere, and a name
below a directory to what the rest of it leads to from there. -/
structure Spec.CwSound (W : CwWorld δ φ) : Prop where
  abs : ∀ d s, W.getcwd d = some s → s.head? = some '/'
  back : ∀ d s, W.getcwd d = some s → ∀ d', W.chdir d' s = some d
  same : ∀ d d' n, n.head? = some '/' → W.file d n = W.file d' n
  below : ∀ d0 s n d, W.getcwd d0 = some s → n.head? ≠ some '/' → W.file d (s ++ '/' :: n) = W.file d0 n
open Spec

/-- Three directories, `/`, `/p` and `/p/s`. -/
def cwExample : CwWorld (Fin 3) Str where
  chdir d s :=
    if s = "/".toList then some 0
    else if s = "/p".toList then some 1
    else if s = "/p/s".toList then some 2
    else if s = "..".toList then some (if d = 2 then 1 else 0)
    else if s = "s".toList ∧ d = 1 then some 2
    else if s = "p".toList ∧ d = 0 then some 1
    else none
  getcwd d := some (if d = 0 then "/".toList else if d = 1 then "/p".toList else "/p/s".toList)
  file d n := if n.head? = some '/' then n else (if d = 0 then "/".toList else if d = 1 then "/p".toList else "/p/s".toList) ++ '/' :: n

theorem cwExample_sound : CwSound cwExample where
  abs d s h := by
    simp only [cwExample, Option.some.injEq] at h
    subst h
    split
    · rfl
    · split <;> rfl
  back d s h d' := by
    simp only [cwExample, Option.some.injEq] at h
    subst h
    revert d d'
    decide
  same d d' n h := by
    simp only [cwExample, if_pos h]
  below d0 s n d h hn := by
    simp only [cwExample, Option.some.injEq] at h
    subst h
    simp only [cwExample, if_neg hn]
    rw [if_pos]
    split
    · rfl
    · split <;> rfl

/-- **C150** The options `-C` lead where one gets by going from directory to directory; if one of them cannot be entered make stops. -/
theorem C150_directories (W : CwWorld δ φ) (junk : Str) (d0 : δ) (argv0 : Str) (dirs : List Str) :
    (cwStart W junk d0 argv0 dirs).map (·.cwd) = dirs.foldlM W.chdir d0 := by
  have key : ∀ (dirs : List Str) (d : δ), cwMoves W d dirs = dirs.foldlM W.chdir d := by
    intro dirs
    induction dirs with
    | nil => intro d; rfl
    | cons x xs ih =>
      intro d
      rw [cwMoves, List.foldlM_cons]
      cases e : W.chdir d x with
      | none => rfl
      | some d' => exact ih d'
  unfold cwStart
  rw [← key]
  cases e : cwMoves W d0 dirs <;> simp [e]

example : (cwStart cwExample [] 0 "make".toList ["p".toList, "s".toList]).map (·.cwd) = some 2 ∧
    cwStart cwExample [] 0 "make".toList ["s".toList, "p".toList] = none := by decide

/-- **C150** Without `-c`, `CURDIR` is the directory that make works in, and `abspath` gives to relative names the meaning they have for make. -/
theorem C150_curdir_partial {W : CwWorld δ φ} (hW : CwSound W) (junk : Str) (d0 : δ) (argv0 : Str) (dirs : List Str) (st : CwSt δ)
    (h : cwStart W junk d0 argv0 dirs = some st) (s : Str) (hs : W.getcwd st.cwd = some s) :
    st.curdir = s ∧ ∀ n, ∃ a, cwAbs st n = some a ∧ a.head? = some '/' ∧ ∀ d, W.file d a = W.file st.cwd n := by
  have key : st.curdir = s ∧ st.starting = some s := by
    unfold cwStart at h
    cases e : cwMoves W d0 dirs with
    | none => simp [e] at h
    | some d1 =>
      simp only [e, Option.some.injEq] at h
      subst h
      simp only at hs ⊢
      by_cases hd : dirs = []
      · subst hd
        simp only [cwMoves, Option.some.injEq] at e
        subst e
        simp [hs]
      · simp [hd, hs]
  refine ⟨key.1, fun n => ?_⟩
  unfold cwAbs
  by_cases hn : n.head? = some '/'
  · exact ⟨n, by rw [if_pos hn], hn, fun d => hW.same _ _ _ hn⟩
  · refine ⟨s ++ '/' :: n, by rw [if_neg hn, key.2], ?_, fun d => hW.below _ _ _ _ hs hn⟩
    have := hW.abs _ _ hs
    cases s with
    | nil => simp at this
    | cons c t => simpa using this

/-- **C150** (negative) When `-c` has found the makefile in another directory, `CURDIR` still names the one make was started in, and the absolute name of a file is one
below that. -/
theorem C150_search (W : CwWorld δ φ) (st : CwSt δ) (n : Nat) (s s' : Str) (h : st.curdir = s) (h2 : st.starting = some s)
    (hs : W.getcwd (cwUp W st n).cwd = some s') (hne : s' ≠ s) (f : Str) (hf : f.head? ≠ some '/') :
    (cwUp W st n).curdir = s ∧ W.getcwd (cwUp W st n).cwd ≠ some (cwUp W st n).curdir ∧ cwAbs (cwUp W st n) f = some (s ++ '/' :: f) := by
  have key : ∀ n (st : CwSt δ), (cwUp W st n).curdir = st.curdir ∧ (cwUp W st n).starting = st.starting := by
    intro n
    induction n with
    | zero => intro st; exact ⟨rfl, rfl⟩
    | succ n ih =>
      intro st
      rw [cwUp]
      cases e : W.chdir st.cwd "..".toList with
      | none => exact ⟨rfl, rfl⟩
      | some d => exact ih _
  have hk := key n st
  refine ⟨by rw [hk.1, h], ?_, ?_⟩
  · rw [hs, hk.1, h]
    simpa using hne
  · simp [cwAbs, hf, hk.2, h2]

example : (cwUp cwExample ((cwStart cwExample [] 2 "make".toList []).get (by decide)) 1) =
    ⟨1, "/p/s".toList, some "/p/s".toList, some "/p/s".toList, "make".toList⟩ := by decide

/-- **C150** If make was called by a name with a slash, `MAKE_COMMAND` leads to the same program from every directory. -/
theorem C150_program {W : CwWorld δ φ} (hW : CwSound W) (junk : Str) (d0 : δ) (argv0 : Str) (dirs : List Str) (st : CwSt δ)
    (h : cwStart W junk d0 argv0 dirs = some st) (s : Str) (hs : W.getcwd d0 = some s) (ha : '/' ∈ argv0) (d : δ) :
    W.file d st.prog = W.file d0 argv0 := by
  have hp : st.prog = cwProg s argv0 := by
    unfold cwStart at h
    cases e : cwMoves W d0 dirs with
    | none => simp [e] at h
    | some d1 =>
      simp only [e, Option.some.injEq] at h
      subst h
      simp [hs]
  rw [hp, cwProg]
  have hne : s ≠ [] := by
    intro e
    have := hW.abs _ _ hs
    rw [e] at this
    cases this
  by_cases hh : argv0.head? = some '/'
  · rw [if_neg (fun x => x.2.1 hh)]
    exact hW.same _ _ _ hh
  · rw [if_pos ⟨hne, hh, ha⟩]
    exact hW.below _ _ _ _ hs hh

example : (cwStart cwExample [] 1 "./make".toList ["s".toList]).map (·.prog) = some "/p/./make".toList := by decide

/-- **C150** (and a name without a slash stays, to be looked for in `PATH`). -/
theorem C150_program_path (cur argv0 : Str) (h : '/' ∉ argv0) : cwProg cur argv0 = argv0 := by
  simp [cwProg, h]

theorem cwProg_again {W : CwWorld δ φ} (hW : CwSound W) (d0 : δ) (s : Str) (hs : W.getcwd d0 = some s) (cur argv0 : Str) :
    cwProg cur (cwProg s argv0) = cwProg s argv0 := by
  have hne := hW.abs _ _ hs
  by_cases h : s ≠ [] ∧ argv0.head? ≠ some '/' ∧ '/' ∈ argv0
  · have e : cwProg s argv0 = s ++ '/' :: argv0 := by rw [cwProg, if_pos h]
    rw [e, cwProg, if_neg]
    intro hh
    apply hh.2.1
    cases s with
    | nil => simp at hne
    | cons c t => simpa using hne
  · have e : cwProg s argv0 = argv0 := by rw [cwProg, if_neg h]
    rw [e]
    by_cases h2 : '/' ∈ argv0
    · have hs0 : s ≠ [] := by rintro rfl; cases hne
      have h3 : argv0.head? = some '/' := by
        by_cases h3 : argv0.head? = some '/'
        · exact h3
        · exact absurd ⟨hs0, h3, h2⟩ h
      rw [cwProg, if_neg (fun x => x.2.1 h3)]
    · rw [cwProg, if_neg (fun x => h2 x.2.2)]

/-- **C150** Without `-c`, a restarted make is in the same directory, with the same `CURDIR` and the same name for itself. -/
theorem C150_restart_partial {W : CwWorld δ φ} (hW : CwSound W) (junk : Str) (d0 : δ) (argv0 : Str) (dirs : List Str) (st : CwSt δ)
    (h : cwStart W junk d0 argv0 dirs = some st) (s : Str) (hs : W.getcwd d0 = some s) : cwRestart W junk dirs st = some st := by
  have h' := h
  unfold cwStart at h
  cases e : cwMoves W d0 dirs with
  | none => simp [e] at h
  | some d1 =>
    simp only [e, Option.some.injEq, hs, Option.getD_some] at h
    unfold cwRestart
    by_cases hd : dirs = []
    · rw [if_pos hd]
      subst hd
      simp only [cwMoves, Option.some.injEq] at e
      subst e
      subst h
      simp only [if_true, cwStart, cwMoves, hs, Option.getD_some, cwProg_again hW _ _ hs]
    · rw [if_neg hd]
      have hb : st.before = some s := by rw [← h]
      rw [hb]
      simp only [hW.back _ _ hs]
      subst h
      simp only [cwStart, e, hs, Option.getD_some, if_neg hd, cwProg_again hW _ _ hs]

example : cwRestart cwExample [] ["s".toList] ((cwStart cwExample [] 1 "./make".toList ["s".toList]).get (by decide)) =
    cwStart cwExample [] 1 "./make".toList ["s".toList] := by decide

/-- **C150** (negative) With `-c` and without `-C`, a restarted make begins where the makefile was found: `CURDIR` has another value than before, and the directory that make
was started in is forgotten. -/
theorem C150_restart_search {W : CwWorld δ φ} (junk : Str) (st : CwSt δ) (n : Nat) (s s' : Str) (h : st.curdir = s)
    (hs : W.getcwd (cwUp W st n).cwd = some s') (hne : s' ≠ s) :
    ∃ st', cwRestart W junk [] (cwUp W st n) = some st' ∧ st'.curdir = s' ∧ st'.curdir ≠ st.curdir ∧ st'.before = some s' := by
  refine ⟨_, by rw [cwRestart, if_pos rfl, cwStart]; rfl, ?_, ?_, ?_⟩
  · simp [hs]
  · simp [hs, h, hne]
  · simp [hs]

example : ((cwRestart cwExample [] [] (cwUp cwExample ((cwStart cwExample [] 2 "make".toList []).get (by decide)) 1)).map (·.curdir)) =
    some "/p".toList := by decide

/-- **C150** (negative) A make that could not tell where it was, and has `-C`, cannot start again. -/
theorem C150_restart_lost (W : CwWorld δ φ) (junk : Str) (d0 : δ) (argv0 : Str) (dirs : List Str) (hd : dirs ≠ []) (st : CwSt δ)
    (h : cwStart W junk d0 argv0 dirs = some st) (hs : W.getcwd d0 = none) : cwRestart W junk dirs st = none := by
  have hb : st.before = none := by
    unfold cwStart at h
    cases e : cwMoves W d0 dirs with
    | none => simp [e] at h
    | some d1 =>
      simp only [e, Option.some.injEq] at h
      subst h
      exact hs
  simp [cwRestart, hd, hb]

/-- **C150** A make with `-C` starts again only in the directory it was started in: if it cannot get back there, it stops, and never starts again somewhere else. -/
theorem C150_restart_back (W : CwWorld δ φ) (junk : Str) (d0 : δ) (argv0 : Str) (dirs : List Str) (hd : dirs ≠ []) (st : CwSt δ) (n : Nat)
    (h : cwStart W junk d0 argv0 dirs = some st) (st' : CwSt δ) (h' : cwRestart W junk dirs (cwUp W st n) = some st') :
    ∃ s d, W.getcwd d0 = some s ∧ W.chdir (cwUp W st n).cwd s = some d ∧ cwMoves W d dirs = some st'.cwd := by
  have hu : ∀ (n : Nat) (st : CwSt δ), (cwUp W st n).before = st.before := by
    intro n
    induction n with
    | zero => intro st; rfl
    | succ n ih =>
      intro st
      rw [cwUp]
      split
      · rfl
      · rw [ih]
  have hb : st.before = W.getcwd d0 := by
    unfold cwStart at h
    cases e : cwMoves W d0 dirs with
    | none => simp [e] at h
    | some d1 =>
      simp only [e, Option.some.injEq] at h
      subst h
      rfl
  rw [cwRestart, if_neg hd, hu, hb] at h'
  cases e1 : W.getcwd d0 with
  | none => simp [e1] at h'
  | some s =>
    simp only [e1] at h'
    cases e2 : W.chdir (cwUp W st n).cwd s with
    | none => simp [e2] at h'
    | some d =>
      simp only [e2] at h'
      refine ⟨s, d, rfl, e2, ?_⟩
      unfold cwStart at h'
      cases e3 : cwMoves W d dirs with
      | none => simp [e3] at h'
      | some d1 =>
        simp only [e3, Option.some.injEq] at h'
        subst h'
        rfl

end Remake
