import Verif.Debugger.Model
/-!
# The arguments of the debugger command `run`

Models `buildargv` (src/buildargv.c 111-239) and `dbg_cmd_run` (libdebugger/command/run.c 31-53).
-/
set_option linter.unusedVariables false
namespace Remake

/-! ## Model -/

/-- The three flags of `buildargv`. -/
structure ArgState where
  squote : Bool := false
  dquote : Bool := false
  bsquote : Bool := false
deriving DecidableEq, Repr

/-- The scan of one argument (buildargv.c 163-219): the characters stored in `copybuf`, and the rest of the input.  If the input does not end here, all flags
are off. -/
def scanArg (st : ArgState) : Str → Str × Str
  | [] => ([], [])
  | c :: r =>
    if isWhite c && !st.squote && !st.dquote && !st.bsquote then ([], c :: r)
    else if st.bsquote then
      let x := scanArg { st with bsquote := false } r
      (c :: x.1, x.2)
    else if c = '\\' then scanArg { st with bsquote := true } r
    else if st.squote then
      if c = '\'' then scanArg { st with squote := false } r
      else
        let x := scanArg st r
        (c :: x.1, x.2)
    else if st.dquote then
      if c = '"' then scanArg { st with dquote := false } r
      else
        let x := scanArg st r
        (c :: x.1, x.2)
    else if c = '\'' then scanArg { st with squote := true } r
    else if c = '"' then scanArg { st with dquote := true } r
    else
      let x := scanArg st r
      (c :: x.1, x.2)

theorem scanArg_length (st : ArgState) (s : Str) : (scanArg st s).1.length + (scanArg st s).2.length ≤ s.length := by
  induction s generalizing st with
  | nil => simp [scanArg]
  | cons c r ih =>
    unfold scanArg
    repeat' split
    all_goals
      first
        | (have := ih { st with bsquote := false }; simp only [List.length_cons]; simp; omega)
        | (have := ih { st with bsquote := true }; simp only [List.length_cons]; omega)
        | (have := ih { st with squote := false }; simp only [List.length_cons]; omega)
        | (have := ih { st with squote := true }; simp only [List.length_cons]; omega)
        | (have := ih { st with dquote := false }; simp only [List.length_cons]; omega)
        | (have := ih { st with dquote := true }; simp only [List.length_cons]; omega)
        | (have := ih st; simp only [List.length_cons]; omega)
        | simp

/-- A scan that starts at a character that is no blank passes it. -/
theorem scanArg_lt {s : Str} (h : s ≠ []) (hw : (s.head?.map isWhite).getD false = false) : (scanArg {} s).2.length < s.length := by
  cases s with
  | nil => exact absurd rfl h
  | cons c r =>
    simp only [List.head?_cons, Option.map_some, Option.getD_some] at hw
    unfold scanArg
    simp only [hw, Bool.false_and, Bool.false_eq_true, if_false]
    have h1 := scanArg_length { bsquote := true } r
    have h2 := scanArg_length { squote := true } r
    have h3 := scanArg_length { dquote := true } r
    have h4 := scanArg_length {} r
    split
    · simp; omega
    · split
      · simp; omega
      · split
        · simp; omega
        · simp; omega

theorem dropWhile_head_white (s : Str) : ((s.dropWhile isWhite).head?.map isWhite).getD false = false := by
  have := List.head?_dropWhile_not isWhite s
  cases h : (s.dropWhile isWhite).head? with
  | none => rfl
  | some c => rw [h] at this; simpa using this

/-- The loop of `buildargv` (buildargv.c 129-236): `argc` and `maxargc`, the number of words stored and the room for them.  `none`: a word or the null pointer after
it is stored outside of the vector, or a word is longer than `copybuf` (`buf` bytes).  Failures of `malloc` are not modelled. -/
def argvLoop (buf argc maxargc : Nat) (s : Str) : Option (List Str) :=
  let max := if maxargc = 0 then 8 else if argc ≥ maxargc - 1 then maxargc * 2 else maxargc
  let x := scanArg {} (s.dropWhile isWhite)
  if argc + 1 ≥ max ∨ x.1.length + 1 > buf then none
  else
    if h : x.2.dropWhile isWhite = [] then some [x.1]
    else (argvLoop buf (argc + 1) max (x.2.dropWhile isWhite)).map (x.1 :: ·)
termination_by s.length
decreasing_by
  have h0 : x.2.dropWhile isWhite ≠ [] := h
  have h1 : (s.dropWhile isWhite).length ≤ s.length := (List.dropWhile_sublist _).length_le
  have h2 : (x.2.dropWhile isWhite).length ≤ x.2.length := (List.dropWhile_sublist _).length_le
  have h3 := scanArg_length {} (s.dropWhile isWhite)
  by_cases he : s.dropWhile isWhite = []
  · exact absurd (show x.2.dropWhile isWhite = [] by simp [x, he, scanArg]) h0
  · have := scanArg_lt he (dropWhile_head_white s)
    simp only [x] at *
    omega

/-- `buildargv` (buildargv.c 111-239); `copybuf` is one byte longer than the input (129). -/
def buildArgv (s : Str) : Option (List Str) := argvLoop (s.length + 1) 0 0 s

/-- The words given to `execvp` by `dbg_cmd_run` (run.c 34, 43-50): `argv` is `global_argv`. -/
def runArgv (argv : List Str) (arg : Str) : Option (List Str) :=
  if arg = [] then some argv else buildArgv (argv.headD [] ++ ' ' :: arg)

/-! ## Specification -/

namespace Spec

/-- The text between quotes of the kind `q`; a backslash takes away the meaning of the next character. -/
inductive InQuotes (q : Char) : Str → Str → Prop
  | nil : InQuotes q [] []
  | char {c : Char} {w t : Str} : c ≠ q → c ≠ '\\' → InQuotes q w t → InQuotes q (c :: w) (c :: t)
  | escaped {c : Char} {w t : Str} : InQuotes q w t → InQuotes q (c :: w) ('\\' :: c :: t)

/-- `RunArg w t`: the text `t` stands for the argument `w`. -/
inductive RunArg : Str → Str → Prop
  | nil : RunArg [] []
  | char {c : Char} {w t : Str} : c ∉ [' ', '\t', '\\', '\'', '"'] → RunArg w t → RunArg (c :: w) (c :: t)
  | escaped {c : Char} {w t : Str} : RunArg w t → RunArg (c :: w) ('\\' :: c :: t)
  | single {v w s t : Str} : InQuotes '\'' v s → RunArg w t → RunArg (v ++ w) ('\'' :: s ++ '\'' :: t)
  | double {v w s t : Str} : InQuotes '"' v s → RunArg w t → RunArg (v ++ w) ('"' :: s ++ '"' :: t)

/-- Blanks and tabs. -/
def White (s : Str) : Prop := ∀ c ∈ s, c = ' ' ∨ c = '\t'

/-- `RunArgs ws t`: the text is a list of arguments, separated by blanks. -/
inductive RunArgs : List Str → Str → Prop
  | one {w s t e : Str} : White s → RunArg w t → t ≠ [] → White e → RunArgs [w] (s ++ t ++ e)
  | cons {w s t e r : Str} {ws : List Str} : White s → RunArg w t → t ≠ [] → White e → e ≠ [] → RunArgs ws r → RunArgs (w :: ws) (s ++ t ++ e ++ r)

end Spec

/-! ## Properties -/

open Spec

theorem white_iff {c : Char} : isWhite c = true ↔ c = ' ' ∨ c = '\t' := by simp [isWhite]

theorem scan_quotes {q : Char} {v s : Str} (h : InQuotes q v s) (hq : q = '\'' ∨ q = '"') (t : Str) :
    scanArg { squote := q == '\'', dquote := q == '"' } (s ++ q :: t) = (v ++ (scanArg {} t).1, (scanArg {} t).2) := by
  induction h with
  | nil => rcases hq with rfl | rfl <;> simp [scanArg]
  | @char c w s h1 h2 _ ih =>
    rcases hq with rfl | rfl
    · rw [List.cons_append, scanArg]; simp at ih; simp [h1, h2, ih]
    · rw [List.cons_append, scanArg]; simp at ih; simp [h1, h2, ih]
  | @escaped c w s _ ih =>
    rcases hq with rfl | rfl
    · rw [List.cons_append, List.cons_append, scanArg]; simp at ih; simp [scanArg, ih, isWhite]
    · rw [List.cons_append, List.cons_append, scanArg]; simp at ih; simp [scanArg, ih, isWhite]

theorem scan_arg {w t : Str} (h : RunArg w t) {e : Str} (he : e = [] ∨ (e.head?.map isWhite).getD false = true) :
    scanArg {} (t ++ e) = (w, e) := by
  induction h with
  | nil =>
    rcases he with rfl | he
    · rfl
    · cases e with
      | nil => simp at he
      | cons c e => simp at he; simp [scanArg, he]
  | @char c w t hc _ ih =>
    simp only [List.mem_cons, List.not_mem_nil, or_false, not_or] at hc
    have : isWhite c = false := by rw [← Bool.not_eq_true, white_iff]; simp [hc]
    rw [List.cons_append, scanArg]
    simp [this, hc, ih]
  | @escaped c w t _ ih =>
    rw [List.cons_append, List.cons_append, scanArg]
    simp [scanArg, isWhite, ih]
  | @single v w s t hq _ ih =>
    have := scan_quotes hq (.inl rfl) (t ++ e)
    rw [ih] at this
    rw [List.append_assoc, List.cons_append, List.cons_append, scanArg]
    simp [isWhite] at this ⊢
    exact this
  | @double v w s t hq _ ih =>
    have := scan_quotes hq (.inr rfl) (t ++ e)
    rw [ih] at this
    rw [List.append_assoc, List.cons_append, List.cons_append, scanArg]
    simp [isWhite] at this ⊢
    exact this

theorem runArg_head {w t : Str} (h : RunArg w t) (hne : t ≠ []) : (t.head?.map isWhite).getD false = false := by
  cases h with
  | nil => exact absurd rfl hne
  | @char c w t hc _ =>
    simp only [List.mem_cons, List.not_mem_nil, or_false, not_or] at hc
    simp only [List.head?_cons, Option.map_some, Option.getD_some]
    rw [← Bool.not_eq_true, white_iff]; simp [hc]
  | escaped => rfl
  | single => rfl
  | double => rfl

theorem drop_white {s t : Str} (hs : White s) (ht : t = [] ∨ (t.head?.map isWhite).getD false = false) : (s ++ t).dropWhile isWhite = t := by
  induction s with
  | nil =>
    rcases ht with rfl | ht
    · rfl
    · cases t with
      | nil => rfl
      | cons c t => simp at ht; simp [ht]
  | cons c s ih =>
    have h1 : isWhite c = true := white_iff.2 (hs c (by simp))
    rw [List.cons_append, List.dropWhile_cons_of_pos h1]
    exact ih (fun d hd => hs d (by simp [hd]))

theorem runArgs_head {ws : List Str} {t : Str} (h : RunArgs ws t) : ∃ s t', White s ∧ t = s ++ t' ∧ t' ≠ [] ∧ (t'.head?.map isWhite).getD false = false := by
  cases h with
  | @one w s t e hs ht hne he =>
    refine ⟨s, t ++ e, hs, by simp, by simp [hne], ?_⟩
    have := runArg_head ht hne
    cases t with
    | nil => exact absurd rfl hne
    | cons c t => exact this
  | @cons w s t e r ws hs ht hne he hne2 _ =>
    refine ⟨s, t ++ e ++ r, hs, by simp, by simp [hne], ?_⟩
    have := runArg_head ht hne
    cases t with
    | nil => exact absurd rfl hne
    | cons c t => exact this

theorem white_append_head {e r : Str} (he : White e) (hne : e ≠ []) : ((e ++ r).head?.map isWhite).getD false = true := by
  cases e with
  | nil => exact absurd rfl hne
  | cons c e => exact white_iff.2 (he c (by simp))

theorem white_nil {e : Str} (he : White e) : e.dropWhile isWhite = [] := by
  have := drop_white he (t := []) (.inl rfl)
  simpa using this

/-- The room for words is enough. -/
def roomFor (argc maxargc : Nat) : Prop := maxargc = 0 ∧ argc = 0 ∨ 8 ≤ maxargc ∧ argc + 1 ≤ maxargc

theorem room_step {argc maxargc : Nat} (h : roomFor argc maxargc) :
    (¬ argc + 1 ≥ (if maxargc = 0 then 8 else if argc ≥ maxargc - 1 then maxargc * 2 else maxargc)) ∧
      roomFor (argc + 1) (if maxargc = 0 then 8 else if argc ≥ maxargc - 1 then maxargc * 2 else maxargc) := by
  unfold roomFor at *
  split
  · omega
  · split <;> omega

/-- Blanks at the start do not matter. -/
theorem argvLoop_drop (buf argc maxargc : Nat) {s t : Str} (h : s.dropWhile isWhite = t.dropWhile isWhite) :
    argvLoop buf argc maxargc s = argvLoop buf argc maxargc t := by
  rw [argvLoop.eq_def, argvLoop.eq_def]
  simp only [h]

theorem argvLoop_text {ws : List Str} {t : Str} (h : RunArgs ws t) : ∀ (buf argc maxargc : Nat), roomFor argc maxargc → t.length < buf →
    argvLoop buf argc maxargc t = some ws := by
  induction h with
  | @one w s t e hs ht hne he =>
    intro buf argc maxargc hr hb
    have h1 := runArg_head ht hne
    have h2 : (s ++ t ++ e).dropWhile isWhite = t ++ e := by
      rw [List.append_assoc, drop_white hs]
      right
      cases t with
      | nil => exact absurd rfl hne
      | cons c t => exact h1
    have h3 : scanArg {} (t ++ e) = (w, e) := by
      refine scan_arg ht ?_
      cases e with
      | nil => exact .inl rfl
      | cons c e => exact .inr (white_iff.2 (he c (by simp)))
    have h4 := scanArg_length {} (t ++ e)
    rw [h3] at h4
    obtain ⟨r1, r2⟩ := room_step hr
    rw [argvLoop.eq_def]
    simp only [h2, h3]
    rw [if_neg]
    · rw [dif_pos (white_nil he)]
    · simp at hb h4; omega
  | @cons w s t e r ws hs ht hne he hne2 hrest ih =>
    intro buf argc maxargc hr hb
    have h1 := runArg_head ht hne
    have h2 : (s ++ t ++ e ++ r).dropWhile isWhite = t ++ (e ++ r) := by
      rw [List.append_assoc, List.append_assoc, drop_white hs]
      right
      cases t with
      | nil => exact absurd rfl hne
      | cons c t => exact h1
    have h3 : scanArg {} (t ++ (e ++ r)) = (w, e ++ r) := scan_arg ht (.inr (white_append_head he hne2))
    have h4 := scanArg_length {} (t ++ (e ++ r))
    rw [h3] at h4
    obtain ⟨r1, r2⟩ := room_step hr
    obtain ⟨s', t', g1, g2, g3, g4⟩ := runArgs_head hrest
    have h5 : (e ++ r).dropWhile isWhite = t' := by
      rw [g2, ← List.append_assoc]
      refine drop_white (s := e ++ s') ?_ (.inr g4)
      intro c hc
      rcases List.mem_append.1 hc with hc | hc
      · exact he c hc
      · exact g1 c hc
    rw [argvLoop.eq_def]
    simp only [h2, h3]
    rw [if_neg (by simp at hb h4; omega)]
    rw [dif_neg (by rw [h5]; exact g3), h5]
    have h6 : r.dropWhile isWhite = t'.dropWhile isWhite := by
      rw [g2, drop_white g1 (.inr g4)]
      have := drop_white (s := []) (t := t') (by intro c hc; simp at hc) (.inr g4)
      simpa using this.symm
    rw [← argvLoop_drop _ _ _ h6, ih _ _ _ r2 (by simp at hb; omega)]
    rfl

/-- C105: the arguments of `run` are the words of the text, with quotes and backslashes taken away. -/
theorem C105_words {ws : List Str} {t : Str} (h : RunArgs ws t) : buildArgv t = some ws :=
  argvLoop_text h _ 0 0 (.inl ⟨rfl, rfl⟩) (by omega)

example : buildArgv "a 'b c'\td\\ e\"f' g\" ''".toList = some ["a".toList, "b c".toList, "d ef' g".toList, []] := by
  refine C105_words (t := [] ++ ['a'] ++ [' '] ++ ([] ++ "'b c'".toList ++ ['\t'] ++ ([] ++ "d\\ e\"f' g\"".toList ++ [' '] ++ ([] ++ "''".toList ++ [])))) ?_
  have w0 : White [] := by intro c hc; simp at hc
  have w1 : White [' '] := by intro c hc; simp at hc; exact .inl hc
  have w2 : White ['\t'] := by intro c hc; simp at hc; exact .inr hc
  refine .cons w0 (.char (by decide) .nil) (by decide) w1 (by decide) ?_
  refine .cons w0 (RunArg.single (v := "b c".toList) (s := "b c".toList) (w := []) (t := []) ?_ .nil) (by decide) w2 (by decide) ?_
  · exact .char (by decide) (by decide) (.char (by decide) (by decide) (.char (by decide) (by decide) .nil))
  refine .cons w0 (.char (by decide) (.escaped (.char (by decide)
    (RunArg.double (v := "f' g".toList) (s := "f' g".toList) (w := []) (t := []) ?_ .nil)))) (by decide) w1 (by decide) ?_
  · exact .char (by decide) (by decide) (.char (by decide) (by decide) (.char (by decide) (by decide) (.char (by decide) (by decide) .nil)))
  exact .one w0 (RunArg.single (v := []) (s := []) (w := []) (t := []) .nil .nil) (by decide) w0

/-- C105: whatever the text, the words are stored in the room that was made for them, and the split ends with at least one word. -/
theorem C105_room (t : Str) : ∃ w ws, buildArgv t = some (w :: ws) ∧ ∀ x ∈ w :: ws, x.length ≤ t.length := by
  have key : ∀ (n : Nat) (s : Str) (buf argc maxargc : Nat), s.length = n → roomFor argc maxargc → s.length < buf →
      ∃ w ws, argvLoop buf argc maxargc s = some (w :: ws) ∧ ∀ x ∈ w :: ws, x.length ≤ s.length := by
    intro n
    induction n using Nat.strongRecOn with
    | _ n ih =>
      intro s buf argc maxargc hn hr hb
      obtain ⟨r1, r2⟩ := room_step hr
      have h1 : (s.dropWhile isWhite).length ≤ s.length := (List.dropWhile_sublist _).length_le
      have h3 := scanArg_length {} (s.dropWhile isWhite)
      rw [argvLoop.eq_def]
      simp only []
      rw [if_neg (by omega)]
      split
      · refine ⟨_, _, rfl, ?_⟩
        intro x hx
        simp at hx; subst hx; omega
      · next heq =>
        have h2 : ((scanArg {} (s.dropWhile isWhite)).2.dropWhile isWhite).length ≤ (scanArg {} (s.dropWhile isWhite)).2.length :=
          (List.dropWhile_sublist _).length_le
        have hne : s.dropWhile isWhite ≠ [] := by
          intro e; rw [e] at heq; exact heq rfl
        have h4 := scanArg_lt hne (dropWhile_head_white s)
        obtain ⟨w, ws, g1, g2⟩ := ih _ (by omega) ((scanArg {} (s.dropWhile isWhite)).2.dropWhile isWhite) buf _ _ rfl r2 (by omega)
        rw [g1]
        refine ⟨_, _, rfl, ?_⟩
        intro x hx
        rcases List.mem_cons.1 hx with rfl | hx
        · omega
        · have := g2 x hx; omega
  exact key t.length t _ 0 0 rfl (.inl ⟨rfl, rfl⟩) (by omega)

/-- C105: `run` with arguments starts make with these arguments after its name - if the name has no blanks, quotes or backslashes (missing: see `C105_name_split`). -/
theorem C105_run_partial {name arg : Str} {argv ws : List Str} (hn : name ≠ [])
    (hc : ∀ c ∈ name, c ∉ [' ', '\t', '\\', '\'', '"']) (h : RunArgs ws arg) :
    runArgv (name :: argv) arg = some (name :: ws) := by
  have ht : ∀ n : Str, (∀ c ∈ n, c ∉ [' ', '\t', '\\', '\'', '"']) → RunArg n n := by
    intro n
    induction n with
    | nil => intro _; exact .nil
    | cons c n ih => intro h; exact .char (h c (by simp)) (ih fun d hd => h d (by simp [hd]))
  have hne : arg ≠ [] := by
    obtain ⟨s, t, _, rfl, h3, _⟩ := runArgs_head h
    simp [h3]
  unfold runArgv
  rw [if_neg hne]
  have := RunArgs.cons (s := []) (e := [' ']) (by intro c hc; simp at hc) (ht name hc) hn (by intro c hc; simp at hc; exact .inl hc) (by simp) h
  simpa using C105_words this

/-- C105: `run` without arguments repeats the command line. -/
theorem C105_again (argv : List Str) : runArgv argv [] = some argv := rfl

/-- C105 fails if the name of make has blanks: parts of it become arguments. -/
theorem C105_name_split : runArgv ["/my tools/remake".toList] "all".toList =
    some ["/my".toList, "tools/remake".toList, "all".toList] := by decide +kernel

end Remake
