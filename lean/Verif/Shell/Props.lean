import Verif.Shell.Lemmas2
/-!
# Properties of running command lines (C41, C42, C70)
-/
set_option linter.unusedSimpArgs false
namespace Remake
open Spec

theorem kept_length (r : Bool) (s : Str) : (kept r s).length ≤ (escLine r s).1.length := by
  induction s using escInduct with
  | h0 => simp [kept]
  | h1 s ih => rw [escLine_bsnl, kept_bsnl]; simp; omega
  | h2 c s h ih =>
    rw [escLine_cons _ _ _ h, kept_cons _ _ _ h]
    by_cases hc : c = '\n'
    · rw [if_pos hc]
      cases r with
      | true => simp [hc]
      | false =>
        rw [if_neg (by simp), if_neg (by simp)]
        split <;> simp <;> omega
    · rw [if_neg hc, if_neg (by simp [hc])]
      split <;> simp <;> omega

/-- The level below the first: the line built for the shell. -/
theorem argv_below (posix r : Bool) (n : Nat) (sh flags s : Str) (hs : plainShell sh) (hc : sh ∉ shCmds)
    (hf : plainFlags flags) (hk : kept r s ≠ []) :
    argvInternal false posix (n + 1) (escShell sh ++ ' ' :: flags ++ ' ' :: (escLine r s).1) false none none
      none = some (some (sh :: wordsOf flags ++ [kept r s]), none) := by
  have hnb : (escShell sh ++ ' ' :: flags ++ ' ' :: (escLine r s).1).dropWhile isBlank =
      escShell sh ++ ' ' :: flags ++ ' ' :: (escLine r s).1 := by
    obtain ⟨h1, h2⟩ := hs
    cases sh with
    | nil => exact absurd rfl h1
    | cons c sh =>
      have h3 := (h2 c (by simp)).1
      have h4 : isBlank c = false := by
        simp only [isSpace, Bool.or_eq_false_iff] at h3
        exact h3.1
      simp only [escShell, List.flatMap_cons]
      split
      · simp [List.dropWhile_cons, isBlank]
      · simp [List.dropWhile_cons, h4]
  have hq : quickOk none (if posix = true then "-ec".toList else "-c".toList) none = true := by
    cases posix <;> decide
  rw [argvInternal]
  simp only [Option.getD_none]
  rw [hnb, if_neg (by simp), if_pos hq, fast_shellLine sh flags r s hs hc hf hk]
  simp

/-- The levels of a call: what is run is either the words of the fast path, or the shell with the
command as one argument. -/
theorem argv_cases (posix : Bool) (n : Nat) (line sh flags : Str) (shell ifs : Option Str)
    (hsh : shell.getD defaultShell = sh) (hs : plainShell sh) (hc : sh ∉ shCmds)
    (hf : plainFlags flags) (hk : commandText false (line.dropWhile isBlank) ≠ []) :
    (∃ l rest, quickOk shell flags ifs = true ∧
      fastLine true false {} (line.dropWhile isBlank) = .args l rest ∧
      argvInternal false posix (n + 2) line true shell (some flags) ifs =
        some (if l = [] then none else some l, rest)) ∨
    ∃ rest : Option Str, line.dropWhile isBlank = commandText false (line.dropWhile isBlank) ++ rest.getD [] ∧
      (∀ x, rest = some x → x.head? = some '\n') ∧
      argvInternal false posix (n + 2) line true shell (some flags) ifs =
        some (some (sh :: wordsOf flags ++ [commandText false (line.dropWhile isBlank)]), rest) := by
  have hne : line.dropWhile isBlank ≠ [] := by intro e; rw [e] at hk; exact hk rfl
  rw [argvInternal.eq_def]
  simp only [Option.getD_some, hsh, if_neg hne, Bool.false_eq_true, if_false]
  generalize line.dropWhile isBlank = s at *
  have hk' : kept true s ≠ [] := by rw [kept_command]; exact hk
  have hlen : ¬((escShell sh).length + (escLine true s).1.length = sh.length) := by
    have h1 : sh.length ≤ (escShell sh).length := by
      clear hs hc hsh
      induction sh with
      | nil => simp
      | cons c sh ih =>
        have : escShell (c :: sh) = (if c ∈ shChars then ['\\', c] else [c]) ++ escShell sh := by
          simp [escShell, List.flatMap_cons]
        rw [this]
        split <;> simp <;> omega
    have h2 := kept_length true s
    have h3 := List.length_pos_iff.2 hk'
    omega
  have slow : ∀ r0 : Option Str, (∀ x, r0 = some x → commandText false s ≠ s) →
      ∃ rest : Option Str, s = commandText false s ++ rest.getD [] ∧ (∀ x, rest = some x → x.head? = some '\n') ∧
      (if (escShell sh).length + (escLine true s).1.length = sh.length then
        some (none, match (escLine true s).2 with | some r => some r | none => r0)
       else
        match argvInternal false posix (n + 1) (escShell sh ++ ' ' :: flags ++ ' ' :: (escLine true s).1) false
          none none none with
        | none => none
        | some (argv, _) => some (argv, match (escLine true s).2 with | some r => some r | none => r0)) =
        some (some (sh :: wordsOf flags ++ [commandText false s]), rest) := by
    intro r0 hr0
    rw [if_neg hlen, argv_below posix true n sh flags s hs hc hf hk', kept_command]
    rcases escLine_rest s with ⟨r, h1, h2, h3⟩ | ⟨h1, h2⟩
    · exact ⟨some r, h2, by simpa using h3, by simp [h1]⟩
    · refine ⟨none, by simpa using h2, by simp, ?_⟩
      cases r0 with
      | none => simp [h1]
      | some x => exact absurd h2.symm (hr0 x rfl)
  by_cases hq : quickOk shell flags ifs = true
  · cases hfl : fastLine true false {} s with
    | args l r =>
      refine .inl ⟨l, r, hq, rfl, ?_⟩
      simp only [hq, if_true]
      cases l <;> simp
    | slow r0 =>
      refine .inr ?_
      simp only [hq, if_true]
      exact slow r0 fun x hx => slow_rest s.length s (Nat.le_refl _) {} false x (by rw [hfl, hx]) (by simp)
  · refine .inr ?_
    simp only [hq, if_false, Bool.false_eq_true]
    exact slow none (by simp)

/-! ### C41: the shell gets the line -/

/-- C41.  With a shell other than `/bin/sh` (given by a plain name that is not the name of a built-in), every
command is one argument of the shell, byte for byte, after the words of the flags; the text that
is left starts at the newline that ends the command.

Missing for the full claim: leading blanks are removed; a SHELL with blanks, quotes, backslashes or equals
signs and flags with special characters go through a second shell; see also `C41_oneshell_cut` and
`C41_function_newline`. -/
theorem C41_shell_partial (posix : Bool) (n : Nat) (line sh flags : Str) (ifs : Option Str)
    (hs : plainShell sh) (hc : sh ∉ shCmds) (hf : plainFlags flags) (hd : sh ≠ "/bin/sh".toList)
    (hk : commandText false (line.dropWhile isBlank) ≠ []) :
    ∃ rest : Option Str, line.dropWhile isBlank = commandText false (line.dropWhile isBlank) ++ rest.getD [] ∧
      (∀ x, rest = some x → x.head? = some '\n') ∧
      argvInternal false posix (n + 2) line true (some sh) (some flags) ifs =
        some (some (sh :: wordsOf flags ++ [commandText false (line.dropWhile isBlank)]), rest) := by
  rcases argv_cases posix n line sh flags (some sh) ifs rfl hs hc hf hk with ⟨l, r, h, -⟩ | h
  · exfalso
    simp only [quickOk, Bool.and_eq_true, beq_iff_eq] at h
    exact hd h.1.1
  · exact h

example : plainShell "/usr/bin/bash".toList ∧ "/usr/bin/bash".toList ∉ shCmds ∧ plainFlags "-o pipefail -c".toList ∧
    commandText false ("echo \"$x\" | sed 's/a\\\n/b/' \nnext".toList) = "echo \"$x\" | sed 's/a\\\n/b/' ".toList ∧
    argvInternal false false 2 "echo \"$x\" | sed 's/a\\\n/b/' \nnext".toList true (some "/usr/bin/bash".toList)
      (some "-o pipefail -c".toList) none =
      some (some ["/usr/bin/bash".toList, "-o".toList, "pipefail".toList, "-c".toList,
        "echo \"$x\" | sed 's/a\\\n/b/' ".toList], some "\nnext".toList) :=
  ⟨⟨by decide, by decide⟩, by decide +kernel, by unfold plainFlags; decide, by decide, by decide +kernel⟩

/-- C41.  With the default shell, a line of which no part up to a newline is a simple command for the shell
is given to the shell as one argument, byte for byte. -/
theorem C41_default_partial (posix : Bool) (n : Nat) (line flags : Str) (shell ifs : Option Str)
    (hsh : shell.getD "/bin/sh".toList = "/bin/sh".toList) (hf : plainFlags flags)
    (hk : commandText false (line.dropWhile isBlank) ≠ [])
    (hr : ∀ cmd r, line.dropWhile isBlank = cmd ++ r → (r = [] ∨ r.head? = some '\n') →
      shTokens [] [] none false cmd = none) :
    ∃ rest : Option Str, line.dropWhile isBlank = commandText false (line.dropWhile isBlank) ++ rest.getD [] ∧
      (∀ x, rest = some x → x.head? = some '\n') ∧
      argvInternal false posix (n + 2) line true shell (some flags) ifs =
        some (some ("/bin/sh".toList :: wordsOf flags ++ [commandText false (line.dropWhile isBlank)]), rest) := by
  rcases argv_cases posix n line _ flags shell ifs hsh ⟨by decide, by decide⟩ (by decide +kernel) hf hk with
    ⟨l, r, -, h, -⟩ | h
  · exfalso
    obtain ⟨cmd, e1, e2, e3⟩ := fast_isSome _ _ (Nat.le_refl _) {} l r h [] none
      ⟨by simp, by simp, fun _ _ => ⟨rfl, fun c hc => by
        have h5 := List.head?_dropWhile_not isBlank line
        rw [hc] at h5
        simpa using h5⟩⟩
    have e3' : (shTokens [] [] none false cmd).isSome = true := e3
    rw [hr cmd _ e1 (by
      cases r with
      | none => exact .inl rfl
      | some x => exact .inr (e2 x rfl))] at e3'
    cases e3'
  · exact h

example : argvInternal false false 2 "cat <a >b\nnext".toList true none (some "-c".toList) none =
      some (some ["/bin/sh".toList, "-c".toList, "cat <a >b".toList], some "\nnext".toList) := by
  decide +kernel

/-- C41, `.ONESHELL`.  The whole script is one argument after the flags; with a Bourne shell, blanks
and prefix characters at the start of its lines are gone.

Missing: this is for other shells than `/bin/sh` (or flags that rule out direct execution); see
`C41_oneshell_cut`. -/
theorem C41_oneshell_partial (posix restp : Bool) (n : Nat) (line sh flags : Str) (ifs : Option Str)
    (hd : sh ≠ "/bin/sh".toList ∨ flags ∉ ["-c".toList, "-ec".toList])
    (hk : line.dropWhile isBlank ≠ []) :
    argvInternal true posix (n + 1) line restp (some sh) (some flags) ifs =
      some (some (sh :: wordsOf flags ++
        [if isBourne sh then scriptText (line.dropWhile isBlank) else line.dropWhile isBlank]), none) := by
  have hq : quickOk (some sh) flags ifs = false := by
    cases h : quickOk (some sh) flags ifs with
    | false => rfl
    | true =>
      exfalso
      simp only [quickOk, Bool.and_eq_true, beq_iff_eq, Bool.or_eq_true] at h
      rcases hd with hd | hd
      · exact hd h.1.1
      · exact hd (by simpa using h.2)
  rw [argvInternal]
  simp only [Option.getD_some, if_neg hk, hq, Bool.false_eq_true, if_false, if_true]
  rw [flagTokens_eq, (oneShellStrip_text _).2]

example : argvInternal true false 1 "for i in 1 2\n\t@do echo $i;\\\n-x\n+done".toList true (some "/bin/bash".toList)
      (some "-e -c".toList) none =
    some (some ["/bin/bash".toList, "-e".toList, "-c".toList,
      "for i in 1 2\ndo echo $i;\\\n-x\ndone".toList], none) := by decide +kernel

/-- C41 fails: under `.ONESHELL` with the default shell, a script whose first line opens a single quoted string
with a newline in it is cut at that newline. -/
theorem C41_oneshell_cut :
    argvInternal true false 3 "echo 'a\nb'\nfoo".toList true none (some "-c".toList) none =
      some (some ["/bin/sh".toList, "-c".toList, "echo 'a".toList], some "\nb'\nfoo".toList) := by
  decide +kernel

/-- C41 fails for the `shell` function (no `restp`): a newline in a command that needs the shell disappears. -/
theorem C41_function_newline :
    argvInternal false false 3 "cd /; a\necho b".toList false none (some "-c".toList) none =
      some (some ["/bin/sh".toList, "-c".toList, "cd /; aecho b".toList], none) := by
  decide +kernel

/-- C41 fails for a SHELL with a blank in its name and an assignment: the line goes through
`/bin/sh -c`, which removes the backslash that continues the line. -/
theorem C41_shell_words :
    argvInternal false false 3 "a \\\n b".toList true (some "x=1 ash".toList) (some "-c".toList) none =
      some (some ["/bin/sh".toList, "-c".toList, "x=1 ash -c a\\ \\\\\n\\ b".toList], none) := by
  decide +kernel

/-! ### C42: commands that are run directly -/

/-- C42.  The words of a command that is run without a shell are the words a POSIX shell finds.

Missing: lines with a quote just before a backslash-newline (`C42_empty_word` shows that they can lose a
word), and what POSIX leaves open (a backslash at the very end is dropped, as the `[]` says). -/
theorem C42_words_partial (line : Str) (l : List Str) (rest : Option Str)
    (h : fastLine true false {} (line.dropWhile isBlank) = .args l rest)
    (hq : ∀ a b, line ≠ a ++ "'\\\n".toList ++ b) :
    ∃ cmd, line.dropWhile isBlank = cmd ++ rest.getD [] ∧ (∀ x, rest = some x → x.head? = some '\n') ∧
      shTokens [] [] none false cmd = some l := by
  have hh : ∀ c, (line.dropWhile isBlank).head? = some c → isBlank c = false := fun c hc => by
    have h5 := List.head?_dropWhile_not isBlank line
    rw [hc] at h5
    simpa using h5
  have hn : noQuoteNl line := fun a b e => hq a b (by rw [e]; simp)
  refine fast_sim _ _ (Nat.le_refl _) {} none none l rest h ?_ (by simp) ?_
  · exact { first := by simp, noEq := by simp, none := fun _ => ⟨rfl, rfl, rfl, hh⟩, some := by simp }
  · have := noQuoteNl_drop (a := line.takeWhile isBlank) (s := line.dropWhile isBlank)
    rw [List.takeWhile_append_dropWhile] at this
    exact this hn

/-- C42.  Every command that is run directly is a simple command: no unquoted special characters, no
assignments, no open quotes. -/
theorem C42_simple (line : Str) (l : List Str) (rest : Option Str)
    (h : fastLine true false {} (line.dropWhile isBlank) = .args l rest) :
    ∃ cmd, line.dropWhile isBlank = cmd ++ rest.getD [] ∧ (∀ x, rest = some x → x.head? = some '\n') ∧
      (shTokens [] [] none false cmd).isSome :=
  fast_isSome _ _ (Nat.le_refl _) {} l rest h [] none
    ⟨by simp, by simp, fun _ _ => ⟨rfl, fun c hc => by
      have h5 := List.head?_dropWhile_not isBlank line
      rw [hc] at h5
      simpa using h5⟩⟩

theorem fast_not_builtin (n : Nat) : ∀ (s : Str), s.length ≤ n → ∀ (st : FastState) (restp : Bool)
    (l : List Str) (r : Option Str), fastLine restp false st s = .args l r →
    (∀ w, st.args.head? = some w → w ∉ shCmds) → ∀ w, l.head? = some w → w ∉ shCmds := by
  have stop : ∀ (st : FastState) (l : List Str) (r r' : Option Str), endOfLine st r' = .args l r →
      (∀ w, st.args.head? = some w → w ∉ shCmds) → ∀ w, l.head? = some w → w ∉ shCmds := by
    intro st l r r' h hb w hw
    unfold endOfLine at h
    split at h
    · cases h
    dsimp only at h
    generalize hl : (if (!st.cur.isEmpty || st.lastEmpty) = true then st.args ++ [st.cur.reverse]
      else st.args) = l' at h
    split at h
    · cases h
    rename_i h2
    simp only [Fast.args.injEq] at h
    rw [← h.1] at hw
    intro hm
    apply h2
    cases l' with
    | nil => simp at hw
    | cons x xs =>
      simp only [List.head?_cons, Option.some.injEq] at hw
      subst hw
      refine ⟨?_, hm⟩
      cases ha : st.args with
      | nil =>
        rw [ha] at hl
        split at hl
        · simp only [List.nil_append, List.cons.injEq] at hl; rw [← hl.2]; rfl
        · cases hl
      | cons y ys =>
        exfalso
        have : y = x := by
          rw [ha] at hl
          split at hl <;> simp at hl <;> exact hl.1
        exact hb y (by rw [ha]; rfl) (this ▸ hm)
  induction n with
  | zero =>
    intro s hs st restp l r h hb
    have : s = [] := List.eq_nil_of_length_eq_zero (by omega)
    subst this
    rw [fast_end] at h
    exact stop _ _ _ _ h hb
  | succ n ih =>
    intro s hs st restp l r h hb
    cases s with
    | nil =>
      rw [fast_end] at h
      exact stop _ _ _ _ h hb
    | cons c s =>
      simp only [List.length_cons] at hs
      rw [fastLine.eq_def] at h
      simp only at h
      split at h
      · split at h
        · exact ih s (by omega) _ _ _ _ h hb
        · split at h
          · exact ih s.tail (by simp; omega) _ _ _ _ h hb
          · split at h
            · exact stop _ _ _ _ h hb
            · exact ih s (by omega) _ _ _ _ h hb
      · split at h
        · cases h
        split at h
        · cases h
        split at h
        · split at h
          · cases h
          · exact ih s (by omega) _ _ _ _ h hb
        split at h
        · cases s with
          | nil =>
            simp only at h
            exact ih [] (by simp) _ _ _ _ h hb
          | cons d s =>
            simp only at h
            simp only [List.length_cons] at hs
            split at h
            · have hlen := dropWhile_length_le isBlank s
              split at h
              · exact ih (s.dropWhile isBlank) (by omega) _ _ _ _ h hb
              · exact ih s (by omega) _ _ _ _ h hb
            · exact ih s (by omega) _ _ _ _ h hb
        split at h
        · exact ih s (by omega) _ _ _ _ h hb
        split at h
        · split at h
          · exact stop _ _ _ _ h hb
          · exact ih s (by omega) _ _ _ _ h hb
        split at h
        · split at h
          · cases h
          split at h
          · cases h
          rename_i h2
          have hlen := dropWhile_length_le isBlank s
          refine ih (s.dropWhile isBlank) (by omega) _ _ _ _ h ?_
          intro w hw
          simp only at hw
          cases ha : st.args with
          | nil =>
            rw [ha] at hw h2
            simp only [List.nil_append, List.head?_cons, Option.some.injEq] at hw
            rw [← hw]
            intro hm
            exact h2 ⟨rfl, hm⟩
          | cons y ys =>
            rw [ha] at hw
            exact hb w (by rw [ha]; simpa using hw)
        · exact ih s (by omega) _ _ _ _ h hb

/-- C42.  A command that is run directly is no special built-in utility of the shell, no utility that acts on the shell, and no
compound command. -/
theorem C42_builtin (restp : Bool) (line : Str) (w : Str) (l : List Str) (rest : Option Str)
    (h : fastLine restp false {} (line.dropWhile isBlank) = .args (w :: l) rest) :
    w ∉ specialBuiltins ++ shellUtilities := by
  have h1 := fast_not_builtin _ _ (Nat.le_refl _) {} restp (w :: l) rest h (by simp) w rfl
  exact fun h2 => h1 ((show ∀ x ∈ specialBuiltins ++ shellUtilities, x ∈ shCmds by decide +kernel) w h2)

/-- C42.  What is executed, and when it is executed directly: either the words of the shell, with the
default shell and its default flags, or the shell with the command as one argument. -/
theorem C42_dispatch_partial (posix : Bool) (n : Nat) (line sh flags : Str) (shell ifs : Option Str)
    (hsh : shell.getD "/bin/sh".toList = sh) (hs : plainShell sh) (hc : sh ∉ shCmds)
    (hf : plainFlags flags) (hk : commandText false (line.dropWhile isBlank) ≠ [])
    (hq : ∀ a b, line ≠ a ++ "'\\\n".toList ++ b) :
    ∃ argv cmd rest, argvInternal false posix (n + 2) line true shell (some flags) ifs = some (argv, rest) ∧
      line.dropWhile isBlank = cmd ++ rest.getD [] ∧ (∀ x, rest = some x → x.head? = some '\n') ∧
      (argv = some (sh :: wordsOf flags ++ [cmd]) ∨
        sh = "/bin/sh".toList ∧ (flags = "-c".toList ∨ flags = "-ec".toList) ∧
        shTokens [] [] none false cmd = some (argv.getD [])) := by
  rcases argv_cases posix n line sh flags shell ifs hsh hs hc hf hk with ⟨l, r, h1, h2, h3⟩ | ⟨r, h1, h2, h3⟩
  · obtain ⟨cmd, e1, e2, e3⟩ := C42_words_partial line l r h2 hq
    refine ⟨_, cmd, r, h3, e1, e2, .inr ⟨?_, ?_, ?_⟩⟩
    · rw [← hsh]
      cases shell with
      | none => rfl
      | some s =>
        simp only [quickOk, Bool.and_eq_true, beq_iff_eq] at h1
        exact h1.1.1
    · simp only [quickOk, Bool.and_eq_true, Bool.or_eq_true, beq_iff_eq] at h1
      exact h1.2
    · rw [e3]
      cases l <;> rfl
  · exact ⟨_, _, r, h3, h1, h2, .inl rfl⟩

example : fastLine true false {} ("cc -DX='a b' -o x\\ y \\\n  'it''s' ''\nnext".toList) =
    .args ["cc".toList, "-DX=a b".toList, "-o".toList, "x y".toList, "its".toList, []] (some "\nnext".toList) ∧
    shTokens [] [] none false "cc -DX='a b' -o x\\ y \\\n  'it''s' ''".toList =
      some ["cc".toList, "-DX=a b".toList, "-o".toList, "x y".toList, "its".toList, []] := by
  decide +kernel

/-- C42 fails: an empty quoted word just before a backslash-newline is lost. -/
theorem C42_empty_word :
    fastLine true false {} "foo ''\\\n bar".toList = .args ["foo".toList, "bar".toList] none ∧
    shTokens [] [] none false "foo ''\\\n bar".toList = some ["foo".toList, [], "bar".toList] := by
  decide +kernel

/-- C42 fails: a backslash at the very end is dropped; shells keep it. -/
theorem C42_last_backslash :
    fastLine true false {} "foo \\".toList = .args ["foo".toList] none ∧
    shTokens ['\\'] [] none false "foo \\".toList = some ["foo".toList, ['\\']] := by
  decide +kernel

/-- C42 fails for other utilities that shells have built in (POSIX XCU 2.9.1.4 and the reserved words): they
are executed as programs. -/
theorem C42_other_builtins : ∀ w ∈ ["until", "kill", "pwd", "true", "false", "newgrp"].map String.toList,
    fastLine true false {} (w ++ " x".toList) = .args [w, ['x']] none := by
  decide +kernel

/-! ### C70: splitting a command ends -/

/-- C70.  For every line, shell, flags and IFS, splitting a command calls itself at most twice. -/
theorem C70_depth (oneShell posix restp : Bool) (line : Str) (shell flags ifs : Option Str) :
    (argvInternal oneShell posix 3 line restp shell flags ifs).isSome := by
  have h1 : ∀ (posix r : Bool) (s : Str), (argvInternal false posix 1 (escShell defaultShell ++ ' ' ::
      (if posix then "-ec".toList else "-c".toList) ++ ' ' :: (escLine r s).1) false none none none).isSome := by
    intro posix r s
    obtain ⟨l, hl⟩ := fast_default posix r s
    have hq : quickOk none (if posix = true then "-ec".toList else "-c".toList) none = true := by
      cases posix <;> decide
    have hnb : ∀ t, (escShell defaultShell ++ t).dropWhile isBlank = escShell defaultShell ++ t := by
      intro t
      have : escShell defaultShell = '/' :: "bin/sh".toList := by decide
      rw [this]
      simp [List.dropWhile_cons, isBlank]
    rw [argvInternal]
    simp only [Option.getD_none]
    rw [List.append_assoc, hnb, ← List.append_assoc, if_neg (by simp), if_pos hq, hl]
    cases l <;> simp
  have h2 : ∀ (posix restp : Bool) (line : Str),
      (argvInternal false posix 2 line restp none none none).isSome := by
    intro posix restp line
    rw [argvInternal]
    simp only [Option.getD_none, Bool.false_eq_true, if_false]
    split
    · rfl
    · split
      · rfl
      · rfl
      · split
        · rfl
        · have := h1 posix restp (line.dropWhile isBlank)
          split
          · rename_i h; rw [h] at this; cases this
          · rfl
  rw [argvInternal]
  dsimp only
  split
  · rfl
  · split
    · rfl
    · rfl
    · split
      · split <;> rfl
      · rename_i h3
        have h3 : oneShell = false := by simpa using h3
        subst h3
        split
        · rfl
        · have := h2 posix false (escShell (shell.getD defaultShell) ++
            ' ' :: flags.getD (if posix = true then "-ec".toList else "-c".toList) ++
              ' ' :: (escLine restp (line.dropWhile isBlank)).1)
          split
          · rename_i h; rw [h] at this; cases this
          · rfl

/-- Two levels are not enough: a shell with an assignment in its name. -/
theorem C70_depth_tight :
    argvInternal false false 2 "a;b".toList true (some "x=1 ash".toList) (some "-c".toList) none = none ∧
    (argvInternal false false 3 "a;b".toList true (some "x=1 ash".toList) (some "-c".toList) none).isSome := by
  decide +kernel

theorem escLine_length (r : Bool) (s : Str) : (escLine r s).1.length ≤ 2 * s.length := by
  induction s using escInduct with
  | h0 => simp [escLine]
  | h1 s ih => rw [escLine_bsnl]; simp; omega
  | h2 c s h ih =>
    rw [escLine_cons _ _ _ h]
    split
    · simp
    · split <;> simp <;> omega

theorem escShell_length (s : Str) : (escShell s).length ≤ 2 * s.length := by
  induction s with
  | nil => simp [escShell]
  | cons c s ih =>
    have : escShell (c :: s) = (if c ∈ shChars then ['\\', c] else [c]) ++ escShell s := by
      simp [escShell, List.flatMap_cons]
    rw [this]
    split <;> simp <;> omega

/-- C70.  The text built for the shell and its end fit in the buffer that is allocated for it (job.c
2945-2946). -/
theorem C70_buffer (restp : Bool) (sh flags line : Str) :
    (escShell sh ++ ' ' :: flags ++ ' ' :: (escLine restp line).1).length + 1 ≤
      (sh.length * 2) + 1 + flags.length + 1 + (line.length * 2) + 1 := by
  have h1 := escLine_length restp line
  have h2 := escShell_length sh
  simp
  omega

/-- The arguments of the fast path and their ends. -/
theorem fast_size (n : Nat) : ∀ (s : Str), s.length ≤ n → ∀ (st : FastState) (restp o : Bool) (l : List Str)
    (r : Option Str), fastLine restp o st s = .args l r →
    (l.map (·.length + 1)).sum ≤ (st.args.map (·.length + 1)).sum + st.cur.length + s.length + 1 ∧
    l.length ≤ st.args.length + s.length + (if st.lastEmpty || !st.cur.isEmpty || st.inq then 1 else 0) := by
  have stop : ∀ (st : FastState) (l : List Str) (r r' : Option Str) (k : Nat), endOfLine st r' = .args l r →
      (l.map (·.length + 1)).sum ≤ (st.args.map (·.length + 1)).sum + st.cur.length + k + 1 ∧
      l.length ≤ st.args.length + k + (if st.lastEmpty || !st.cur.isEmpty || st.inq then 1 else 0) := by
    intro st l r r' k h
    unfold endOfLine at h
    split at h
    · cases h
    dsimp only at h
    by_cases hc : (!st.cur.isEmpty || st.lastEmpty) = true
    · rw [if_pos hc] at h
      split at h
      · cases h
      simp only [Fast.args.injEq] at h
      rw [← h.1]
      have hc' : (st.lastEmpty || !st.cur.isEmpty || st.inq) = true := by
        rw [Bool.or_comm (!st.cur.isEmpty)] at hc
        rw [hc]; rfl
      rw [hc']
      simp
      omega
    · rw [if_neg hc] at h
      split at h
      · cases h
      simp only [Fast.args.injEq] at h
      rw [← h.1]
      exact ⟨by omega, by omega⟩
  have bit : ∀ b : Bool, (if b then 1 else 0) ≤ 1 := by intro b; cases b <;> simp
  induction n with
  | zero =>
    intro s hs st restp o l r h
    have : s = [] := List.eq_nil_of_length_eq_zero (by omega)
    subst this
    rw [fast_end] at h
    exact stop _ _ _ _ _ h
  | succ n ih =>
    intro s hs st restp o l r h
    cases s with
    | nil =>
      rw [fast_end] at h
      exact stop _ _ _ _ _ h
    | cons c s =>
      simp only [List.length_cons] at hs ⊢
      have take : ∀ (st' : FastState) (s' : Str), fastLine restp o st' s' = .args l r → s'.length ≤ s.length →
          st'.args = st.args → st'.cur.length ≤ st.cur.length + 1 + (s.length - s'.length) →
          (l.map (·.length + 1)).sum ≤ (st.args.map (·.length + 1)).sum + st.cur.length + (s.length + 1) + 1 ∧
          l.length ≤ st.args.length + (s.length + 1) +
            (if st.lastEmpty || !st.cur.isEmpty || st.inq then 1 else 0) := by
        intro st' s' h1 h2 h3 h4
        obtain ⟨a, b⟩ := ih s' (by omega) st' restp o l r h1
        rw [h3] at a b
        have := bit (st'.lastEmpty || !st'.cur.isEmpty || st'.inq)
        refine ⟨by omega, ?_⟩
        have h5 : 0 ≤ (if (st.lastEmpty || !st.cur.isEmpty || st.inq) = true then 1 else 0) := by split <;> omega
        omega
      rw [fastLine.eq_def] at h
      simp only at h
      split at h
      · split at h
        · exact take _ s h (by omega) rfl (by simp)
        · split at h
          · rename_i hh
            cases s with
            | nil => simp at hh
            | cons d s =>
              refine take _ _ h (by simp) rfl ?_
              simp [FastState.push]
          · split at h
            · exact stop _ _ _ _ (s.length + 1) h
            · exact take _ s h (by omega) rfl (by simp [FastState.push])
      · rename_i hq0
        split at h
        · cases h
        split at h
        · cases h
        split at h
        · split at h
          · cases h
          · exact take _ s h (by omega) rfl (by simp [FastState.push])
        split at h
        · cases s with
          | nil =>
            simp only at h
            exact take _ [] h (by simp) rfl (by simp)
          | cons d s =>
            simp only at h
            split at h
            · have hlen := dropWhile_length_le isBlank s
              split at h
              · exact take _ (s.dropWhile isBlank) h (by simp; omega) rfl (by simp; omega)
              · exact take _ s h (by simp) rfl (by simp; omega)
            · exact take _ s h (by simp) rfl (by simp [FastState.push])
        split at h
        · exact take _ s h (by omega) rfl (by simp)
        split at h
        · split at h
          · exact stop _ _ _ _ (s.length + 1) h
          · exact take _ s h (by omega) rfl (by simp [FastState.push])
        split at h
        · split at h
          · cases h
          split at h
          · cases h
          have hlen := dropWhile_length_le isBlank s
          obtain ⟨a, b⟩ := ih (s.dropWhile isBlank) (by omega) _ _ _ _ _ h
          have hq : st.inq = false := by simpa using hq0
          simp [hq] at a b
          have : 0 ≤ (if (st.lastEmpty || !st.cur.isEmpty || st.inq) = true then 1 else 0) := by split <;> omega
          exact ⟨by omega, by omega⟩
        · exact take _ s h (by omega) rfl (by simp [FastState.push])

/-- C70.  The arguments of a command that is run directly, with the NUL after each, fit in the `strlen + 1` characters
allocated for them (job.c 2497, 2503), and there are at most as many arguments as characters, so with the
NULL at the end they fit in the `1 + strlen` pointers (job.c 2500). -/
theorem C70_direct (restp oneShell : Bool) (s : Str) (l : List Str) (r : Option Str)
    (h : fastLine restp oneShell {} s = .args l r) :
    (l.map (·.length + 1)).sum ≤ s.length + 1 ∧ l.length + 1 ≤ 1 + s.length := by
  obtain ⟨a, b⟩ := fast_size _ s (Nat.le_refl _) {} restp oneShell l r h
  simp at a b
  omega

/-- C70.  Under `.ONESHELL` the shell, its flags, the script and the NULL fit in the `4 + sflags_len/2`
pointers (job.c 2924). -/
theorem C70_oneshell (sh flags script : Str) :
    (sh :: flagTokens flags ++ [script]).length + 1 ≤ 4 + flags.length / 2 := by
  have key : ∀ (n : Nat) (s : Str), s.length ≤ n → 2 * (flagTokens s).length ≤ s.length + 1 ∧
      ((∀ c, s.head? = some c → isSpace c = true) → 2 * (flagTokens s).length ≤ s.length) := by
    intro n
    induction n with
    | zero =>
      intro s hs
      have : s = [] := List.eq_nil_of_length_eq_zero (by omega)
      subst this
      rw [flagTokens.eq_def]
      simp [findNextToken, nextToken]
    | succ n ih =>
      intro s hs
      rw [flagTokens.eq_def]
      split
      · simp
      · rename_i t r h
        have h1 := findNextToken_lt h
        obtain ⟨-, h2⟩ := ih r (by omega)
        unfold findNextToken at h
        split at h
        · cases h
        · rename_i p hp
          simp only [Option.some.injEq, Prod.mk.injEq] at h
          obtain ⟨-, rfl⟩ := h
          have h3 := h2 fun c hc => by
            have h5 := List.head?_dropWhile_not (fun c => !isSpace c) (nextToken s)
            unfold endOfToken at hc
            rw [hc] at h5
            simpa using h5
          simp only [List.length_cons]
          refine ⟨by omega, fun hh => ?_⟩
          have h6 : (endOfToken (nextToken s)).length < (nextToken s).length := by
            cases hn : nextToken s with
            | nil => exact absurd hn hp
            | cons c u =>
              have h7 := List.head?_dropWhile_not isSpace s
              unfold nextToken at hn
              rw [hn] at h7
              have h8 : isSpace c = false := by simpa using h7
              have h9 := dropWhile_length_le (fun c => !isSpace c) u
              unfold endOfToken
              simp only [List.dropWhile_cons, h8, Bool.not_false, if_true, List.length_cons]
              omega
          have h7 : (nextToken s).length < s.length := by
            cases s with
            | nil => simp [nextToken] at h6
            | cons c u =>
              have h8 := hh c rfl
              have h9 := dropWhile_length_le isSpace u
              unfold nextToken
              simp only [List.dropWhile_cons, h8, if_true, List.length_cons]
              omega
          omega
  have := (key _ flags (Nat.le_refl _)).1
  simp
  omega

end Remake
