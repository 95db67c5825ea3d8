import Verif.Exec.Lemmas
/-!
# Starting programs (C133)
-/
set_option linter.unusedVariables false
set_option linter.unusedSimpArgs false
namespace Remake
open Spec

/-- A file system for the examples: `/a/cc` is a directory, `/b/cc` a program, `/b/run` a text without interpreter, `/bin/sh`
the shell. -/
def demoXFs : XFs := fun n =>
  if n = "/a/cc".toList then .dir true
  else if n = "/b/cc".toList then .file true none
  else if n = "/b/run".toList then .file true (some .noexec)
  else if n = "/bin/sh".toList then .file true none
  else if n = "/a/secret".toList then .file false none
  else .missing

/-- The `PATH` that counts is the one the command itself gets, the first entry if there are several. -/
theorem C133_path (env : List Str) (p : Str) : xPath env = some p ↔ HasPath env p := xPath_some env p

example : xPath ["HOME=/".toList, "PATH=/a:/b".toList, "PATH=/c".toList] = some "/a:/b".toList := by decide

/-- A command without a slash is the first file of its name in the directories of the `PATH` that may be executed, if none of
the names stands for a directory that may be searched. -/
theorem C133_found_partial (fs : XFs) (env : List Str) (p prog f : Str) (hp : HasPath env p) (hs : '/' ∉ prog)
    (hdot : fs ('.' :: '/' :: prog) = fs prog) (hd : ∀ d ∈ pathPieces p, ¬ Searchable fs (placed d prog)) :
    xFind fs prog (xPath env) = .ok f ↔ FirstRunnable fs (pathPieces p) prog f := by
  rw [(xPath_some env p).2 hp]
  unfold xFind
  rw [if_neg hs]
  simp only [Option.getD_some]
  rw [xSearch_ok fs prog hs hdot, xDirs_pieces]
  unfold FirstRunnable
  constructor
  · rintro ⟨l, d, r, hl, hf, hr, hno⟩
    refine ⟨l, d, r, hl, hf, ?_, ?_⟩
    · rcases (xAccess_none fs f).1 hr with h | h
      · exact h
      · exact absurd (hf ▸ h) (hd d (by rw [hl]; simp))
    · intro d' hd' h
      exact hno d' hd' ((xAccess_none _ _).2 (Or.inl h))
  · rintro ⟨l, d, r, hl, hf, hr, hno⟩
    refine ⟨l, d, r, hl, hf, (xAccess_none _ _).2 (Or.inl hr), ?_⟩
    intro d' hd' h
    rcases (xAccess_none _ _).1 h with h | h
    · exact hno d' hd' h
    · exact absurd h (hd d' (by rw [hl]; simp [hd']))

/-- What is started then: that file with the words of the command and its environment; a file the kernel cannot run is given to
the shell with the same arguments. -/
theorem C133_started_partial (fs : XFs) (env : List Str) (p prog : Str) (args : List Str) (run : XRun) (hp : HasPath env p)
    (hs : '/' ∉ prog) (hdot : fs ('.' :: '/' :: prog) = fs prog)
    (hd : ∀ d ∈ pathPieces p, ¬ Searchable fs (placed d prog)) :
    (∃ nm, xStart fs env prog args = .ok (run, nm)) ↔
      ∃ f, FirstRunnable fs (pathPieces p) prog f ∧ RunsAs fs env f prog args run := by
  have hnoexec : ∀ f, Runnable fs f → (xSpawn fs f = some .noexec ↔ fs f = .file true (some .noexec)) := by
    rintro f ⟨r, hr⟩
    unfold xSpawn
    rw [hr]
    simp
  constructor
  · rintro ⟨nm, h⟩
    rw [xStart_ok] at h
    obtain ⟨h1, h2⟩ := h
    have h1' := (C133_found_partial fs env p prog nm hp hs hdot hd).1 h1
    refine ⟨nm, h1', ?_⟩
    rcases h2 with ⟨h3, h4⟩ | ⟨h3, h4, h5⟩
    · exact Or.inl ⟨(xSpawn_none _ _).1 h3, h4⟩
    · obtain ⟨_, _, _, _, _, hr, _⟩ := h1'
      exact Or.inr ⟨(hnoexec nm hr).1 h3, (xSpawn_none _ _).1 h4, h5⟩
  · rintro ⟨f, h1, h2⟩
    refine ⟨f, (xStart_ok ..).2 ⟨(C133_found_partial fs env p prog f hp hs hdot hd).2 h1, ?_⟩⟩
    rcases h2 with ⟨h3, h4⟩ | ⟨h3, h4, h5⟩
    · exact Or.inl ⟨(xSpawn_none _ _).2 h3, h4⟩
    · obtain ⟨_, _, _, _, _, hr, _⟩ := h1
      exact Or.inr ⟨(hnoexec f hr).2 h3, (xSpawn_none _ _).2 h4, h5⟩

example : xStart demoXFs ["PATH=/x:/b".toList] "cc".toList ["-c".toList] =
    .ok (⟨"/b/cc".toList, ["cc".toList, "-c".toList], ["PATH=/x:/b".toList]⟩, "/b/cc".toList) ∧
    (∀ d ∈ pathPieces "/x:/b".toList, ¬ Searchable demoXFs (placed d "cc".toList)) ∧
    demoXFs ('.' :: '/' :: "cc".toList) = demoXFs "cc".toList := by
  refine ⟨by rfl, ?_, by rfl⟩
  intro d hd
  have hp : pathPieces "/x:/b".toList = ["/x".toList, "/b".toList] := by rfl
  rw [hp] at hd
  unfold Searchable
  rcases List.mem_cons.1 hd with rfl | hd
  · decide
  · rw [List.mem_singleton.1 hd]; decide

/-- A command with a slash is that file; `PATH` does not matter. -/
theorem C133_slash (fs : XFs) (env : List Str) (prog : Str) (args : List Str) (run : XRun) (hs : '/' ∈ prog) :
    (∃ nm, xStart fs env prog args = .ok (run, nm)) ↔ RunsAs fs env prog prog args run := by
  have hf : xFind fs prog (xPath env) = match xAccess fs prog with
      | none => .ok prog
      | some e => .error e := by
    unfold xFind
    rw [if_pos hs]
    cases xAccess fs prog <;> rfl
  unfold RunsAs
  constructor
  · rintro ⟨nm, h⟩
    obtain ⟨h1, h2⟩ := (xStart_ok ..).1 h
    rw [hf] at h1
    cases ha : xAccess fs prog with
    | some e => rw [ha] at h1; cases h1
    | none =>
      rw [ha] at h1
      cases h1
      rcases h2 with ⟨h3, h4⟩ | ⟨h3, h4, h5⟩
      · exact Or.inl ⟨(xSpawn_none _ _).1 h3, h4⟩
      · refine Or.inr ⟨?_, (xSpawn_none _ _).1 h4, h5⟩
        unfold xAccess at ha
        unfold xSpawn at h3
        cases hk : fs prog with
        | missing => rw [hk] at ha; cases ha
        | unreachable e => rw [hk] at ha; cases ha
        | dir x => rw [hk] at h3; cases h3
        | file x r =>
          rw [hk] at h3 ha
          cases x with
          | false => simp at ha
          | true => simp at h3; rw [h3]
  · intro h
    have ha : xAccess fs prog = none := by
      rw [xAccess_none]
      left
      rcases h with ⟨h, _⟩ | ⟨h, _⟩
      · exact ⟨_, h⟩
      · exact ⟨_, h⟩
    refine ⟨prog, (xStart_ok ..).2 ⟨by rw [hf, ha], ?_⟩⟩
    rcases h with ⟨h3, h4⟩ | ⟨h3, h4, h5⟩
    · exact Or.inl ⟨(xSpawn_none _ _).2 h3, h4⟩
    · refine Or.inr ⟨?_, (xSpawn_none _ _).2 h4, h5⟩
      unfold xSpawn
      rw [h3]
      simp

example : xStart demoXFs [] "/b/run".toList ["x".toList] =
    .ok (⟨"/bin/sh".toList, ["/bin/sh".toList, "/b/run".toList, "x".toList], []⟩, "/b/run".toList) := by rfl

/-- Whatever is started gets the environment of the command and its arguments, and is named by a path with a slash, so that it
is not searched a second time (the working directory is written `./`). -/
theorem C133_given (fs : XFs) (env : List Str) (prog : Str) (args : List Str) (run : XRun) (nm : Str)
    (h : xStart fs env prog args = .ok (run, nm)) :
    run.env = env ∧ (∃ l, run.argv = l ++ args) ∧ '/' ∈ run.file ∧ '/' ∈ nm ∧ (run.argv.head? = some prog ∨ run.file = xShell) := by
  obtain ⟨h1, h2⟩ := (xStart_ok ..).1 h
  have hnm : '/' ∈ nm := by
    unfold xFind at h1
    split at h1
    · rename_i hs
      split at h1
      · cases h1; exact hs
      · cases h1
    · rename_i hs
      have hsearch : ∀ (dirs : List Str) (e : XErr), xSearch fs prog e dirs = .ok nm → '/' ∈ nm := by
        intro dirs
        induction dirs with
        | nil => intro e h; simp [xSearch] at h
        | cons d ds ih =>
          intro e h
          unfold xSearch at h
          split at h
          · rw [xConcat_placed d prog hs] at h
            cases h
            unfold placed
            split
            · simp
            · split
              · rename_i hl
                have := List.mem_of_getLast? hl
                simp [this]
              · simp
          · exact ih _ h
      exact hsearch _ _ h1
  rcases h2 with ⟨_, rfl⟩ | ⟨_, _, rfl⟩
  · exact ⟨rfl, ⟨[prog], rfl⟩, hnm, hnm, Or.inl rfl⟩
  · exact ⟨rfl, ⟨[xShell, nm], rfl⟩, by simp [xShell], hnm, Or.inr rfl⟩

/-- Why a command without a slash could not be found: no file of that name at all, or what was wrong with the last one there
was. -/
theorem C133_reason (fs : XFs) (env : List Str) (p prog : Str) (e : XErr) (hp : HasPath env p) (hs : '/' ∉ prog)
    (hdot : fs ('.' :: '/' :: prog) = fs prog) (h : xFind fs prog (xPath env) = .error e) :
    (∀ d ∈ pathPieces p, ¬ Runnable fs (placed d prog)) ∧
    ((e = .noent ∧ ∀ d ∈ pathPieces p, xAccess fs (placed d prog) = some .noent) ∨
     (e ≠ .noent ∧ ∃ l d r, pathPieces p = l ++ d :: r ∧ xAccess fs (placed d prog) = some e ∧
        ∀ d' ∈ r, xAccess fs (placed d' prog) = some .noent)) := by
  rw [(xPath_some env p).2 hp] at h
  unfold xFind at h
  rw [if_neg hs] at h
  simp only [Option.getD_some] at h
  rw [xDirs_pieces] at h
  obtain ⟨h1, h2⟩ := xSearch_error fs prog hs hdot _ _ _ h
  refine ⟨fun d hd hr => h1 d hd ((xAccess_none _ _).2 (Or.inl hr)), ?_⟩
  exact h2

example : xFind demoXFs "secret".toList (some "/a:/b".toList) = .error .acces ∧
    xFind demoXFs "nothing".toList (some "/a:/b".toList) = .error .noent := by exact ⟨rfl, rfl⟩

/-- **Violation.** A directory with the name of the command that comes before the program in `PATH` hides it: the command
fails with `EACCES`, whatever follows. -/
theorem C133_directory (fs : XFs) (env : List Str) (p prog : Str) (args : List Str) (l r : List Str) (d : Str)
    (hp : HasPath env p) (hs : '/' ∉ prog) (hdot : fs ('.' :: '/' :: prog) = fs prog)
    (hl : pathPieces p = l ++ d :: r) (hd : Searchable fs (placed d prog))
    (hno : ∀ d' ∈ l, fs (placed d' prog) = .missing) :
    xStart fs env prog args = .error .acces := by
  have hf : xFind fs prog (xPath env) = .ok (placed d prog) := by
    rw [(xPath_some env p).2 hp]
    unfold xFind
    rw [if_neg hs]
    simp only [Option.getD_some]
    rw [xSearch_ok fs prog hs hdot, xDirs_pieces]
    refine ⟨l, d, r, hl, rfl, (xAccess_none _ _).2 (Or.inr hd), ?_⟩
    intro d' hd'
    unfold xAccess
    rw [hno d' hd']
    simp
  unfold xStart
  rw [hf]
  unfold Searchable at hd
  have hsp : xSpawn fs (placed d prog) = some .acces := by
    unfold xSpawn
    rw [hd]
  simp only [hsp]

/-- The program is there, but the directory before it is taken. -/
theorem C133_hidden : FirstRunnable demoXFs (pathPieces "/a:/b".toList) "cc".toList "/b/cc".toList ∧
    xStart demoXFs ["PATH=/a:/b".toList] "cc".toList [] = .error .acces := by
  refine ⟨⟨["/a".toList], "/b".toList, [], by rfl, by rfl, ⟨none, by rfl⟩, ?_⟩, by rfl⟩
  intro d' hd'
  rw [List.mem_singleton.1 hd']
  rintro ⟨r, hr⟩
  have : demoXFs (placed "/a".toList "cc".toList) = .dir true := by rfl
  rw [this] at hr
  cases hr

/-- **Violation.** Without `PATH` only the working directory is searched, not the directories in which the shell would look. -/
theorem C133_no_path (fs : XFs) (env : List Str) (prog : Str) (args : List Str) (hp : ∀ e ∈ env, ¬ ['P', 'A', 'T', 'H', '='] <+: e)
    (hs : '/' ∉ prog) (hdot : fs ('.' :: '/' :: prog) = fs prog) :
    (fs prog = .missing → xStart fs env prog args = .error .noent) ∧
    (fs prog = .file true none → xStart fs env prog args = .ok (⟨'.' :: '/' :: prog, prog :: args, env⟩, '.' :: '/' :: prog)) := by
  have hnone : xPath env = none := by
    cases h : xPath env with
    | none => rfl
    | some p =>
      obtain ⟨l, r, hl, _⟩ := (xPath_some env p).1 h
      exact absurd ⟨p, rfl⟩ (hp _ (by rw [hl]; simp))
  have hdirs : xDirs [] = [[]] := rfl
  constructor
  · intro h
    unfold xStart xFind
    rw [if_neg hs, hnone]
    simp [hdirs, xSearch, xDir, xConcat, xAccess, h]
  · intro h
    unfold xStart xFind
    rw [if_neg hs, hnone]
    simp [hdirs, xSearch, xDir, xConcat, xAccess, xSpawn, hdot, h]

/-- When a command cannot be started make says its name and why, and it counts as ended with 127 (which is a failure). -/
theorem C133_message (nm : Option Str) (c : XCmd) (e : XErr) (h : xStart c.fs c.env c.prog c.args = .error e) :
    (xCommand nm c).1.head? = some ⟨c.prog, e⟩ ∧ (xCommand nm c).2.1 = .notStarted := by
  unfold xCommand
  rw [h]
  simp

/-- The commands of a recipe: if the earlier ones succeed and one cannot be started, make says that about it and
nothing else, and starts none of the commands after it, if the program before it is still there. -/
theorem C133_recipe_partial (l r : List XCmd) (c : XCmd) (e : XErr)
    (hl : ∀ a ∈ l, a.status = 0 ∧ ∃ run nm, xStart a.fs a.env a.prog a.args = .ok (run, nm) ∧ c.stat nm = .fine)
    (hc : xStart c.fs c.env c.prog c.args = .error e) :
    xRecipe none (l ++ c :: r) = ([⟨c.prog, e⟩], false) := by
  have hgen : ∀ (l : List XCmd) (nm0 : Option Str), (∀ n, nm0 = some n → c.stat n = .fine) →
      (∀ a ∈ l, a.status = 0 ∧ ∃ run nm, xStart a.fs a.env a.prog a.args = .ok (run, nm) ∧ c.stat nm = .fine) →
      xRecipe nm0 (l ++ c :: r) = ([⟨c.prog, e⟩], false) := by
    intro l
    induction l with
    | nil =>
      intro nm0 hn _
      have h127 : x127 c.stat nm0 = [] := by
        unfold x127
        cases nm0 with
        | none => rfl
        | some n => simp [hn n rfl]
      simp [xRecipe, xCommand, hc, h127]
    | cons a t ih =>
      intro nm0 hn hall
      obtain ⟨hst, run, nm, hr, hf⟩ := hall a (by simp)
      have hcmd : xCommand nm0 a = ([], .exited 0, some nm) := by
        unfold xCommand
        rw [hr]
        simp [hst]
      simp only [List.cons_append, xRecipe, hcmd]
      rw [ih (some nm) (by intro n h; cases h; exact hf) (fun b hb => hall b (by simp [hb]))]
      simp
  exact hgen l none (by intro n h; cases h) hl

/-- Two commands for the examples: one that is started, and one that is not there. -/
def demoXCmds : List XCmd :=
  [⟨demoXFs, ["PATH=/b".toList], "cc".toList, [], 0, fun _ => .fine⟩,
   ⟨demoXFs, ["PATH=/b".toList], "nothing".toList, [], 0, fun _ => .fine⟩]

example : xRecipe none demoXCmds = ([⟨"nothing".toList, .noent⟩], false) := by rfl

/-- **Violation.** If the program of the command before is gone (it removed itself, say), make complains about that one, too. -/
theorem C133_stale : ∃ l c, (∀ a ∈ l, a.status = 0 ∧ ∃ r, xStart a.fs a.env a.prog a.args = .ok r) ∧
    xRecipe none (l ++ [c]) = ([⟨"nothing".toList, .noent⟩, ⟨"/b/cc".toList, .noent⟩], false) := by
  refine ⟨[⟨demoXFs, ["PATH=/b".toList], "cc".toList, [], 0, fun _ => .fine⟩],
    ⟨demoXFs, ["PATH=/b".toList], "nothing".toList, [], 0,
      fun n => if n = "/b/cc".toList then .failed .noent else .fine⟩, ?_, by rfl⟩
  intro a ha
  rw [List.mem_singleton.1 ha]
  exact ⟨rfl, _, by rfl⟩

end Remake
