import Verif.Cmds.Model
import Verif.Shell.Model
/-!
# Running the lines of a recipe

Models `job_next_command` (job.c 1752-1772), `start_job_command` (job.c 1017-1405, the POSIX build) and the part of
`reap_children` that handles a finished command (job.c 737-883), for one target.

Left out: remote jobs, output synchronisation, the environment of the command, `good_stdin`; the
debugger before a command (job.c 1217-1219).  `lines_flags` belongs to the recipe, not to the
child: here each run starts with its own copy.
-/
namespace Remake

/-- A line of a recipe after expansion, with its flags (`lines_flags`, `command_lines`). -/
structure RecipeLine where
  flags : LineFlags := {}
  text : Str
deriving DecidableEq, Repr

/-- What `construct_command_argv` (job.c 3121-3157) makes of a line: the arguments (`none`: NULL), the text that
is left in the buffer up to the end of the command, and the text after the newline that ends it. -/
structure Splitter where
  f : Str → Option (List Str) × Str × Option Str
  empty : f [] = (none, [], none)
  shorter : ∀ s a t r, f s = (a, t, some r) → r.length < s.length
  part : ∀ s a t r, f s = (a, t, some r) → ∀ c ∈ r, c ∈ s

/-- The options that matter. -/
structure RunOpts where
  justPrint : Bool := false
  question : Bool := false
  touch : Bool := false
  ignoreErrors : Bool := false
  runSilent : Bool := false
  /-- `db_level & DB_SHELL` -/
  trace : Bool := false
  /-- `.DELETE_ON_ERROR` is a target -/
  deleteOnError : Bool := false
  debugger : Bool := false
  /-- `file->command_flags` -/
  file : LineFlags := {}
  recipePrefix : Char := '\t'

/-- The fields `command_ptr`, `lines_flags[command_line - 1]` and the lines from `command_line` on. -/
structure RunChild where
  cur : Option Str
  flags : LineFlags
  rest : List RecipeLine
deriving DecidableEq, Repr

/-- `job_next_command` (job.c 1752-1772); `none`: it returns 0. -/
def nextCommand : (cur : Option Str) → (flags : LineFlags) → (rest : List RecipeLine) → Option RunChild
  | some (c :: s), flags, rest => some ⟨some (c :: s), flags, rest⟩
  | some [], _, [] => none
  | none, _, [] => none
  | some [], _, l :: rest => nextCommand (some l.text) l.flags rest
  | none, _, l :: rest => nextCommand (some l.text) l.flags rest
termination_by _ _ rest => rest.length

/-- Removing the recipe prefix after newlines (job.c 1065-1076). -/
def dropPrefixes (pre : Char) : Str → Str
  | [] => []
  | c :: s =>
    if c = '\n' ∧ s.head? = some pre then c :: dropPrefixes pre s.tail else c :: dropPrefixes pre s
termination_by s => s.length
decreasing_by all_goals simp <;> omega

/-- What happens, in order. -/
inductive RunEvent where
  | print (text : Str)
  | exec (argv : List Str)
deriving DecidableEq, Repr

/-- How `start_job_command` ends: a command is running, all is done, or `-q` found a command. -/
inductive CmdStart where
  | running (c : RunChild) (noerror recursive : Bool)
  | done
  | question
deriving DecidableEq, Repr

/-- Is it the shell and `:` (job.c 1187-1204)? -/
def isColon : List Str → Bool
  | [sh, f, c] => isBourne sh && (f == "-c".toList || f == "-ec".toList) && c == [':']
  | _ => false

/-- A measure. -/
def RunChild.weight (c : RunChild) : Nat :=
  (c.cur.getD []).length + (c.rest.map fun l => l.text.length + 1).sum

theorem nextCommand_weight (cur : Option Str) (flags : LineFlags) (rest : List RecipeLine) (c : RunChild)
    (h : nextCommand cur flags rest = some c) :
    c.weight ≤ (RunChild.mk cur flags rest).weight ∧
      (cur.getD [] = [] → c.weight < (RunChild.mk cur flags rest).weight) ∧ c.cur.getD [] ≠ [] := by
  fun_induction nextCommand cur flags rest with
  | case1 a s f r => cases h; exact ⟨Nat.le_refl _, by simp, by simp⟩
  | case2 => cases h
  | case3 => cases h
  | case4 f l r ih =>
    have := ih h
    simp only [RunChild.weight, Option.getD_some, List.map_cons, List.sum_cons, List.length_nil] at this ⊢
    exact ⟨by omega, fun _ => by omega, this.2.2⟩
  | case5 f l r ih =>
    have := ih h
    simp only [RunChild.weight, Option.getD_some, List.map_cons, List.sum_cons, Option.getD_none,
      List.length_nil] at this ⊢
    exact ⟨by omega, fun _ => by omega, this.2.2⟩

theorem dropPrefixes_length (pre : Char) (s : Str) : (dropPrefixes pre s).length ≤ s.length := by
  fun_induction dropPrefixes pre s with
  | case1 => simp
  | case2 c s h ih => simp at ih ⊢; omega
  | case3 c s h ih => simp; omega

theorem prefixFlags_length (f : LineFlags) (s : Str) : (prefixFlags f s).2.length ≤ s.length := by
  induction s generalizing f with
  | nil => simp [prefixFlags]
  | cons c s ih =>
    rw [prefixFlags]
    have := ih
    simp only [List.length_cons]
    split
    · have := ih { f with recurse := true }; omega
    split
    · have := ih { f with silent := true }; omega
    split
    · have := ih { f with noerror := true }; omega
    split
    · have := ih f; omega
    · simp

theorem split_weight (sp : Splitter) (o : RunOpts) (t : Str) (f : LineFlags) :
    ((sp.f (dropPrefixes o.recipePrefix (prefixFlags f t).2)).2.2.getD []).length < t.length ∨
      (sp.f (dropPrefixes o.recipePrefix (prefixFlags f t).2)).2.2.getD [] = [] := by
  cases h : (sp.f (dropPrefixes o.recipePrefix (prefixFlags f t).2)).2.2 with
  | none => exact .inr rfl
  | some r =>
    left
    have h1 := sp.shorter (dropPrefixes o.recipePrefix (prefixFlags f t).2) _ _ r
      (by rw [← h])
    have h2 := dropPrefixes_length o.recipePrefix (prefixFlags f t).2
    have h3 := prefixFlags_length f t
    simp only [Option.getD_some]
    omega

/-- The flags of both. -/
def LineFlags.or (a b : LineFlags) : LineFlags :=
  ⟨a.recurse || b.recurse, a.silent || b.silent, a.noerror || b.noerror⟩

/-- `start_job_command` (job.c 1017-1405).  The loop over the prefix characters (job.c 1038-1049) is
`prefixFlags`, the same loop as in commands.c. -/
def startCommand (o : RunOpts) (sp : Splitter) (c : RunChild) : List RunEvent × CmdStart :=
  match hc : c.cur with
  | none =>
    match h : nextCommand none c.flags c.rest with
    | none => ([], .done)
    | some c' => startCommand o sp c'
  | some t =>
    let fp := prefixFlags (o.file.or c.flags) t
    let flags := fp.1
    let a := sp.f (dropPrefixes o.recipePrefix fp.2)
    let lf := { c.flags with recurse := c.flags.recurse || flags.recurse }
    if a.1.isSome ∧ o.question ∧ !flags.recurse then ([], .question)
    else
      let argv := if o.touch ∧ !flags.recurse then none else a.1
      let out := if argv.isSome && (o.justPrint || (!flags.silent && !o.runSilent) || o.trace) then
        [RunEvent.print a.2.1] else []
      if argv.isNone ∨ isColon (argv.getD []) ∨ (o.justPrint ∧ !flags.recurse) then
        match h : nextCommand a.2.2 lf c.rest with
        | none => (out, .done)
        | some c' =>
          let r := startCommand o sp c'
          (out ++ r.1, r.2)
      else
        (out ++ [.exec (argv.getD [])], .running ⟨a.2.2, lf, c.rest⟩ flags.noerror flags.recurse)
termination_by c.weight
decreasing_by
  · have := (nextCommand_weight _ _ _ _ h).2.1 rfl
    simp only [RunChild.weight, Option.getD_none, hc] at this ⊢
    omega
  · have h1 := nextCommand_weight _ _ _ _ h
    have h2 := split_weight sp o t (o.file.or c.flags)
    simp only [RunChild.weight, hc, Option.getD_some] at h1 ⊢
    rcases h2 with h2 | h2
    · have := h1.1
      have h4 : (Option.getD a.2.2 []).length < t.length := h2
      omega
    · have := h1.2.1 h2
      have h4 : Option.getD a.2.2 [] = [] := h2
      rw [h4] at this
      simp at this
      omega

/-- How a command ends: an exit code, a signal, or it was not started (`pid < 0`: exit code 127, job.c
550-557). -/
inductive CmdExit where
  | code (n : Nat)
  | signal
  | notStarted
deriving DecidableEq, Repr

/-- The outside: how the `k`th command ends, and whether make is dying at that time
(`handling_fatal_signal`). -/
structure RunWorld where
  exit : Nat → CmdExit
  dying : Nat → Bool := fun _ => false

/-- `update_status` at the end, or `die` because the debugger quit. -/
inductive RunStatus where
  | success
  | failed
  | question
  | quit
deriving DecidableEq, Repr

/-- The end of a recipe; `deleted`: `delete_child_targets` was called for a child that was started. -/
structure RunEnd where
  status : RunStatus
  deleted : Bool := false
deriving DecidableEq, Repr

/-- `child_failed` (job.c 770-775). -/
def childFailed (o : RunOpts) (recursive : Bool) (e : CmdExit) : RunStatus :=
  match e with
  | .code n => if n = 0 then .success else if n = 1 ∧ o.question ∧ recursive then .question else .failed
  | .signal => .failed
  | .notStarted => .failed

/-- A measure. -/
def CmdStart.weight : CmdStart → Nat
  | .running c _ _ => c.weight + 1
  | _ => 0

theorem startCommand_weight (o : RunOpts) (sp : Splitter) (c c' : RunChild) (ne rec : Bool) (ev : List RunEvent)
    (h : startCommand o sp c = (ev, .running c' ne rec)) : c'.weight < c.weight := by
  fun_induction startCommand o sp c generalizing ev with
  | case1 c hc hn => cases h
  | case2 c hc c1 hn ih =>
    have h1 := ih ev h
    have h2 := (nextCommand_weight _ _ _ _ hn).1
    simp only [RunChild.weight, hc] at h1 h2 ⊢
    omega
  | case3 => cases h
  | case4 => cases h
  | case5 c t hc fp flags a lf hq argv out hs c1 hn r ih =>
    simp only [Prod.mk.injEq] at h
    have h1 := ih r.1 (by rw [← h.2])
    have h2 := nextCommand_weight _ _ _ _ hn
    have h3 := split_weight sp o t (o.file.or c.flags)
    simp only [RunChild.weight, hc, Option.getD_some] at h1 h2 ⊢
    rcases h3 with h3 | h3
    · have := h2.1
      have h4 : (Option.getD a.2.2 []).length < t.length := h3
      omega
    · have := h2.1
      have h4 : Option.getD a.2.2 [] = [] := h3
      rw [h4] at this
      simp at this
      omega
  | case6 c t hc fp flags a lf hq argv out hs =>
    simp only [Prod.mk.injEq, CmdStart.running.injEq] at h
    rw [← h.2.1]
    have h3 := split_weight sp o t (o.file.or c.flags)
    simp only [RunChild.weight, hc, Option.getD_some]
    rcases h3 with h3 | h3
    · have h4 : (Option.getD a.2.2 []).length < t.length := h3
      omega
    · have h4 : Option.getD a.2.2 [] = [] := h3
      rw [h4]
      have : t ≠ [] := by
        intro e
        apply hs
        left
        have : a.1 = none := by
          have : a = sp.f (dropPrefixes o.recipePrefix (prefixFlags (o.file.or c.flags) t).2) := rfl
          rw [this, e]
          simp [prefixFlags, dropPrefixes, sp.empty]
        have h5 : argv = if o.touch ∧ !flags.recurse then none else a.1 := rfl
        rw [h5, this]
        simp
      have := List.length_pos_iff.2 this
      simp
      omega

/-- From a started command to the end (`process_child` in `reap_children`, job.c 768-883); `k` commands were started
before this one. -/
def finishRun (o : RunOpts) (sp : Splitter) (w : RunWorld) (k : Nat) (s : CmdStart) : List RunEvent × RunEnd :=
  match s with
  | .done => ([], ⟨.success, false⟩)
  | .question => ([], ⟨.question, k > 0 ∧ w.exit (k - 1) ≠ .notStarted⟩)
  | .running c noerror recursive =>
    let e := w.exit k
    let st := childFailed o recursive e
    if e = .code 77 ∧ o.debugger then ([], ⟨.quit, false⟩)
    else if st ≠ .success ∧ !noerror ∧ !o.ignoreErrors then
      ([], ⟨st, (e = .signal ∨ o.deleteOnError) ∧ e ≠ .notStarted⟩)
    else
      match h : nextCommand c.cur c.flags c.rest with
      | none => ([], ⟨.success, false⟩)
      | some c' =>
        if w.dying k then ([], ⟨.failed, e ≠ .notStarted⟩)
        else
          let r := startCommand o sp c'
          let q := finishRun o sp w (k + 1) r.2
          (r.1 ++ q.1, q.2)
termination_by s.weight
decreasing_by
  have h1 := nextCommand_weight _ _ _ _ h
  cases hr : (startCommand o sp c').2 with
  | done => simp [CmdStart.weight]
  | question => simp [CmdStart.weight]
  | running c2 ne rc =>
    have h2 := startCommand_weight o sp c' c2 ne rc (startCommand o sp c').1 (by rw [← hr])
    simp only [CmdStart.weight]
    have := h1.1
    have h3 : (RunChild.mk c.cur c.flags c.rest) = c := rfl
    rw [h3] at this
    omega

/-- The run of a recipe: `new_job` fetches the first line (job.c 1628) and `start_waiting_job` starts it (job.c
1440-1470). -/
def runRecipe (o : RunOpts) (sp : Splitter) (w : RunWorld) (lines : List RecipeLine) :
    List RunEvent × RunEnd :=
  let c := (nextCommand none {} lines).getD ⟨none, {}, []⟩
  let r := startCommand o sp c
  let q := finishRun o sp w 0 r.2
  (r.1 ++ q.1, q.2)

end Remake
