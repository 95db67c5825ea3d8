import Verif.Base.Lemmas
/-!
# Running a command line: directly or through the shell

Models `construct_command_argv_internal` (job.c 2311-3106, the POSIX build: `unixy_shell` is 1,
`batch_mode_shell` is 0, job.c 36, 159) and `is_bourne_compatible_shell` (job.c 293-338).

The text that `line` points to is a list; `restp` is modelled by a flag (is it not NULL?) and by
the returned suffix that starts with the newline it points to.
-/
namespace Remake

/-- `sh_chars` (job.c 2387).  The double quote is one of them, so the double quoted strings of
the fast path (job.c 2532-2554, 2649) are never reached: the only quote it sees is `'`. -/
def shChars : Str := "#;\"*?[]&|<>(){}$`^~!".toList

/-- `sh_cmds` (job.c 2388-2393). -/
def shCmds : List Str :=
  [".", ":", "alias", "bg", "break", "case", "cd", "command", "continue",
   "eval", "exec", "exit", "export", "fc", "fg", "for", "getopts", "hash",
   "if", "jobs", "login", "logout", "read", "readonly", "return", "set",
   "shift", "test", "times", "trap", "type", "ulimit", "umask", "unalias",
   "unset", "wait", "while"].map String.toList

/-- `default_shell` (job.c 35). -/
def defaultShell : Str := "/bin/sh".toList

/-- The variables of the fast path (job.c 2498-2510): the complete arguments, the text between
`new_argv[i]` and `ap` (reversed), `instring`, `last_argument_was_empty`, `word_has_equals`,
`seen_nonequals`. -/
structure FastState where
  args : List Str := []
  cur : Str := []
  inq : Bool := false
  lastEmpty : Bool := false
  hasEq : Bool := false
  seenNon : Bool := false
deriving DecidableEq, Repr

/-- The outcome of the fast path: `goto slow`, with the value of `*restp` at that time, or the arguments. -/
inductive Fast where
  | slow (rest : Option Str)
  | args (l : List Str) (rest : Option Str)
deriving DecidableEq, Repr

/-- From `end_of_line` on (job.c 2711-2740). -/
def endOfLine (st : FastState) (rest : Option Str) : Fast :=
  if st.inq then .slow rest
  else
    let l := if !st.cur.isEmpty || st.lastEmpty then st.args ++ [st.cur.reverse] else st.args
    if l.length = 1 ∧ l.headD [] ∈ shCmds then .slow rest else .args l rest

/-- `*ap++ = c`. -/
def FastState.push (st : FastState) (c : Char) : FastState := { st with cur := c :: st.cur }

/-- The loop of the fast path (job.c 2511-2710). -/
def fastLine (restp oneShell : Bool) (st : FastState) : Str → Fast
  | [] => endOfLine st none
  | c :: s =>
    if st.inq then
      if c = '\'' then
        fastLine restp oneShell { st with inq := false, lastEmpty := st.lastEmpty || st.cur.isEmpty } s
      else if c = '\\' ∧ s.head? = some '\n' then
        fastLine restp oneShell ((st.push '\\').push '\n') s.tail
      else if c = '\n' ∧ restp then endOfLine st (some (c :: s))
      else fastLine restp oneShell (st.push c) s
    else if c ∈ shChars then .slow none
    else if oneShell ∧ c = '\n' then .slow none
    else if c = '=' then
      if !st.seenNon then .slow none else fastLine restp oneShell { st.push '=' with hasEq := true } s
    else if c = '\\' then
      match s with
      | [] => fastLine restp oneShell st []
      | d :: s' =>
        if d = '\n' then
          fastLine restp oneShell st (if st.cur.isEmpty then s'.dropWhile isBlank else s')
        else fastLine restp oneShell (st.push d) s'
    else if c = '\'' then fastLine restp oneShell { st with inq := true } s
    else if c = '\n' then
      if restp then endOfLine st (some (c :: s)) else fastLine restp oneShell (st.push '\n') s
    else if isBlank c then
      let st' := { st with args := st.args ++ [st.cur.reverse], cur := [], lastEmpty := false,
                           seenNon := st.seenNon || !st.hasEq, hasEq := false }
      if st.hasEq ∧ !st'.seenNon then .slow none
      else if st'.args.length = 1 ∧ st.cur.reverse ∈ shCmds then .slow none
      else fastLine restp oneShell st' (s.dropWhile isBlank)
    else fastLine restp oneShell (st.push c) s
termination_by s => s.length
decreasing_by
  all_goals
    simp only [List.length_cons, List.length_tail, List.length_nil]
  all_goals
    first
    | omega
    | (have := dropWhile_length_le isBlank s; omega)
    | (have := dropWhile_length_le isBlank s'; split <;> omega)

/-- Copying SHELL (job.c 2953-2958). -/
def escShell (s : Str) : Str := s.flatMap fun c => if c ∈ shChars then ['\\', c] else [c]

/-- Copying the line (job.c 2967-3014); the second component is `*restp`. -/
def escLine (restp : Bool) : Str → Str × Option Str
  | [] => ([], none)
  | '\\' :: '\n' :: s =>
    let r := escLine restp s
    ('\\' :: '\\' :: '\n' :: r.1, r.2)
  | c :: s =>
    if restp ∧ c = '\n' then ([], some (c :: s))
    else
      let r := escLine restp s
      if c = '\\' ∨ c = '\'' ∨ c = '"' ∨ isSpace c ∨ c ∈ shChars then ('\\' :: c :: r.1, r.2)
      else (c :: r.1, r.2)

/-- The part of a path after the last `/` or `\` (job.c 310-323). -/
def shellBase (path : Str) : Str :=
  (path.reverse.takeWhile fun c => !(c == '/' || c == '\\')).reverse

/-- `is_bourne_compatible_shell` (job.c 293-338). -/
def isBourne (path : Str) : Bool :=
  shellBase path ∈ ["sh", "bash", "ksh", "rksh", "zsh", "ash", "dash"].map String.toList

/-- Removing the interior prefix characters under `.ONESHELL` (job.c 2814-2845): `start` is the
state at the start of a line. -/
def oneShellStrip : (start esc : Bool) → Str → Str
  | _, _, [] => []
  | start, esc, c :: s =>
    if start ∧ (isBlank c ∨ c = '-' ∨ c = '@' ∨ c = '+') then oneShellStrip true false s
    else
      c :: (if c = '\\' then oneShellStrip false (!esc) s
            else if c = '\n' ∧ !esc then oneShellStrip true false s
            else oneShellStrip false false s)

/-- The tokens of `.SHELLFLAGS` (job.c 2927-2937). -/
def flagTokens (s : Str) : List Str :=
  match h : findNextToken s with
  | none => []
  | some (t, r) => t :: flagTokens r
termination_by s.length
decreasing_by exact findNextToken_lt h

/-- What is left of a buffer that held `old`, after `new` and a NUL were written to its
start, when a NUL is written at `pos` as the caller does with `*restp` (job.c 1085-1091): the text
at the start and the text after `pos`. -/
def cutBuffer (new old : Str) (pos : Nat) : Str × Str :=
  let buf := new ++ '\x00' :: old.drop (new.length + 1)
  ((buf.take pos).takeWhile (· != '\x00'), (buf.drop (pos + 1)).takeWhile (· != '\x00'))

/-- Whether the fast path may be tried (job.c 2441-2495). -/
def quickOk (shell : Option Str) (flags : Str) (ifs : Option Str) : Bool :=
  (match shell with | none => true | some s => s == defaultShell)
    && (ifs.getD []).all (fun c => c == ' ' || c == '\t' || c == '\n')
    && (flags == "-c".toList || flags == "-ec".toList)

/-- `construct_command_argv_internal` (job.c 2311-3106).  The result is the argument list (`none`:
NULL) and the text at `*restp`; the outer `none` means that the depth of the recursion is exceeded.
With `.ONESHELL` the last argument is the buffer of the caller, which cuts it at `*restp`; the
result shows it after that (see `cutBuffer`). -/
def argvInternal (oneShell posix : Bool) : (depth : Nat) → (line : Str) → (restp : Bool) →
    (shell flags ifs : Option Str) → Option (Option (List Str) × Option Str)
  | 0, _, _, _, _, _ => none
  | n + 1, line0, restp, shell, flags0, ifs =>
    let line := line0.dropWhile isBlank
    if line = [] then some (none, none)
    else
      let flags := flags0.getD (if posix then "-ec".toList else "-c".toList)
      let sh := shell.getD defaultShell
      match (if quickOk shell flags ifs then fastLine restp oneShell {} line else .slow none) with
      | .args [] rest => some (none, rest)
      | .args l rest => some (some l, rest)
      | .slow rest =>
        if oneShell then
          let new := if isBourne sh then oneShellStrip true false line else line
          match rest with
          | none => some (some (sh :: flagTokens flags ++ [new]), none)
          | some r =>
            let b := cutBuffer new line (line.length - r.length)
            some (some (sh :: flagTokens flags ++ [b.1]), some ('\n' :: b.2))
        else
          let e := escLine restp line
          let rest' := match e.2 with | some r => some r | none => rest
          if (escShell sh).length + e.1.length = sh.length then some (none, rest')
          else
            match argvInternal oneShell posix n (escShell sh ++ ' ' :: flags ++ ' ' :: e.1) false none none
                none with
            | none => none
            | some (argv, _) => some (argv, rest')

end Remake
