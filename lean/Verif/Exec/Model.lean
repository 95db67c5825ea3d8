import Verif.Base.Chars
/-!
# Starting programs

Models `child_execute_job` (job.c 1998-2174, the variant with `posix_spawn`, which configure.ac 485-521 chooses where it works),
`find_in_given_path` (lib/findprog-in.c 74-251), `concatenated_filename` (lib/concat-filename.c 35-73), the message about a
command that ended with 127 (job.c 739-766), the choice of the standard input (job.c 796-797, 1226-1232) and the
descriptors a command gets (job.c 2003-2022, 2079-2090).  The file system is a parameter.
-/
set_option linter.unusedVariables false
set_option linter.unusedSimpArgs false
namespace Remake

/-- Error numbers; the ones that are treated in a special way have a name of their own. -/
inductive XErr where
  | noent
  | acces
  | noexec
  | other (n : Nat)
deriving DecidableEq, Repr

/-- What the system finds under a path name: nothing; something it cannot reach (`e` tells why); a directory, which may be
searched or not; a file, which may be executed or not, with the reason for which the kernel refuses to run it
(`none`: it runs it). -/
inductive XKind where
  | missing
  | unreachable (e : XErr)
  | dir (x : Bool)
  | file (x : Bool) (refused : Option XErr)
deriving DecidableEq, Repr

/-- The file system as far as programs are concerned.  Simplified: it does not change while one command is started. -/
abbrev XFs := Str → XKind

/-- `eaccess (name, X_OK)` (findprog-in.c 137, 211): `none`: success.  Directories that may be searched pass, too. -/
def xAccess (fs : XFs) (name : Str) : Option XErr :=
  match fs name with
  | .missing => some .noent
  | .unreachable e => some e
  | .dir x => if x then none else some .acces
  | .file x _ => if x then none else some .acces

/-- `posix_spawn` of a path name (job.c 2121-2123, 2142-2144): `none`: the program runs.  Simplified: the loops over `EINTR`
come to an end. -/
def xSpawn (fs : XFs) (name : Str) : Option XErr :=
  match fs name with
  | .missing => some .noent
  | .unreachable e => some e
  | .dir _ => some .acces
  | .file x refused => if x then refused else some .acces

/-- The `PATH` of the environment the command gets (job.c 2100-2109): the first entry that begins with `PATH=`. -/
def xPath : List Str → Option Str
  | [] => none
  | ('P' :: 'A' :: 'T' :: 'H' :: '=' :: p) :: _ => some p
  | _ :: es => xPath es

/-- The pieces of the search path (findprog-in.c 181-187): cut at each colon, also at the end. -/
def xDirs (path : Str) : List Str :=
  match path with
  | [] => [[]]
  | c :: cs =>
    if c = ':' then [] :: xDirs cs
    else
      match xDirs cs with
      | [] => [[c]]
      | d :: ds => (c :: d) :: ds

/-- `concatenated_filename` without suffix (concat-filename.c 35-73). -/
def xConcat (dir name : Str) : Str :=
  if dir = ['.'] then name
  else if dir ≠ [] ∧ dir.getLast? ≠ some '/' then dir ++ '/' :: name
  else dir ++ name

/-- The directory a piece stands for (findprog-in.c 188-190). -/
def xDir (d : Str) : Str := if d = [] then ['.'] else d

/-- The loop over the directories (findprog-in.c 174-245); `fail` is `failure_errno`. -/
def xSearch (fs : XFs) (prog : Str) (fail : XErr) : List Str → Except XErr Str
  | [] => .error fail
  | d :: ds =>
    match xAccess fs (xConcat (xDir d) prog) with
    | none =>
      .ok (if xConcat (xDir d) prog = prog then '.' :: '/' :: prog else xConcat (xDir d) prog)
    | some e => xSearch fs prog (if e = .noent then fail else e) ds

/-- `find_in_given_path (progname, path, 0)` (findprog-in.c 74-251). -/
def xFind (fs : XFs) (prog : Str) (path : Option Str) : Except XErr Str :=
  if '/' ∈ prog then
    match xAccess fs prog with
    | none => .ok prog
    | some e => .error e
  else xSearch fs prog .noent (xDirs (path.getD []))

/-- `default_shell` (job.c 35 on POSIX systems). -/
def xShell : Str := "/bin/sh".toList

/-- A process: the file that is run, its arguments and its environment. -/
structure XRun where
  file : Str
  argv : List Str
  env : List Str
deriving DecidableEq, Repr

/-- The end of `child_execute_job` (job.c 2098-2157): the process, or why there is none; and the name remembered in
`cmd_name`.  The words of the command are `prog :: args`. -/
def xStart (fs : XFs) (env : List Str) (prog : Str) (args : List Str) : Except XErr (XRun × Str) :=
  match xFind fs prog (xPath env) with
  | .error e => .error e
  | .ok cmd =>
    match xSpawn fs cmd with
    | none => .ok (⟨cmd, prog :: args, env⟩, cmd)
    | some .noexec =>
      match xSpawn fs xShell with
      | none => .ok (⟨xShell, xShell :: cmd :: args, env⟩, cmd)
      | some e => .error e
    | some e => .error e

/-- What make says: the name of a command with a reason. -/
structure XMsg where
  name : Str
  err : XErr
deriving DecidableEq, Repr

/-- What `stat` tells about the remembered command (job.c 755-761): `none`: it could not be looked at (`e` of the kind);
directories and files that are not executable for their owner are `EACCES`, empty ones `ENOEXEC`.  `st` gives the answer. -/
inductive XStat where
  | failed (e : XErr)
  | bad
  | empty
  | fine
deriving DecidableEq, Repr

/-- The message about a command that ended with 127 (job.c 744-765). -/
def x127 (st : Str → XStat) (cmdName : Option Str) : List XMsg :=
  match cmdName with
  | none => []
  | some nm =>
    match st nm with
    | .failed e => [⟨nm, e⟩]
    | .bad => [⟨nm, .acces⟩]
    | .empty => [⟨nm, .noexec⟩]
    | .fine => []

/-- How a command of a recipe ends: make could not start it (then 127, job.c 548-555), or it exits with a status. -/
inductive XEnd where
  | notStarted
  | exited (status : Nat)
deriving DecidableEq, Repr

/-- A command of a recipe with what is found when it is started and when its end is noticed: the file system then, its words,
the status with which it exits if it is started, and what `stat` says when make notices the end. -/
structure XCmd where
  fs : XFs
  env : List Str
  prog : Str
  args : List Str
  status : Nat
  stat : Str → XStat

/-- One command of a recipe (job.c 1230-1284, 2098-2172, 739-766): what make says about it, how it ends, and `cmd_name` of the
job afterwards.  When the command cannot be started the name of the one before stays. -/
def xCommand (cmdName : Option Str) (c : XCmd) : List XMsg × XEnd × Option Str :=
  match xStart c.fs c.env c.prog c.args with
  | .ok (_, nm) => (if c.status = 127 then x127 c.stat (some nm) else [], .exited c.status, some nm)
  | .error e => (⟨c.prog, e⟩ :: x127 c.stat cmdName, .notStarted, cmdName)

/-- The commands of a recipe up to the first one that fails (job.c 768-881; errors are not ignored): what is said, and whether
all succeeded. -/
def xRecipe (cmdName : Option Str) : List XCmd → List XMsg × Bool
  | [] => ([], true)
  | c :: cs =>
    match xCommand cmdName c with
    | (ms, .exited 0, nm) => (ms ++ (xRecipe nm cs).1, (xRecipe nm cs).2)
    | (ms, _, _) => (ms, false)

/-! ### The standard input -/

/-- A command of a job: its number, whether it has the good standard input (`good_stdin`), and whether its process runs. -/
structure SiCmd where
  id : Nat
  good : Bool
  running : Bool
deriving DecidableEq, Repr

/-- `good_stdin_used` (job.c 151), the commands being started or running, and the number of the next one. -/
structure SiSt where
  used : Bool
  cmds : List SiCmd
  next : Nat
deriving DecidableEq, Repr

/-- What happens: the standard input of a new command is chosen (job.c 1226-1232); its process is started (job.c 1279), perhaps
after other events, because its environment is built in between; the end of a command is noticed (job.c 796-797). -/
inductive SiEv where
  | choose
  | spawn (id : Nat)
  | reap (id : Nat)
deriving DecidableEq, Repr

/-- One event; commands whose process does not run are not reaped. -/
def siStep (st : SiSt) : SiEv → SiSt
  | .choose =>
    { used := if st.used then st.used else true
      cmds := st.cmds ++ [⟨st.next, !st.used, false⟩]
      next := st.next + 1 }
  | .spawn id => { st with cmds := st.cmds.map fun c => if c.id = id then { c with running := true } else c }
  | .reap id =>
    match st.cmds.find? fun c => c.id == id && c.running with
    | none => st
    | some c =>
      { st with
        used := if c.good then false else st.used
        cmds := st.cmds.filter fun c => c.id != id }

/-- A history. -/
def siRun (st : SiSt) (es : List SiEv) : SiSt := es.foldl siStep st

/-- The start (job.c 151). -/
def siStart : SiSt := ⟨false, [], 0⟩

/-! ### Descriptors -/

/-- A descriptor table: the file behind each descriptor and whether it is closed when a program is started. -/
abbrev FdTab := Nat → Option (Nat × Bool)

/-- `dup2` from `a` to `b` (job.c 2081-2089) in the new process; a descriptor that is not open changes nothing (the spawn would
fail). -/
def fdDup (t : FdTab) (a b : Nat) : FdTab :=
  match t a with
  | none => t
  | some (f, _) => fun i => if i = b then some (f, false) else t i

/-- What is left when the program starts. -/
def fdExec (t : FdTab) : Nat → Option Nat := fun i =>
  match t i with
  | some (f, false) => some f
  | _ => none

/-- The standard input of the command (job.c 2003, 2081-2083). -/
def fdInput (t : FdTab) (fdin : Option Nat) : FdTab :=
  match fdin with
  | some i => if i ≠ 0 then fdDup t i 0 else t
  | none => t

/-- The descriptors of the command (job.c 2003-2022, 2081-2089): `bad`: the descriptor of `get_bad_stdin` (posixos.c 447-473,
`none`: no pipe could be made); `out`, `err`: the files that collect the output (`none`: negative). -/
def fdChild (t : FdTab) (good : Bool) (bad : Option Nat) (sync : Bool) (out err : Option Nat) : Nat → Option Nat :=
  let fdin := if good then some 0 else bad
  let fdout := if sync then out.getD 1 else 1
  let fderr := if sync then err.getD 2 else 2
  let t1 := fdInput t fdin
  let t2 := if fdout ≠ 1 then fdDup t1 fdout 1 else t1
  let t3 := if fderr ≠ 2 then fdDup t2 fderr 2 else t2
  fdExec t3

/-! ### The function shell -/

/-- What `$(shell)` meets: no words (`construct_command_argv` gives nothing); a command that make cannot start; one that is started,
with its output and the end of its process: exit status, signal. -/
inductive ShCase where
  | empty
  | fails
  | runs (output : Str) (code sig : Nat)
deriving DecidableEq, Repr

/-- What changes: the number of open descriptors, `.SHELLSTATUS` (`none`: not defined), what was written to the standard error by
make itself (outputs that were not used). -/
structure ShSt where
  fds : Nat
  status : Option Nat
  stderr : List Str
  pipeErrors : Nat
deriving DecidableEq, Repr

/-- `shell_completed` (function.c 1409-1424): the status kept. -/
def shStatus (code sig : Nat) : Nat := if code = 0 ∧ sig > 0 then 128 + sig else code

/-- `func_shell_base` (function.c 1621-1810) with a limit on the descriptors: the text that is folded (C15) into the value, and
the state. -/
def shellFn (limit : Nat) (st : ShSt) : ShCase → Str × ShSt
  | .empty => ([], st)
  | c =>
    if limit < st.fds + 2 then ([], { st with pipeErrors := st.pipeErrors + 1 })
    else
      match c with
      | .empty => ([], st)
      | .fails => ([], { st with fds := st.fds + 2, status := some 127 })
      | .runs output code sig =>
        if sig = 0 ∧ code = 127 then
          ([], { st with status := some (shStatus code sig), stderr := st.stderr ++ [output] })
        else (output, { st with status := some (shStatus code sig) })

/-- Several uses, one after the other: the texts and the state. -/
def shellFns (limit : Nat) : ShSt → List ShCase → List Str × ShSt
  | st, [] => ([], st)
  | st, c :: cs =>
    ((shellFn limit st c).1 :: (shellFns limit (shellFn limit st c).2 cs).1, (shellFns limit (shellFn limit st c).2 cs).2)

end Remake
