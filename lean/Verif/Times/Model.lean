import Verif.Misc.Model
/-! Model of touching (remake.c `touch_file` 1193-1250 and the part of `notice_finished_file` 917-956 that decides about it)
and of the times of files with symbolic links (`name_mtime` 1516-1642, POSIX part, `MAKE_SYMLINKS` defined). -/
set_option linter.unusedVariables false
namespace Remake

/-! ## Touching -/

/-- A file of the file system, as far as touching is concerned. -/
structure TFile where
  contents : Str
  mtime : Nat
deriving Repr, DecidableEq

/-- What a system call does.  `EINTRLOOP` (makeint.h 752) repeats a call that is interrupted; such calls have no effect
and are left out.  `killed`: the process ends before the call. -/
inductive CallEnd where
  | ok
  | fail
  | killed
deriving Repr, DecidableEq

/-- The system calls of `touch_file` (remake.c 1211, 1220, 1224, 1229, 1233, 1240, 1241, 1245). -/
inductive TouchCall where
  | openCreate
  | fstat
  | read
  | lseek
  | write
  | close
  | openTrunc
deriving Repr, DecidableEq

/-- The files, the number of open descriptors, and the local variables `statbuf.st_size` and `buf` of `touch_file`. -/
structure TouchState where
  files : Str → Option TFile
  fds : Nat := 0
  size : Nat := 0
  buf : Char := 'x'

/-- One file is replaced. -/
def TouchState.put (st : TouchState) (n : Str) (f : TFile) : TouchState :=
  { st with files := fun m => if m = n then some f else st.files m }

/-- The effect of a successful call on the file `n` at the time `now`.  Opening creates a missing file, reading one
character leaves the buffer as it is at the end of the file, writing replaces the first character, and truncating
sets the time too.  Simplified: the name is that of a regular file, no other process uses the file meanwhile. -/
def TouchCall.run (n : Str) (now : Nat) (st : TouchState) : TouchCall → TouchState
  | .openCreate =>
    let st := { st with fds := st.fds + 1 }
    match st.files n with
    | some _ => st
    | none => st.put n ⟨[], now⟩
  | .fstat => { st with size := ((st.files n).map (·.contents.length)).getD 0 }
  | .read => { st with buf := (((st.files n).map (·.contents)).getD []).head?.getD st.buf }
  | .lseek => st
  | .write =>
    match st.files n with
    | some f => st.put n ⟨st.buf :: f.contents.drop 1, now⟩
    | none => st
  | .close => { st with fds := st.fds - 1 }
  | .openTrunc =>
    let st := { st with fds := st.fds + 1 }
    match st.files n with
    | some f => st.put n ⟨[], now⟩
    | none => st

/-- How touching ends: with `us_success`, with `us_failed`, or not at all. -/
inductive TouchEnd where
  | success
  | failed
  | killed
deriving Repr, DecidableEq

/-- The calls in order, from call `k`; the result of `close` is not looked at (remake.c 1240, 1245), after any other
failing call `TOUCH_ERROR` (1190-1191) returns, without closing. -/
def touchCalls (n : Str) (o : Nat → CallEnd) (now : Nat → Nat) : Nat → List TouchCall → TouchState → TouchState × TouchEnd
  | _, [], st => (st, .success)
  | k, c :: cs, st =>
    match o k with
    | .killed => (st, .killed)
    | .ok => touchCalls n o now (k + 1) cs (c.run n (now k) st)
    | .fail => if c = .close then touchCalls n o now (k + 1) cs (c.run n (now k) st) else (st, .failed)

/-- `touch_file` (remake.c 1193-1250) for a file that is no archive member (for these: `arTouch`).  `o` says what each
system call does, `now` is the time of each call. -/
def touchFile (justPrint : Bool) (n : Str) (o : Nat → CallEnd) (now : Nat → Nat) (st : TouchState) : TouchState × TouchEnd :=
  if justPrint then (st, .success)
  else
    let r := touchCalls n o now 0 [.openCreate, .fstat, .read, .lseek, .write] { st with buf := 'x' }
    if r.2 ≠ .success then r
    else if r.1.size = 0 then touchCalls n o now 5 [.close, .openTrunc, .close] r.1
    else touchCalls n o now 5 [.close] r.1

/-- Whether `notice_finished_file` touches the target (remake.c 917-956): `success` is `update_status == us_success`, `lines`
says for each command line whether it is recursive (`none`: no recipe).  `any_recurse` (commands.c 401, 429) is whether
any line is. -/
def touchesTarget (touchFlag success phony : Bool) (lines : Option (List Bool)) : Bool :=
  touchFlag && success &&
    (match lines with
      | some ls => if ls.any id then ls.any (!·) else true
      | none => true) &&
    !phony && lines.isSome

/-! ## Symbolic links -/

/-- The errors that are told apart. -/
inductive StatErr where
  /-- `ENOENT` or `ENOTDIR` -/
  | missing
  | other
deriving Repr, DecidableEq

/-- The system calls about names; times are values of `FILE_TIMESTAMP`. -/
structure LinkFs where
  stat : Str → Except StatErr Nat
  /-- whether it is a symbolic link, and the time -/
  lstat : Str → Except StatErr (Bool × Nat)
  readlink : Str → Except StatErr Str

/-- How the loop ends; `overflow`: a copy does not fit in a buffer of `PATH_MAX` + 1 characters. -/
inductive LinkEnd where
  | time (t : Nat)
  | running
  | overflow
deriving Repr, DecidableEq

/-- What is up to and with the last slash (`strrchr`, remake.c 1629); `none`: no slash. -/
def throughSlash (p : Str) : Option Str :=
  if '/' ∈ p then some (p.reverse.dropWhile (· != '/')).reverse else none

/-- A copy to a buffer of `PATH_MAX` + 1 characters. -/
def copyPath (pathMax : Nat) (s : Str) (k : Str → LinkEnd) : LinkEnd :=
  if s.length ≤ pathMax then k s else .overflow

/-- The loop over the links (remake.c 1590-1637), for so many rounds.  `readlink` gives at most `PATH_MAX` characters. -/
def linkLoop (fs : LinkFs) (pathMax : Nat) : Nat → Str → Nat → LinkEnd
  | 0, _, _ => .running
  | k + 1, lpath, mtime =>
    match fs.lstat lpath with
    | .error _ => .time mtime
    | .ok (false, _) => .time mtime
    | .ok (true, ltime) =>
      let mtime := if ltime > mtime then ltime else mtime
      match fs.readlink lpath with
      | .error _ => .time mtime
      | .ok target =>
        copyPath pathMax (target.take pathMax) fun lbuf =>
          if lbuf.head? = some '/' then copyPath pathMax lbuf fun p => linkLoop fs pathMax k p mtime
          else
            match throughSlash lpath with
            | none => copyPath pathMax lbuf fun p => linkLoop fs pathMax k p mtime
            | some dir =>
              -- `p - lpath` is one less than the length of `dir`
              if (dir.length - 1) + lbuf.length + 2 > pathMax then .time mtime
              else copyPath pathMax (dir ++ lbuf) fun p => linkLoop fs pathMax k p mtime


/-- `name_mtime` (remake.c 1516-1642): `checkSymlinks` is `check_symlink_flag` (`-L`). -/
def nameMtime (fs : LinkFs) (pathMax : Nat) (checkSymlinks : Bool) (fuel : Nat) (name : Str) : LinkEnd :=
  match fs.stat name with
  | .error .other => .time nonexistentMtime
  | r =>
    let mtime := match r with
      | .ok t => t
      | .error _ => nonexistentMtime
    if checkSymlinks && name.length ≤ pathMax then
      copyPath pathMax name fun p => linkLoop fs pathMax fuel p mtime
    else .time mtime

end Remake
