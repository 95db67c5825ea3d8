import Verif.Base.Chars
import Verif.Flags.Model
import Verif.Files.Model
import Verif.Start.Makefiles
import Verif.Start.Restart

/-!
# Model: home directories in file names

`remake_tilde_expand` (read.c 3055-3122), and what its callers do with the name they hand over: the words of the command line
(`decode_switches`, main.c 2755, and `handle_non_switch_argument`, main.c 2571, through `expand_command_line_file`, main.c
630-668), and the members of an archive group (`parse_file_seq`, read.c 3243-3365).
-/

namespace Remake

/-- What `remake_tilde_expand` (read.c 3055-3122) asks: the expansion of `$(HOME)` (3069), `getenv ("HOME")` (3078), the home
directory of the user logged in (`getlogin` and `getpwnam`, 3083-3090) and that of a user by name (`getpwnam`, 3108). -/
structure HomeEnv where
  var : Str
  env : Option Str
  login : Option Str
  user : Str → Option Str

/-- `home_dir` for `~` alone (read.c 3060-3092). -/
def ownHome (E : HomeEnv) : Option Str :=
  if E.var ≠ [] then some E.var
  else
    match E.env with
    | some (c :: r) => some (c :: r)
    | _ => E.login

/-- `remake_tilde_expand` (read.c 3055-3122) for a name that starts with `~`: the result, and the place where a NUL is left in
the name (3106-3117). -/
def tildeExpand (E : HomeEnv) (name : Str) : Option Str × Option Nat :=
  let r := name.drop 1
  if r = [] ∨ r.head? = some '/' then ((ownHome E).map (· ++ r), none)
  else
    let u := r.takeWhile (· ≠ '/')
    match E.user u with
    | some d => if u.length = r.length then (some d, none) else (some (d ++ '/' :: r.drop (u.length + 1)), some (u.length + 1))
    | none => (none, none)

/-- The name that a caller finds in place of the one it handed over: up to the NUL (read.c 3106-3117). -/
def tildeLeaves (E : HomeEnv) (name : Str) : Str :=
  match (tildeExpand E name).2 with
  | none => name
  | some i => name.take i

/-- The expansion alone, for the models that take it as a parameter (`expandFile`, `commandName`, `findMakefile`,
`elementNames`, `includePath`). -/
def tildeOf (E : HomeEnv) (name : Str) : Option Str := (tildeExpand E name).1

/-- A word of the command line: `pre` is the text before the file name in it (`-C`, `--directory=`, or nothing for a goal and
for an argument in a word of its own), `name` the file name; or a word without file name (main.c 2571, 2755). -/
inductive HomeWord where
  | plain (w : Str)
  | named (pre name : Str)

/-- The word as the user wrote it. -/
def HomeWord.text : HomeWord → Str
  | .plain w => w
  | .named pre name => pre ++ name

/-- The word in `argv` after the options are decoded: `expand_command_line_file` (main.c 639-644) hands the text in `argv` itself
to `remake_tilde_expand`. -/
def HomeWord.after (E : HomeEnv) : HomeWord → Str
  | .plain w => w
  | .named pre name => pre ++ (if name.head? = some '~' then tildeLeaves E name else name)

/-- The file named by a word (`expand_command_line_file`, main.c 630-668). -/
def HomeWord.file (E : HomeEnv) : HomeWord → Option Str
  | .plain _ => none
  | .named _ name => commandName (tildeOf E) name

/-- The elements of an archive group `LIB(M1 M2 ...)` one after the other (read.c 3243-3269, 3322-3365): `buf` is the start of
`tmpbuf` up to and with the `(`, each member is copied behind it with a `)`, and the name is what stands in `tmpbuf` before
the first NUL.  Wildcards and members found by `ar_glob` are left out: members without wildcards. -/
def homeGroup (E : HomeEnv) : Str → List Str → List Str
  | _, [] => []
  | buf, m :: ms =>
    let s := (buf ++ m ++ [')']).takeWhile (· ≠ Char.ofNat 0)
    if s.head? = some '~' then
      (tildeOf E s).getD (tildeLeaves E s) ::
        homeGroup E (match (tildeExpand E s).2 with
          | some i => buf.set i (Char.ofNat 0)
          | none => buf) ms
    else s :: homeGroup E buf ms

end Remake
