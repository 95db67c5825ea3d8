import Verif.Base.Chars
set_option linter.unusedVariables false
/-!
# A makefile from standard input

Models `src/main.c` 1668-1741 (the temporary file), 2227-2256 and 2308-2315 (as far as the temporary file goes over to a restarted make), 2354-2357 (its
removal), and `src/misc.c` `get_tmpfile` 389-437.  The command line of the restarted make is C97.

Simplifications: files are names with contents; `mkstemp` is a parameter; a make that ends in whatever way removes no other file here.
-/
namespace Remake

/-- The files: names and contents. -/
abbrev SinFs := List (Str × Str)

/-- The template for the temporary file (main.c 1694-1711): `TMPDIR` or the default directory. -/
def sinTemplate (tmpdir : Option Str) (dflt : Str) : Str :=
  let d := match tmpdir with
    | some (c :: t) => c :: t
    | _ => dflt
  d ++ (if d.getLast? = some '/' then [] else ['/']) ++ "GmXXXXXX".toList

/-- What one call of `fread` brings: bytes, whether the end or an error has been met, and how many of the bytes `fwrite` then takes. -/
structure SinRead where
  data : Str
  eof : Bool
  err : Bool
  taken : Nat
deriving DecidableEq, Repr

/-- The loop (main.c 1715-1721): what is in the file at the end, and whether a fatal error ends make.  The list must be long enough. -/
def sinCopy : List SinRead → Str × Bool
  | [] => ([], false)
  | r :: rs =>
    if r.data ≠ [] ∧ r.taken ≠ r.data.length then (r.data.take r.taken, true)
    else if r.eof ∨ r.err then (r.data, false)
    else
      let q := sinCopy rs
      (r.data ++ q.1, q.2)

/-- The state: files, `stdin_nm`, `makefiles->list`. -/
structure SinSt where
  fs : SinFs
  nm : Option Str
  makefiles : List Str
deriving DecidableEq, Repr

/-- Make goes on, or has ended with a fatal error. -/
inductive SinOut where
  | ok (st : SinSt)
  | fatal (fs : SinFs)
deriving DecidableEq, Repr

/-- The loop over the makefiles (main.c 1670-1740): `done` are those before.  `mk` is `mkstemp` on the template: the name, or failure.  `lost`
is the number of characters still in the buffer that `fclose` cannot write; its result is not looked at (1722). -/
def sinOpen (mk : SinFs → Option Str) (input : List SinRead) (lost : Nat) (fs : SinFs) (nm : Option Str) (done : List Str) : List Str → SinOut
  | [] => .ok ⟨fs, nm, done⟩
  | f :: rest =>
    if f = ['-'] then
      match nm with
      | some _ => .fatal fs
      | none =>
        match mk fs with
        | none => .fatal fs
        | some t =>
          let c := sinCopy input
          if c.2 then .fatal ((t, c.1) :: fs) else sinOpen mk input lost ((t, c.1.take (c.1.length - lost)) :: fs) (some t) (done ++ [t]) rest
    else sinOpen mk input lost fs nm (done ++ [f]) rest

/-- How the part of a make before its goals ends: a fatal error (also in a makefile, with `die`), a signal, a restart, or the goals. -/
inductive SinEv where
  | fatal | killed | restart | goals
deriving DecidableEq, Repr

/-- `unlink` (main.c 2356). -/
def sinUnlink (fs : SinFs) (n : Str) : SinFs := fs.filter fun f => f.1 ≠ n

/-- The files when make has ended.  The restarted make has the name of the temporary file for its makefile (main.c 2234-2243), and its
`stdin_nm` is null (1051). -/
def sinRun (st : SinSt) : List SinEv → SinFs
  | [] => st.fs
  | .fatal :: _ => st.fs
  | .killed :: _ => st.fs
  | .restart :: evs => sinRun { st with nm := none } evs
  | .goals :: _ =>
    match st.nm with
    | some n => sinUnlink st.fs n
    | none => st.fs

end Remake
