import Verif.Text.Lemmas3
/-!
# Loading objects

Models `load_object` (load.c 47-119), `load_file` (load.c 121-232), `unload_file` (load.c 234-247), the work of a `load` line
(read.c 983-1011), the removal of an object before its recipe runs (commands.c 573-574) and the functions an object adds
(`define_new_function`, function.c 2480-2516, `lookup_function`, function.c 269-285).  The dynamic linker is a parameter.
-/
set_option linter.unusedVariables false
set_option linter.unusedSimpArgs false
namespace Remake

/-- What a setup function may do with the functions of loadapi.c: a `load` line through `gmk_eval` (39-66) with the names on it,
and `gmk_add_function` (77-82) with a name, the least and greatest number of arguments. -/
inductive LdAct where
  | load (noerror : Bool) (names : List Str)
  | reg (name : Str) (min max : Nat)
deriving DecidableEq, Repr

/-- The dynamic linker and the objects.  `find` is `dlopen` of a path (`none`: it fails); `syms o s`: object `o` defines the
symbol `s`; `own s`: make itself, or a library it is linked with, defines it; `setup h o s`: what the function `s` of object
`o` (`none`: of make itself) does and returns when `h` are the calls before it.  Simplified: an object is the same at each
`dlopen` of its path. -/
structure DlEnv where
  find : Str → Option Nat
  syms : Nat → Str → Bool
  own : Str → Bool
  setup : List (Option Nat × Str) → Option Nat → Str → List LdAct × Int

/-- The state: the value of `.LOADED` and whether it was set by the user (`pinned`: its origin is above `o_default`, so that the
definition at load.c 226 is ignored); the objects open, in the order in which the linker searches them, with one entry per
`dlopen`; `loaded_syms` (load.c 45), newest first; the setup functions called, oldest first; the functions added, newest
first, with their objects; `read_makefiles` as far as loads added to it, newest first; the objects complained about. -/
structure LdSt where
  value : Str
  pinned : Bool
  opened : List Nat
  table : List (Str × Option Nat)
  calls : List (Option Nat × Str)
  fns : List (Str × Option Nat)
  todo : List Str
  errors : List Str
deriving DecidableEq, Repr

/-- Why make stops. -/
inductive LdFatal where
  | emptySymbol (name : Str)
  | notGpl (obj : Str)
  | noSymbol (obj sym : Str)
  | failed (obj : Str)
  | badFunction (name : Str)
deriving DecidableEq, Repr

/-- An outcome; `deep`: the bound on loads inside loads was reached (no such bound in the code). -/
inductive LdOut (α : Type) where
  | ok (a : α)
  | fatal (w : LdFatal)
  | deep
deriving DecidableEq, Repr

/-- `SYMBOL_EXTENSION` (load.c 27). -/
def symExt : Str := "_gmk_setup".toList

/-- A character of the symbol made from a name (load.c 198). -/
def isSymChar (c : Char) : Bool := isAlnumC c || c == '_'

/-- Breaking the name (load.c 134-162): `none`: the symbol is empty; else the object and the symbol if one is given.  The
first `(` is searched, then the first `)` behind it, which has to be the last character. -/
def splitLoad (name : Str) : Option (Str × Option Str) :=
  match name.dropWhile (· != '(') with
  | [] => some (name, none)
  | _ :: fp =>
    if fp.dropWhile (· != ')') = [')'] then
      if fp.takeWhile (· != ')') = [] then none
      else some (name.takeWhile (· != '('), some (fp.takeWhile (· != ')')))
    else some (name, none)

/-- Behind the last slash (load.c 179, 194-197). -/
def baseOf (name : Str) : Str := (name.reverse.takeWhile (· != '/')).reverse

/-- The symbol made from the name of the object (load.c 175-202). -/
def madeSym (name : Str) : Str := (baseOf name).takeWhile isSymChar ++ symExt

/-- How many bytes of `new` (load.c 125) are written (load.c 152-160, 198-200), with the final zeros. -/
def newUsed (name : Str) : Nat :=
  match splitLoad name with
  | some (obj, some sym) => obj.length + 1 + sym.length + 1
  | _ => (madeSym name).length + 1

/-- The bytes of `new` (load.c 125). -/
def newSize (name : Str) : Nat := name.length + symExt.length + 1

/-- Is the object loaded already (load.c 168-170)?  Only the first occurrence is looked at. -/
def isLoaded (value obj : Str) : Bool :=
  match strstr obj value with
  | none => false
  | some (b, p) =>
    (b.getLast?.all (· == ' ')) && ((p.drop obj.length).head?.all (· == ' '))

/-- `dlsym (global_dl, …)` (load.c 64): make itself first, then the open objects in order. -/
def globalSym (env : DlEnv) (st : LdSt) (sym : Str) : Option (Option Nat) :=
  if env.own sym then some none else (st.opened.find? fun o => env.syms o sym).map some

/-- The `dlopen` calls (load.c 71-80). -/
def openObj (env : DlEnv) (obj : Str) : Option Nat :=
  match (if '/' ∈ obj then none else env.find ("./".toList ++ obj)) with
  | some o => some o
  | none => env.find obj

/-- The symbol objects have to define (load.c 94). -/
def gplSym : Str := "plugin_is_GPL_compatible".toList

/-- `load_object` (load.c 47-119): the object whose function is called, or `none`, and the state. -/
def loadObject (env : DlEnv) (noerror : Bool) (st : LdSt) (obj sym : Str) : LdOut (LdSt × Option (Option Nat)) :=
  match globalSym env st sym with
  | some o => .ok (st, some o)
  | none =>
    match openObj env obj with
    | none => .ok ({ st with errors := if noerror then st.errors else st.errors ++ [obj] }, none)
    | some o =>
      if env.syms o gplSym = false then .fatal (.notGpl obj)
      else if env.syms o sym = false then .fatal (.noSymbol obj sym)
      else .ok ({ st with
        opened := st.opened ++ [o]
        table := (obj, some o) :: st.table }, some (some o))

/-- The checks of `define_new_function` (function.c 2489-2504). -/
def fnAllowed (name : Str) (min max : Nat) : Bool :=
  name.all isUserFunc && name != [] && name.head? != some '.' && decide (name.length ≤ 255) && decide (min ≤ 255) &&
    decide (max ≤ 255) && (max == 0 || decide (min ≤ max))

/-- The loop over the names on a `load` line (read.c 984-1011); `load` is the work of one name. -/
def loadNames (load : LdSt → Bool → Str → LdOut LdSt) (noerror : Bool) : LdSt → List Str → LdOut LdSt
  | st, [] => .ok st
  | st, nm :: ns =>
    match load st noerror nm with
    | .ok st' => loadNames load noerror st' ns
    | .fatal w => .fatal w
    | .deep => .deep

/-- What a setup function does, one thing after the other; `load` is the work of one name on a `load` line. -/
def runActs (load : LdSt → Bool → Str → LdOut LdSt) (o : Option Nat) : LdSt → List LdAct → LdOut LdSt
  | st, [] => .ok st
  | st, .reg name min max :: as =>
    if fnAllowed name min max then runActs load o { st with fns := (name, o) :: st.fns } as else .fatal (.badFunction name)
  | st, .load noerror names :: as =>
    match loadNames load noerror st names with
    | .ok st' => runActs load o st' as
    | .fatal w => .fatal w
    | .deep => .deep

/-- The new value of `.LOADED` (load.c 217-226). -/
def addLoaded (value obj : Str) : Str := if value = [] then obj else value ++ ' ' :: obj

/-- The end of `load_file` once the function is known (load.c 212-227); `value` is `.LOADED` as it was before the call.
The result of the function comes with the state. -/
def callSetup (env : DlEnv) (load : LdSt → Bool → Str → LdOut LdSt) (value obj sym : Str) (st : LdSt) (o : Option Nat) :
    LdOut (LdSt × Int) :=
  match runActs load o { st with calls := st.calls ++ [(o, sym)] } (env.setup st.calls o sym).1 with
  | .ok st' =>
    if (env.setup st.calls o sym).2 > 0 ∧ st'.pinned = false then
      .ok ({ st' with value := addLoaded value obj }, (env.setup st.calls o sym).2)
    else .ok (st', (env.setup st.calls o sym).2)
  | .fatal w => .fatal w
  | .deep => .deep

/-- `load_file` (load.c 121-232): the state, the result and the name of the object. -/
def loadFile (env : DlEnv) (load : LdSt → Bool → Str → LdOut LdSt) (st : LdSt) (noerror : Bool) (name : Str) :
    LdOut (LdSt × Int × Str) :=
  match splitLoad name with
  | none => .fatal (.emptySymbol name)
  | some (obj, sym) =>
    if isLoaded st.value obj then .ok (st, 1, obj)
    else
      match loadObject env noerror st obj (sym.getD (madeSym obj)) with
      | .fatal w => .fatal w
      | .deep => .deep
      | .ok (st1, none) => .ok (st1, 0, obj)
      | .ok (st1, some o) =>
        match callSetup env load st.value obj (sym.getD (madeSym obj)) st1 o with
        | .ok (st2, r) => .ok (st2, r, obj)
        | .fatal w => .fatal w
        | .deep => .deep

/-- One name on a `load` line (read.c 983-1011), with at most `n` loads inside each other. -/
def loadName (env : DlEnv) : Nat → LdSt → Bool → Str → LdOut LdSt
  | 0, _, _, _ => .deep
  | n + 1, st, noerror, name =>
    match loadFile env (loadName env n) st noerror name with
    | .fatal w => .fatal w
    | .deep => .deep
    | .ok (st', r, obj) =>
      if r = 0 ∧ noerror = false then .fatal (.failed obj)
      else if r = -1 then .ok st'
      else .ok { st' with todo := obj :: st'.todo }

/-- `unload_file` (load.c 234-247): the first entry of that name which is open is closed.  `dlclose` gives up one opening. -/
def closeFirst (name : Str) : List (Str × Option Nat) → List (Str × Option Nat) × Option Nat
  | [] => ([], none)
  | (nm, some o) :: t => if nm = name then ((nm, none) :: t, some o) else
    ((nm, some o) :: (closeFirst name t).1, (closeFirst name t).2)
  | (nm, none) :: t => ((nm, none) :: (closeFirst name t).1, (closeFirst name t).2)

/-- `unload_file` on the state; the linker keeps an object while it is open once more, so the last opening is dropped. -/
def unloadFile (st : LdSt) (name : Str) : LdSt :=
  match (closeFirst name st.table).2 with
  | none => st
  | some o => { st with
      table := (closeFirst name st.table).1
      opened := (st.opened.reverse.erase o).reverse }

/-- What a history does: a `load` or `-load` line with its names, or the start of the recipe of a loaded object
(commands.c 573-574). -/
inductive LdEv where
  | line (noerror : Bool) (names : List Str)
  | remake (name : Str)
deriving DecidableEq, Repr

/-- One event, with at most `n` loads inside each other. -/
def ldStep (env : DlEnv) (n : Nat) (st : LdSt) : LdEv → LdOut LdSt
  | .line noerror names => loadNames (loadName env n) noerror st names
  | .remake name => .ok (unloadFile st name)

/-- A history. -/
def ldRun (env : DlEnv) (n : Nat) : LdSt → List LdEv → LdOut LdSt
  | st, [] => .ok st
  | st, e :: es =>
    match ldStep env n st e with
    | .ok st' => ldRun env n st' es
    | .fatal w => .fatal w
    | .deep => .deep

/-- The state in which make starts (main.c 1259). -/
def ldStart : LdSt := ⟨[], false, [], [], [], [], [], []⟩

/-- What a use of a function gives: it is not one an object added; code of the object that is called; or a call into an object
that is not there (undefined behaviour). -/
inductive FnUse where
  | other
  | called (o : Option Nat)
  | ub
deriving DecidableEq, Repr

/-- `lookup_function` (function.c 269-285) for the functions of objects, and the call; `text` is what follows `$(`.  The table
holds lengths in one byte; `hash_insert` replaces an entry of the same name, so the newest counts. -/
def useFn (st : LdSt) (text : Str) : FnUse :=
  let name := text.takeWhile isUserFunc
  let rest := text.dropWhile isUserFunc
  if name = [] ∨ rest.head?.all isSpace = false then .other
  else
    match st.fns.find? fun e => e.1 == name.take (name.length % 256) with
    | none => .other
    | some (_, none) => .called none
    | some (_, some o) => if o ∈ st.opened then .called (some o) else .ub

end Remake
