import Verif.Base.Chars

/-!
# Model: the kinds of messages asked for

`decode_debug_flags` (main.c 680-740), `decode_trace_flags` (main.c 571-595), `decode_verbosity_flags` (main.c 597-615), the
treatment of the debugger's options (main.c 1438-1497) and the order in which `main` calls them (main.c 1350-1378, 1435-1497,
1877-1885, 2831-2833).  `db_level` is the set of its bits (debug.h 30-50).  Left out: `verify_flag` (main.c 735-736) and the
signal that toggles the level (main.c 672-678).
-/

namespace Remake

/-- The bits of `db_level` (debug.h 30-50); two bits of `DB_ALL` have no name. -/
inductive Lv where
  | basic | verbose | jobs | implicit | trace | shell | bit6 | bit7 | makefiles | readMakefiles | call | updateGoal
  deriving DecidableEq, Repr

/-- All bits (debug.h 49). -/
def Lv.all : List Lv :=
  [.basic, .verbose, .jobs, .implicit, .trace, .shell, .bit6, .bit7, .makefiles, .readMakefiles, .call, .updateGoal]

/-- `db_level`. -/
abbrev Lvs := Lv → Bool

/-- `db_level |= ...`. -/
def Lvs.add (lv : Lvs) (ls : List Lv) : Lvs := fun l => lv l || decide (l ∈ ls)

/-- `DB_NONE`. -/
def Lvs.none : Lvs := fun _ => false

/-- The bits that are set. -/
def Lvs.list (lv : Lvs) : List Lv := Lv.all.filter lv

/-- `tolower` of an ASCII character (main.c 695). -/
def lvLower (c : Char) : Char := if 'A' ≤ c ∧ c ≤ 'Z' then Char.ofNat (c.toNat + 32) else c

/-- One letter of a `--debug` option (main.c 695-721); `none` is the fatal error. -/
def dbLetter (c : Char) (lv : Lvs) : Option Lvs :=
  if lvLower c = 'a' then some (lv.add Lv.all)
  else if lvLower c = 'b' then some (lv.add [.basic])
  else if lvLower c = 'i' then some (lv.add [.basic, .implicit])
  else if lvLower c = 'j' then some (lv.add [.jobs])
  else if lvLower c = 'm' then some (lv.add [.basic, .makefiles])
  else if lvLower c = 'n' then some Lvs.none
  else if lvLower c = 'v' then some (lv.add [.basic, .verbose])
  else none

/-- A separator (main.c 724). -/
def lvSep (c : Char) : Bool := c == ',' || c == ' '

/-- One argument of `--debug` (main.c 691-732). -/
def dbString (p : Str) (lv : Lvs) : Option Lvs :=
  match p with
  | [] => none
  | c :: r =>
    match dbLetter c lv with
    | none => none
    | some lv' =>
      match _h : r.dropWhile (fun d => !lvSep d) with
      | [] => some lv'
      | _ :: q => if q = [] then some lv' else dbString q lv'
termination_by p.length
decreasing_by
  have := (List.dropWhile_sublist (l := r) (fun d => !lvSep d)).length_le
  rw [_h] at this
  simp at this ⊢
  omega

/-- All arguments of `--debug` (main.c 688-733). -/
def dbStrings : List Str → Lvs → Option Lvs
  | [], lv => some lv
  | p :: ps, lv => (dbString p lv).bind (dbStrings ps)

/-- What `decode_debug_flags` looks at and changes: `debug_flag` (`-d`), `db_flags` and `db_level` (main.c 680-740). -/
structure LvSt where
  dflag : Bool
  flags : List Str
  lv : Lvs

/-- `decode_debug_flags` (main.c 680-740). -/
def decodeDebug (s : LvSt) : Option LvSt :=
  (dbStrings s.flags (if s.dflag then fun _ => true else s.lv)).map fun lv =>
    { s with
      lv := lv
      dflag := s.dflag && Lv.all.any lv }

/-- Options read by `decode_switches`: whether there was a `-d`, the arguments of `--debug` (main.c 2699-2759), and the decoding at the
end (main.c 2832). -/
def lvPass (d : Bool) (fs : List Str) (s : LvSt) : Option LvSt :=
  decodeDebug { s with
    dflag := s.dflag || d
    flags := s.flags ++ fs }

/-- One argument of `--trace` (main.c 580-593). -/
def traceOne (o : Str) (lv : Lvs) : Option Lvs :=
  if o = "command".toList then some lv
  else if o = "full".toList then some (lv.add [.verbose, .readMakefiles])
  else if o = "normal".toList then some (lv.add [.basic])
  else if o = "noshell".toList then some (Lvs.none.add [.basic, .trace])
  else if o = "read".toList then some (lv.add [.readMakefiles])
  else none

/-- The arguments of `--trace` one after the other (main.c 580-593). -/
def traceAll : List Str → Lvs → Option Lvs
  | [], lv => some lv
  | o :: os, lv => (traceOne o lv).bind (traceAll os)

/-- `decode_trace_flags` (main.c 571-595); the list is empty if the option was not given, since the option without argument counts
as `normal` (main.c 434). -/
def decodeTrace (os : List Str) (lv : Lvs) : Option Lvs :=
  if os = [] then some lv else traceAll os (lv.add [.trace, .shell])

/-- `decode_verbosity_flags` (main.c 597-615): the level and `b_show_version`. -/
def decodeVerbosity : List Str → Lvs × Bool → Lvs × Bool
  | [], s => s
  | o :: os, (lv, v) => decodeVerbosity os
      (if o = "no-header".toList then (lv, false)
       else if o = "full".toList then (lv.add [.verbose], true)
       else if o = "terse".toList then ((fun l => lv l && decide (l ≠ .verbose)), false)
       else (lv, v))

/-- What the options of the debugger set (main.c 1438-1490): `debugger_enabled`, `i_debugger_stepping`, `b_debugger_preread`,
`b_debugger_goal`, `debugger_on_error` for errors and for fatal errors, and `db_level`.  The number of jobs set there is
overwritten (main.c 1947-1952). -/
structure DbgStart where
  enabled : Bool := false
  stepping : Bool := false
  preread : Bool := false
  goal : Bool := false
  onError : Bool := false
  onFatal : Bool := false
  lv : Lvs := Lvs.none

/-- `--post-mortem` and `--debugger` (main.c 1439-1454). -/
def dbgFlags (postMortem debugger : Bool) (s : DbgStart) : DbgStart :=
  if postMortem then
    { s with
      onError := true
      onFatal := true
      enabled := true }
  else if debugger then
    { s with
      preread := false
      stepping := true
      enabled := true
      lv := s.lv.add [.basic, .call, .shell, .updateGoal, .makefiles] }
  else s

/-- One argument of `--debugger-stop` (main.c 1458-1489).  In `db_level |= A | B | goal ? 0 : C | D` (1479-1481) the condition is
all of `A | B | goal`, which is not zero, so nothing is added. -/
def dbgStop (o : Str) (s : DbgStart) : DbgStart :=
  let s := if o = "preread".toList then
      { s with
        preread := true
        lv := s.lv.add [.readMakefiles] }
    else s
  let s := if o = "goal".toList then
      { s with
        goal := true
        lv := s.lv.add [.updateGoal] }
    else s
  let s := if o = "full".toList ∨ s.preread = true ∨ s.goal = true ∨ o = "preaction".toList then
      { s with
        stepping := true
        enabled := true }
    else s
  if o = "full".toList ∨ s.goal = true ∨ o = "error".toList then
    { s with
      onError := true
      onFatal := true }
  else if o = "fatal".toList then { s with onFatal := true }
  else s

/-- The options about messages, as they are after the command line has been read. -/
structure LvOpts where
  envD : Bool := false
  envFlags : List Str := []
  d : Bool := false
  flags : List Str := []
  trace : List Str := []
  verbosity : List Str := []

/-- The level while makefiles are read: options of the environment, options of the command line, `--trace`, `--verbosity`
(main.c 1351-1378, 1435-1436).  The options of the debugger are left out here. -/
def lvReading (o : LvOpts) : Option LvSt :=
  ((lvPass o.envD o.envFlags ⟨false, [], Lvs.none⟩).bind (lvPass o.d o.flags)).bind fun s =>
    (decodeTrace o.trace s.lv).map fun lv => { s with lv := (decodeVerbosity o.verbosity (lv, true)).1 }

/-- The level while targets are made: `MAKEFLAGS` is decoded again if it is not empty (main.c 1877-1883, 2862-2865), which adds the
options `d`, `fs` it has. -/
def lvMaking (o : LvOpts) (again : Bool) (d : Bool) (fs : List Str) : Option LvSt :=
  (lvReading o).bind fun s => if again then lvPass d fs s else some s

end Remake
