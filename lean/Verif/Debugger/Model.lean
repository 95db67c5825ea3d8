import Verif.Base.Chars
/-!
# The debugger: breakpoints, frames, command lines

Models `libdebugger/break.c` 29-145, `libdebugger/stack.c` 28-118, `libdebugger/fns.c` 68-71,
139-158, 237-247 and 365-382, `libdebugger/cmd.c` 94-158, `libdebugger/cmd_initialize.h` 63-110
and 346-379, and the loop of `libdebugger/command/delete.c` 33-59.
Messages are left out.
-/
namespace Remake

/-! ## Breakpoints -/

/-- `struct breakpoint_node` (break.c 29-35); targets are numbered. -/
structure BpNode where
  target : Nat
  num : Nat
  mask : Nat
  next : Option Nat
deriving DecidableEq, Repr

/-- The heap of nodes, `p_breakpoint_top`, `p_breakpoint_bottom`, `i_breakpoints` (break.c 37-41)
and the field `tracing` of the targets.  A freed node is `none`; addresses are not reused. -/
structure BpState where
  heap : Nat → Option BpNode
  fresh : Nat
  top : Option Nat
  bottom : Option Nat
  count : Nat
  tracing : Nat → Nat

/-- The state at the start. -/
def BpState.init : BpState := ⟨fun _ => none, 0, none, none, 0, fun _ => 0⟩

/-- Writing a node. -/
def BpState.store (st : BpState) (a : Nat) (n : Option BpNode) : BpState :=
  { st with heap := fun b => if b = a then n else st.heap b }

/-- `p->p_next = q`; `none` if `p` is not a live node. -/
def BpState.setNext (st : BpState) (a : Nat) (q : Option Nat) : Option BpState :=
  (st.heap a).map fun n => st.store a (some { n with next := q })

/-- `add_breakpoint` (break.c 46-95); memory does not run out.  `none`: a pointer that is not
valid is followed. -/
def addBreakpoint (st : BpState) (target mask : Nat) : Option BpState :=
  let a := st.fresh
  let st := { (st.store a (some ⟨0, 0, 0, none⟩)) with fresh := a + 1 }
  let st? : Option BpState :=
    match st.top with
    | none => some { st with top := some a, bottom := some a }
    | some _ =>
      match st.bottom with
      | none => none
      | some b => st.setNext b (some a)
  st?.map fun st =>
    let num := (st.count + 1) % 2 ^ 32
    let st := st.store a (some ⟨target, num, mask, none⟩)
    { st with bottom := some a, count := num,
              tracing := fun t => if t = target then mask else st.tracing t }

/-- The search of `remove_breakpoint` (break.c 113-116): `p_prev` and `p`.  The first `none`: a
pointer that is not valid is followed, or the list has no end (the loop is bounded by the
fuel). -/
def findBp (heap : Nat → Option BpNode) (i : Nat) : (fuel : Nat) → (prev p : Option Nat) →
    Option (Option Nat × Option Nat)
  | 0, _, _ => none
  | _ + 1, prev, none => some (prev, none)
  | fuel + 1, prev, some a =>
    match heap a with
    | none => none
    | some n => if n.num = i then some (prev, some a) else findBp heap i fuel (some a) n.next

/-- `remove_breakpoint` (break.c 100-145): the state afterwards and the value returned. -/
def removeBreakpoint (st : BpState) (i : Nat) : Option (BpState × Bool) :=
  if i = 0 then some (st, false)
  else if st.count < i then some (st, false)
  else
    match findBp st.heap i (st.fresh + 1) none st.top with
    | none => none
    | some (_, none) => some (st, false)
    | some (prev, some p) =>
      match st.heap p with
      | none => none
      | some n =>
        let st := if n.next = none then { st with bottom := prev } else st
        let st := if st.top = some p then { st with top := n.next } else st
        let st? := match prev with
          | none => some st
          | some q => st.setNext q n.next
        st?.map fun st =>
          let traced := st.tracing n.target ≠ 0
          let st := if traced then
              { st with tracing := fun t => if t = n.target then 0 else st.tracing t }
            else st
          (st.store p none, decide traced)

/-- `list_breakpoints` (break.c 147-171): the nodes printed. -/
def listBreakpoints (heap : Nat → Option BpNode) : (fuel : Nat) → Option Nat → Option (List BpNode)
  | 0, _ => none
  | _ + 1, none => some []
  | fuel + 1, some a =>
    match heap a with
    | none => none
    | some n => (listBreakpoints heap fuel n.next).map (n :: ·)

/-- `delete` without arguments (command/delete.c 39-47). -/
def deleteFrom (st : BpState) (i : Nat) : (n : Nat) → Option BpState
  | 0 => some st
  | n + 1 =>
    match removeBreakpoint st i with
    | none => none
    | some (st, _) => deleteFrom st (i + 1) n

/-- A debugger command that concerns breakpoints. -/
inductive BpCmd where
  | break_ (target mask : Nat)
  | delete (i : Nat)
  | deleteAll
deriving DecidableEq, Repr

/-- The effect of a command (command/break.c, command/delete.c 33-59). -/
def BpCmd.run (st : BpState) : BpCmd → Option BpState
  | .break_ t m => addBreakpoint st t m
  | .delete i => (removeBreakpoint st i).map (·.1)
  | .deleteAll => deleteFrom st 1 st.count

/-! ## Frames -/

/-- `i_stack_pos` and `p_stack` (stack.c 28-34): the number of the node counted from the top. -/
structure FrameState where
  pos : Int
  cur : Option Nat
deriving DecidableEq, Repr

/-- Result of `dbg_adjust_frame`. -/
inductive FrameRes where
  /-- `debug_readloop` -/
  | moved (st : FrameState)
  /-- `debug_cmd_error` -/
  | error (st : FrameState)
  /-- Overflow of an `int`. -/
  | undef
deriving DecidableEq, Repr

/-- Conversion of an `unsigned int` to `int`. -/
def toInt32 (x : Int) : Int := (x + 2 ^ 31) % 2 ^ 32 - 2 ^ 31

/-- `dbg_adjust_frame` (stack.c 58-118) with `dbg_stack_size` (stack.c 37-55), which also moves
`p_stack`.  `targets` is the length of the target stack, `flocs` that of the makefile stack. -/
def adjustFrame (targets flocs : Nat) (st : FrameState) (amount : Int) (absolute : Bool) : FrameRes :=
  let st := if absolute ∧ amount < 0 ∧ 0 < targets then { st with cur := none } else st
  let try_ :=
    if absolute then
      if amount < 0 then toInt32 ((if 0 < targets then targets else flocs) + amount) else amount
    else st.pos + amount
  if ¬ (-2 ^ 31 ≤ try_ ∧ try_ < 2 ^ 31) then .undef
  else if try_ < 0 then .error st
  else if try_ + 1 = 2 ^ 31 then .undef
  else if 0 < targets then
    if try_ < targets then .moved ⟨try_, some try_.toNat⟩
    else .error { st with cur := none }
  else if 0 < flocs then
    if try_ < flocs then .moved { st with pos := try_ } else .error st
  else .moved st

/-! ## Command lines -/

/-- `whitespace` (fns.c 69-71, from readline). -/
def isWhite (c : Char) : Bool := c == ' ' || c == '\t'

/-- `stripwhite` (fns.c 365-382). -/
def stripwhite (s : Str) : Str :=
  let s := s.dropWhile isWhite
  (s.reverse.dropWhile isWhite).reverse

/-- The first loop of `get_word` (fns.c 144-146) on the first character: it does not advance the
pointer but increments the character, so a blank becomes `!` and a tab a newline. -/
def bumpBlank (s : Str) : Str :=
  match s with
  | [] => []
  | c :: cs => if isWhite c then Char.ofNat (c.toNat + 1) :: cs else c :: cs

/-- `get_word` (fns.c 139-158): the word and what `*ppsz_str` points to afterwards. -/
def getWord (s : Str) : Str × Str :=
  let s := bumpBlank s
  (s.takeWhile (fun c => !isWhite c), (s.dropWhile (fun c => !isWhite c)).drop 1)

theorem getWord_length (s : Str) (h : (getWord s).1 ≠ []) : (getWord s).2.length < s.length := by
  have hb : (bumpBlank s).length = s.length := by
    cases s with
    | nil => rfl
    | cons c cs => simp only [bumpBlank]; split <;> rfl
  have hl : ((bumpBlank s).takeWhile (fun c => !isWhite c)).length +
      ((bumpBlank s).dropWhile (fun c => !isWhite c)).length = s.length := by
    rw [← List.length_append, List.takeWhile_append_dropWhile, hb]
  simp only [getWord] at h ⊢
  have : 0 < ((bumpBlank s).takeWhile (fun c => !isWhite c)).length :=
    List.length_pos_iff.mpr h
  rw [List.length_drop]
  omega

/-- The words that a command with several arguments goes through (command/delete.c 49-55,
command/break.c): until an empty one. -/
def readWords (s : Str) : List Str :=
  if h : (getWord s).1 = [] then [] else (getWord s).1 :: readWords (getWord s).2
termination_by s.length
decreasing_by exact getWord_length s h

/-- `is_abbrev_of` (fns.c 237-247): `strstr` finds the first occurrence; it has to be at the
start. -/
def strstrAt (hay needle : Str) : Option Str :=
  if needle.isPrefixOf hay then some hay
  else
    match hay with
    | [] => none
    | _ :: cs => strstrAt cs needle

/-- `is_abbrev_of` (fns.c 237-247). -/
def isAbbrevOf (sub word : Str) (min : Nat) : Bool :=
  if sub.length < min then false
  else
    match strstrAt word sub with
    | none => false
    | some p => p.length == word.length

/-- `strcmp`: the difference of the first characters that differ. -/
def dbgCmp : Str → Str → Int
  | [], [] => 0
  | [], d :: _ => -(d.toNat : Int)
  | c :: _, [] => c.toNat
  | c :: cs, d :: ds => if c = d then dbgCmp cs ds else (c.toNat : Int) - d.toNat

/-- The search of `find_command` in a table (cmd.c 99-108, 110-118): it ends when the name comes
before the entry. -/
def sortedFind {α} (name : Str) (key : α → Str) : List α → Option α
  | [] => none
  | e :: es =>
    if dbgCmp name (key e) = 0 then some e
    else if dbgCmp name (key e) < 0 then none
    else sortedFind name key es

/-- `dbg_commands` (cmd_initialize.h 63-96). -/
def dbgCommands : List (Str × Char) :=
  [("break".toList, 'b'), ("cd".toList, 'C'), ("comment".toList, '#'), ("continue".toList, 'c'),
   ("delete".toList, 'd'), ("down".toList, 'D'), ("edit".toList, 'e'), ("expand".toList, 'x'),
   ("finish".toList, 'F'), ("frame".toList, 'f'), ("help".toList, 'h'), ("info".toList, 'i'),
   ("list".toList, 'l'), ("load".toList, 'M'), ("next".toList, 'n'), ("print".toList, 'p'),
   ("pwd".toList, 'P'), ("quit".toList, 'q'), ("run".toList, 'R'), ("set".toList, '='),
   ("setq".toList, '"'), ("setqx".toList, '`'), ("shell".toList, '!'), ("show".toList, 'S'),
   ("skip".toList, 'k'), ("source".toList, '<'), ("step".toList, 's'), ("target".toList, 't'),
   ("up".toList, 'u'), ("where".toList, 'T'), ("write".toList, 'w')]

/-- `aliases` (cmd_initialize.h 100-110): command and alias. -/
def dbgAliases : List (Str × Str) :=
  [("shell".toList, "!!".toList), ("help".toList, "?".toList), ("break".toList, "L".toList),
   ("where".toList, "backtrace".toList), ("where".toList, "bt".toList), ("quit".toList, "exit".toList),
   ("run".toList, "restart".toList), ("quit".toList, "return".toList)]

/-- The letters for which `cmd_initialize` (cmd_initialize.h 346-379) sets a function. -/
def dbgLetters : List Char :=
  ['b', 'C', '#', 'c', 'd', 'D', 'e', 'x', 'F', 'f', 'h', 'i', 'l', 'M', 'n', 'p', 'P', 'q', 'R', '=',
   '"', '`', '!', 'S', 'k', '<', 's', 't', 'u', 'T', 'w']

/-- `find_command` (cmd.c 94-121): the index into `short_command`. -/
def findCommand (name : Str) : Option Char :=
  let name := match sortedFind name (·.2) dbgAliases with
    | some e => e.1
    | none => name
  (sortedFind name (·.1) dbgCommands).map (·.2)

/-- The choice of the command and of its argument in `execute_line` (cmd.c 127-158), on a line
that has gone through `stripwhite` (cmd.c 383). -/
def executeLine (line : Str) : Option Char × Str :=
  let w := getWord (stripwhite line)
  let cmd := match w.1 with
    | [c] => if c ∈ dbgLetters then some c else none
    | name => findCommand name
  (cmd, w.2.dropWhile isWhite)

end Remake
