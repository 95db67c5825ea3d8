import Verif.Debugger.Model
/-!
# The stack of targets

Models `trace_push_target` and `trace_pop_target` (src/trace.c 44-95), the calls of them by `update_file_1`
(remake.c 432, 459, 470, 474, 710, 731, 841, 874, 897) and the uses of the stack: stops of the debugger
(remake.c 439, 505, 703, 873, 895; libdebugger/cmd.c 302), commands of recipes (job.c 1217-1219) and the function
`debugger` (function.c 1351-1358).

Every call of `update_file_1` has its own `p_call_stack`; the calls that are going on are a list here.  The copy of the
target that a node has is its number.  Profiling is left out.
-/
namespace Remake

/-- `target_stack_node_t` (trace.h 79-84): the target, and the node of the target that needs it. -/
structure TNode where
  target : Nat
  parent : Option Nat
deriving DecidableEq, Repr

/-- The nodes, which of them are allocated, the global `p_stack_top` (trace.c 39), and `p_call_stack` of each call of
`update_file_1` that is going on, the innermost first. -/
structure TState where
  node : Nat → TNode
  alive : Nat → Bool
  count : Nat
  top : Option Nat
  calls : List Nat

/-- Before any target is looked at. -/
def TState.init : TState := ⟨fun _ => ⟨0, none⟩, fun _ => false, 0, none, []⟩

/-- What happens in a run: a target is looked at; this ends, `popped` tells whether `trace_pop_target` is called (it is not
when the target has failed before, remake.c 443-456); the debugger stops in the course of it; a command of the recipe of
some target is started; the function `debugger` is called. -/
inductive TEvent where
  | enter (t : Nat)
  | leave (popped : Bool)
  | stop
  | command (t : Nat)
  | called
deriving DecidableEq, Repr

/-- The targets on the stack from a node on (`print_target_stack`, print.c; stack.c 41-44).  `none`: a node is read that is
freed. -/
def walkStack (s : TState) : Nat → Option Nat → Option (List Nat)
  | _, none => some []
  | 0, some _ => none
  | fuel + 1, some i =>
    if s.alive i then (walkStack s fuel (s.node i).parent).map ((s.node i).target :: ·) else none

/-- `trace_push_target` (trace.c 45-80) and the assignment at its call (remake.c 432). -/
def pushTarget (s : TState) (t : Nat) : TState :=
  { node := fun i => if i = s.count then ⟨t, s.calls.head?⟩ else s.node i
    alive := fun i => if i = s.count then true else s.alive i
    count := s.count + 1
    top := some s.count
    calls := s.count :: s.calls }

/-- `trace_pop_target` (trace.c 83-95) for the innermost call, and its return.  `none`: freed twice. -/
def popTarget (s : TState) (popped : Bool) : Option TState :=
  match s.calls with
  | [] => some s
  | i :: cs =>
    if popped then
      if s.alive i then some { s with alive := fun j => if j = i then false else s.alive j, calls := cs } else none
    else some { s with calls := cs }

/-- One event; at a stop also the stack that the debugger sees: with the target that the stop is for, if that is known from
another place. -/
def tstep (s : TState) : TEvent → Option (TState × List (Option Nat × List Nat))
  | .enter t => some (pushTarget s t, [])
  | .leave p => (popTarget s p).map fun s => (s, [])
  | .stop =>
    let s := { s with top := s.calls.head? }
    (walkStack s (s.count + 1) s.top).map fun st => (s, [(none, st)])
  | .command t =>
    let s := { s with top := s.calls.head? }
    (walkStack s (s.count + 1) s.top).map fun st => (s, [(some t, st)])
  | .called => (walkStack s (s.count + 1) s.top).map fun st => (s, [(none, st)])

/-- A run: what is seen at the stops; `none` if freed memory is used. -/
def trun (s : TState) : List TEvent → Option (TState × List (Option Nat × List Nat))
  | [] => some (s, [])
  | e :: es =>
    match tstep s e with
    | none => none
    | some r => (trun r.1 es).map fun r' => (r'.1, r.2 ++ r'.2)

end Remake
