import Verif.Var.Model
import Verif.Text.Model
/-!
# Expansion of variable references and function calls

Models `src/expand.c`: `variable_buffer_output` 55-72, `recursively_expand_for_file` 95-152,
`reference_variable` 159-182, `variable_expand_string` 193-407, `expand_argument` 429-454,
`variable_append` 503-543; `src/function.c`: `lookup_function` 269-285, `find_next_argument` 324-349,
`func_foreach` 794-840, `func_if`, `func_or`, `func_and` 1165-1306, `func_value` 1360-1371, the
function table 2173-2217, `expand_builtin_function` 2224-2260, `handle_function` 2267-2381 and
`func_call` 2388-2478.

Simplifications.  The functions that neither expand anything nor open a scope are one
parameter (their text processing is the subject of `Verif.Text`).  `$(eval)` belongs to
them, so variables do not change during an expansion.  Text has no NUL bytes.  Recursion
is as deep as a parameter, the fuel, allows; `deep` is the outcome when it is used up (the C
program would go on until its stack is exhausted).  Error positions, warnings about
undefined variables, the memory of the buffers (but see `Buf`) and functions loaded from
shared objects are left out; the build is without EXPERIMENTAL.
-/
namespace Remake

/-- The state of an expansion: the sets of `current_variable_set_list` with `next_is_parent`,
`max_args` of `func_call` (function.c 2391), and for every variable the fields `expanding` and
`exp_count` (variable.h 70-75).  A variable is named by the number of sets that follow its own
and its name. -/
structure XState where
  chain : List (VarSet × Bool)
  maxArgs : Nat
  expanding : Nat × Str → Bool
  count : Nat × Str → Nat

/-- Outcome of an expansion. -/
inductive XRes (α : Type) where
  | ok (out : α) (st : XState)
  /-- make exits with an error message. -/
  | fatal
  /-- The fuel is used up. -/
  | deep

/-- Sequencing. -/
def XRes.bind {α β} (r : XRes α) (k : α → XState → XRes β) : XRes β :=
  match r with
  | .ok a st => k a st
  | .fatal => .fatal
  | .deep => .deep

/-- `EXP_COUNT_MAX` (variable.h 53-54). -/
def expCountMax : Nat := 2 ^ 15 - 1

/-! ## Reading references -/

/-- What a function does beside producing text. -/
inductive FnKind where
  | foreach | call | if_ | or_ | and_ | value | other
deriving DecidableEq, Repr

/-- `struct function_table_entry` (function.c 30-41). -/
structure FnEntry where
  name : Str
  min : Nat
  max : Nat
  expandArgs : Bool
  kind : FnKind
deriving DecidableEq, Repr

/-- The function table (function.c 2173-2217). -/
def fnTable : List FnEntry :=
  [⟨"abspath".toList, 0, 1, true, .other⟩, ⟨"addprefix".toList, 2, 2, true, .other⟩,
   ⟨"addsuffix".toList, 2, 2, true, .other⟩, ⟨"basename".toList, 0, 1, true, .other⟩,
   ⟨"dir".toList, 0, 1, true, .other⟩, ⟨"notdir".toList, 0, 1, true, .other⟩,
   ⟨"subst".toList, 3, 3, true, .other⟩, ⟨"suffix".toList, 0, 1, true, .other⟩,
   ⟨"filter".toList, 2, 2, true, .other⟩, ⟨"filter-out".toList, 2, 2, true, .other⟩,
   ⟨"findstring".toList, 2, 2, true, .other⟩, ⟨"firstword".toList, 0, 1, true, .other⟩,
   ⟨"flavor".toList, 0, 1, true, .other⟩, ⟨"join".toList, 2, 2, true, .other⟩,
   ⟨"lastword".toList, 0, 1, true, .other⟩, ⟨"patsubst".toList, 3, 3, true, .other⟩,
   ⟨"realpath".toList, 0, 1, true, .other⟩, ⟨"shell".toList, 0, 1, true, .other⟩,
   ⟨"sort".toList, 0, 1, true, .other⟩, ⟨"strip".toList, 0, 1, true, .other⟩,
   ⟨"wildcard".toList, 0, 1, true, .other⟩, ⟨"word".toList, 2, 2, true, .other⟩,
   ⟨"wordlist".toList, 3, 3, true, .other⟩, ⟨"words".toList, 0, 1, true, .other⟩,
   ⟨"origin".toList, 0, 1, true, .other⟩, ⟨"foreach".toList, 3, 3, false, .foreach⟩,
   ⟨"call".toList, 1, 0, true, .call⟩, ⟨"info".toList, 0, 1, true, .other⟩,
   ⟨"error".toList, 0, 1, true, .other⟩, ⟨"warning".toList, 0, 1, true, .other⟩,
   ⟨"if".toList, 2, 3, false, .if_⟩, ⟨"or".toList, 1, 0, false, .or_⟩,
   ⟨"and".toList, 1, 0, false, .and_⟩, ⟨"value".toList, 0, 1, true, .value⟩,
   ⟨"eval".toList, 0, 1, true, .other⟩, ⟨"file".toList, 1, 2, true, .other⟩,
   ⟨"debugger".toList, 0, 1, true, .other⟩]

/-- `lookup_function` (function.c 269-285): the length of the name is kept in one byte. -/
def lookupFunction (s : Str) : Option FnEntry :=
  let name := s.takeWhile isUserFunc
  let rest := s.dropWhile isUserFunc
  if name = [] then none
  else if rest ≠ [] ∧ rest.head?.all isSpace = false then none
  else fnTable.find? fun e => e.name == name.take (name.length % 256)

/-- The search for the end of a function call (function.c 2298-2311) and of a reference with a
computed name (expand.c 275-288): the text before the matching closing character and what
follows it. -/
def findClose (opn cls : Char) : (count : Nat) → Str → Option (Str × Str)
  | _, [] => none
  | n, c :: cs =>
    if c = cls then
      match n with
      | 0 => some ([], cs)
      | n + 1 => (findClose opn cls n cs).map fun r => (c :: r.1, r.2)
    else if c = opn then (findClose opn cls (n + 1) cs).map fun r => (c :: r.1, r.2)
    else (findClose opn cls n cs).map fun r => (c :: r.1, r.2)

/-- `find_next_argument` (function.c 324-349): the text before the next comma and what follows
it.  `count` is an `int`. -/
def findNextArgument (opn cls : Char) : (count : Nat) → Str → Option (Str × Str)
  | _, [] => none
  | n, c :: cs =>
    if c = opn then (findNextArgument opn cls (n + 1) cs).map fun r => (c :: r.1, r.2)
    else if c = cls then
      match n with
      | 0 => none
      | n + 1 => (findNextArgument opn cls n cs).map fun r => (c :: r.1, r.2)
    else if c = ',' ∧ n = 0 then some ([], cs)
    else (findNextArgument opn cls n cs).map fun r => (c :: r.1, r.2)

theorem findNextArgument_length {o c : Char} {n : Nat} {s a b : Str}
    (h : findNextArgument o c n s = some (a, b)) : a.length + 1 + b.length = s.length := by
  induction s generalizing n a b with
  | nil => simp [findNextArgument] at h
  | cons x s ih =>
    have step : ∀ m, (findNextArgument o c m s).map (fun r => (x :: r.1, r.2)) = some (a, b) →
        a.length + 1 + b.length = (x :: s).length := by
      intro m hm
      cases hf : findNextArgument o c m s with
      | none => rw [hf] at hm; simp at hm
      | some r =>
        rw [hf] at hm
        simp only [Option.map_some, Option.some.injEq, Prod.mk.injEq] at hm
        obtain ⟨rfl, rfl⟩ := hm
        have := ih (a := r.1) (b := r.2) hf
        simp only [List.length_cons]
        omega
    simp only [findNextArgument] at h
    split at h
    · exact step _ h
    · split at h
      · cases n with
        | zero => simp at h
        | succ n => exact step _ h
      · split at h
        · simp only [Option.some.injEq, Prod.mk.injEq] at h
          obtain ⟨rfl, rfl⟩ := h
          simp only [List.length_nil, List.length_cons]; omega
        · exact step _ h

/-- The division of the text of a call into arguments (function.c 2329-2341, 2353-2366). -/
def splitArgs (opn cls : Char) (max n : Nat) (s : Str) : List Str :=
  if n + 1 = max then [s]
  else
    match h : findNextArgument opn cls 0 s with
    | none => [s]
    | some (a, r) => a :: splitArgs opn cls max (n + 1) r
termination_by s.length
decreasing_by have := findNextArgument_length h; omega

/-- A reference as it is read, before anything is expanded. -/
inductive Ref where
  /-- A function call. -/
  | func (e : FnEntry) (args : List Str)
  /-- A name that has to be expanded first. -/
  | computed (name : Str)
  /-- A name, perhaps with a substitution. -/
  | plain (name : Str)
  /-- The closing character is missing: fatal. -/
  | unterminated
deriving DecidableEq, Repr

/-- What is read after `$(` or `${` (expand.c 248-299 with `handle_function`, function.c
2280-2371): the reference and the text that follows it. -/
def parseRef (opn : Char) (s : Str) : Ref × Str :=
  let cls := if opn = '(' then ')' else '}'
  match lookupFunction s with
  | some e =>
    match findClose opn cls 0 (nextToken (s.drop e.name.length)) with
    | none => (.unterminated, [])
    | some (body, rest) => (.func e (splitArgs opn cls e.max 0 body), rest)
  | none =>
    let name := s.takeWhile (· ≠ cls)
    match s.dropWhile (· ≠ cls) with
    | [] => (.unterminated, [])
    | _ :: rest =>
      if '$' ∈ name then
        match findClose opn cls 0 s with
        | some (full, rest) => (.computed full, rest)
        -- unmatched brackets inside: the scan has run to the end of the text
        | none => (.plain name, [])
      else (.plain name, rest)

/-- A piece of the text to be expanded. -/
inductive Tok where
  | char (c : Char)
  | var (c : Char)
  | ref (r : Ref)
deriving DecidableEq, Repr

theorem findClose_length {o c : Char} {n : Nat} {s a b : Str}
    (h : findClose o c n s = some (a, b)) : a.length + 1 + b.length = s.length := by
  induction s generalizing n a b with
  | nil => simp [findClose] at h
  | cons x s ih =>
    have step : ∀ m, (findClose o c m s).map (fun r => (x :: r.1, r.2)) = some (a, b) →
        a.length + 1 + b.length = (x :: s).length := by
      intro m hm
      cases hf : findClose o c m s with
      | none => rw [hf] at hm; simp at hm
      | some r =>
        rw [hf] at hm
        simp only [Option.map_some, Option.some.injEq, Prod.mk.injEq] at hm
        obtain ⟨rfl, rfl⟩ := hm
        have := ih (a := r.1) (b := r.2) hf
        simp only [List.length_cons]
        omega
    simp only [findClose] at h
    split at h
    · cases n with
      | zero =>
        simp only [Option.some.injEq, Prod.mk.injEq] at h
        obtain ⟨rfl, rfl⟩ := h
        simp only [List.length_nil, List.length_cons]; omega
      | succ n => exact step _ h
    · split at h
      · exact step _ h
      · exact step _ h

theorem parseRef_length (o : Char) (s : Str) : (parseRef o s).2.length ≤ s.length := by
  simp only [parseRef]
  generalize (if o = '(' then ')' else '}') = cls
  split
  · rename_i e he
    split
    · simp
    · rename_i body rest hf
      have h1 := findClose_length hf
      have h2 : (nextToken (s.drop e.name.length)).length ≤ (s.drop e.name.length).length :=
        (List.dropWhile_sublist _).length_le
      have h3 : (s.drop e.name.length).length ≤ s.length := (List.drop_sublist ..).length_le
      simp only; omega
  · split
    · simp
    · rename_i x rest hr
      have h1 : (x :: rest).length ≤ s.length := by
        rw [← hr]; exact (List.dropWhile_sublist _).length_le
      simp only [List.length_cons] at h1
      split
      · split
        · rename_i full rest' hf
          have := findClose_length hf
          simp only; omega
        · simp
      · simp only; omega

/-- The scan of `variable_expand_string` (expand.c 219-401) for references.  The test in 387
for a blank looks at the `$` itself and never holds. -/
def lex : Str → List Tok
  | [] => []
  | c :: r =>
    if c = '$' then
      match r with
      | [] => [.char '$']
      | d :: r' =>
        if d = '$' then .char '$' :: lex r'
        else if d = '(' ∨ d = '{' then .ref (parseRef d r').1 :: lex (parseRef d r').2
        else .var d :: lex r'
    else .char c :: lex r
termination_by s => s.length
decreasing_by
  all_goals simp only [List.length_cons]
  · omega
  · have := parseRef_length d r'; omega
  · omega
  · omega

/-! ## Evaluation -/

/-- `lookup_variable` (variable.c 493-573), with the number of the sets that follow. -/
def lookupLoc (isParent : Bool) : List (VarSet × Bool) → Str → Option (Nat × Var)
  | [], _ => none
  | (s, nip) :: rest, n =>
    match s n with
    | some v =>
      if !isParent || !v.priv then some (rest.length, v) else lookupLoc (isParent || nip) rest n
    | none => lookupLoc (isParent || nip) rest n

/-- Setting the two fields of a variable. -/
def XState.mark (st : XState) (id : Nat × Str) (expanding : Bool) : XState :=
  { st with expanding := fun i => if i = id then expanding else st.expanding i }

/-- Setting `exp_count`. -/
def XState.setCount (st : XState) (id : Nat × Str) (n : Nat) : XState :=
  { st with count := fun i => if i = id then n else st.count i }

/-- `push_new_variable_scope` (variable.c 729-746); see `C24_push_adds`. -/
def XState.push (st : XState) : XState := { st with chain := (.empty, false) :: st.chain }

/-- `pop_variable_scope` (variable.c 748-781); see `C24_scope_restores`. -/
def XState.pop (st : XState) : XState := { st with chain := st.chain.tail }

/-- `define_variable` (variable.h 242-244) of a simple automatic variable, or its new value in
`func_foreach` (function.c 820-821). -/
def XState.bindSimple (st : XState) (n value : Str) : XState :=
  match st.chain with
  | [] => st
  | (s, nip) :: rest =>
    let v : Var := { value := value, recursive := false, origin := .automatic, exportable := exportableName n }
    { st with chain := (s.put n (some v), nip) :: rest }

/-- The parts of an appending variable (expand.c 525-542), with a blank between them. -/
def appendParts (rec : XState → Str → XRes Str) (buf : Str) : List Var → XState → XRes Str
  | [], st => .ok buf st
  | v :: vs, st =>
    let buf := if buf = [] then buf else buf ++ [' ']
    if v.recursive then (rec st v.value).bind fun out st => appendParts rec (buf ++ out) vs st
    else appendParts rec (buf ++ v.value) vs st

/-- `recursively_expand_for_file` (expand.c 95-152) with `file` NULL. -/
def recursivelyExpand (rec : XState → Str → XRes Str) (st : XState) (id : Nat × Str) (v : Var) :
    XRes Str :=
  if st.expanding id = true ∧ st.count id = 0 then .fatal
  else
    let st := if st.expanding id then st.setCount id (st.count id - 1) else st
    let st := st.mark id true
    let r :=
      if v.append then appendParts rec [] (variableAppend st.chain id.2 true) st
      else rec st v.value
    r.bind fun out st => .ok out (st.mark id false)

/-- `reference_variable` (expand.c 159-182). -/
def referenceVariable (rec : XState → Str → XRes Str) (st : XState) (n : Str) : XRes Str :=
  match lookupLoc false st.chain n with
  | none => .ok [] st
  | some (i, v) =>
    if v.value = [] ∧ v.append = false then .ok [] st
    else if v.recursive then recursivelyExpand rec st (i, n) v
    else .ok v.value st

/-- A substitution reference (expand.c 336-369): pattern and replacement applied to the
value. -/
def substRefText (pat rep value : Str) : Str :=
  match findPercent pat with
  | .none p => patsubstExpandPat value (.found [] '%' p) (.found [] '%' rep)
  | p => patsubstExpandPat value p (findPercent rep)

/-- A reference by a name that is now known (expand.c 301-380). -/
def expandNamed (rec : XState → Str → XRes Str) (st : XState) (name : Str) : XRes Str :=
  let var := name.takeWhile (· ≠ ':')
  match name.dropWhile (· ≠ ':') with
  | [] => referenceVariable rec st name
  | _ :: sub =>
    let pat := sub.takeWhile (· ≠ '=')
    match sub.dropWhile (· ≠ '=') with
    | [] => referenceVariable rec st name
    | _ :: rep =>
      match lookupLoc false st.chain var with
      | none => .ok [] st
      | some (i, v) =>
        if v.value = [] then .ok [] st
        else
          (if v.recursive then recursivelyExpand rec st (i, var) v else .ok v.value st).bind
            fun value st => .ok (substRefText pat rep value) st

/-- The arguments of a function, expanded from left to right (function.c 2329-2341). -/
def expandArgs (rec : XState → Str → XRes Str) : List Str → XState → XRes (List Str)
  | [], st => .ok [] st
  | a :: as, st =>
    (rec st a).bind fun v st => (expandArgs rec as st).bind fun vs st => .ok (v :: vs) st

/-- `func_or` (function.c 1218-1252). -/
def funcOrX (rec : XState → Str → XRes Str) : List Str → XState → XRes Str
  | [], st => .ok [] st
  | a :: as, st =>
    let c := stripWhitespace a
    if c = [] then funcOrX rec as st
    else (rec st c).bind fun out st => if out = [] then funcOrX rec as st else .ok out st

/-- `func_and` (function.c 1268-1306). -/
def funcAndX (rec : XState → Str → XRes Str) : List Str → XState → XRes Str
  | [], st => .ok [] st
  | a :: as, st =>
    let c := stripWhitespace a
    if c = [] then .ok [] st
    else (rec st c).bind fun out st =>
      if out = [] then .ok [] st else if as = [] then .ok out st else funcAndX rec as st

/-- `func_if` (function.c 1165-1202). -/
def funcIfX (rec : XState → Str → XRes Str) (args : List Str) (st : XState) : XRes Str :=
  match args with
  | [] => .ok [] st
  | cond :: rest =>
    let c := stripWhitespace cond
    (if c = [] then .ok [] st else rec st c).bind fun out st =>
      match (if out = [] then rest.tail.head? else rest.head?) with
      | some a => rec st a
      | none => .ok [] st

/-- The loop of `func_foreach` (function.c 815-829): every result is followed by a blank. -/
def foreachGo (rec : XState → Str → XRes Str) (var body : Str) : List Str → XState → XRes Str
  | [], st => .ok [] st
  | w :: ws, st =>
    (rec (st.bindSimple var w) body).bind fun out st =>
      (foreachGo rec var body ws st).bind fun more st => .ok (out ++ ' ' :: more) st

/-- `func_foreach` (function.c 794-840). -/
def funcForeach (rec : XState → Str → XRes Str) (args : List Str) (st : XState) : XRes Str :=
  match args with
  | name :: list :: body :: _ =>
    (rec st name).bind fun name st => (rec st list).bind fun list st =>
      let var := tokenPrefix (nextToken name)
      (foreachGo rec var body (tokens list) (st.push.bindSimple var [])).bind fun out st =>
        .ok (killLast (!(tokens list).isEmpty) out) st.pop
  | _ => .ok [] st

/-- A number as `sprintf ("%d")` prints it. -/
def argName (i : Nat) : Str := Nat.toDigits 10 i

/-- The definition of `$(i)`, `$(i+1)`, ... (function.c 2442-2461). -/
def bindArgs : (i : Nat) → List Str → XState → XState
  | _, [], st => st
  | i, a :: as, st => bindArgs (i + 1) as (st.bindSimple (argName i) a)

/-- The user-defined part of `func_call` (function.c 2419-2477). -/
def callUser (rec : XState → Str → XRes Str) (fname : Str) (args : List Str) (st : XState) : XRes Str :=
  match lookupLoc false st.chain fname with
  | none => .ok [] st
  | some (i, v) =>
    if v.value = [] then .ok [] st
    else
      let saved := st.maxArgs
      let st' := bindArgs 0 (args ++ List.replicate (saved - args.length) []) st.push
      let st' := { st'.setCount (i, fname) expCountMax with maxArgs := max args.length saved }
      (rec st' ('$' :: '(' :: fname ++ [')'])).bind fun out st' =>
        .ok out ({ st' with maxArgs := saved }.setCount (i, fname) 0).pop

/-- `expand_builtin_function` (function.c 2224-2260) with `func_call` (2388-2478), which may
call it in turn for the arguments after the first. -/
def applyFn (ext : List (VarSet × Bool) → Str → List Str → Option Str) (rec : XState → Str → XRes Str) :
    FnEntry → List Str → XState → XRes Str
  | e, [], st => if 0 < e.min then .fatal else .ok [] st
  | e, a :: as, st =>
    if (a :: as).length < e.min then .fatal
    else
      match e.kind with
      | .foreach => funcForeach rec (a :: as) st
      | .if_ => funcIfX rec (a :: as) st
      | .or_ => funcOrX rec (a :: as) st
      | .and_ => funcAndX rec (a :: as) st
      | .value => .ok (((lookupLoc false st.chain a).map (·.2.value)).getD []) st
      | .other =>
        match ext st.chain e.name (a :: as) with
        | some out => .ok out st
        | none => .fatal
      | .call =>
        let fname := tokenPrefix (nextToken a)
        if fname = [] then .ok [] st
        else
          match lookupFunction fname with
          | some e' => applyFn ext rec e' as st
          | none => callUser rec fname ((a.takeWhile isSpace ++ fname) :: as) st

/-- The evaluation of a reference (expand.c 256-382). -/
def evalRef (ext : List (VarSet × Bool) → Str → List Str → Option Str) (rec : XState → Str → XRes Str)
    (st : XState) : Ref → XRes Str
  | .unterminated => .fatal
  | .plain name => expandNamed rec st name
  | .computed text => (rec st text).bind fun name st => expandNamed rec st name
  | .func e args =>
    if e.expandArgs then (expandArgs rec args st).bind fun args st => applyFn ext rec e args st
    else applyFn ext rec e args st

/-- The evaluation of the pieces from left to right (expand.c 219-401). -/
def evalToks (ext : List (VarSet × Bool) → Str → List Str → Option Str) (rec : XState → Str → XRes Str) :
    List Tok → XState → XRes Str
  | [], st => .ok [] st
  | .char c :: ts, st => (evalToks ext rec ts st).bind fun out st => .ok (c :: out) st
  | .var c :: ts, st =>
    (referenceVariable rec st [c]).bind fun a st =>
      (evalToks ext rec ts st).bind fun b st => .ok (a ++ b) st
  | .ref r :: ts, st =>
    (evalRef ext rec st r).bind fun a st =>
      (evalToks ext rec ts st).bind fun b st => .ok (a ++ b) st

/-- `variable_expand_string` (expand.c 193-407): expansion of a text, with nested expansions at
most `fuel` deep. -/
def expand (ext : List (VarSet × Bool) → Str → List Str → Option Str) : (fuel : Nat) → XState → Str → XRes Str
  | 0, _, _ => .deep
  | fuel + 1, st, s => evalToks ext (expand ext fuel) (lex s) st

/-! ## The output buffer -/

/-- `variable_buffer` with `variable_buffer_length` (expand.c 45-46): the memory and a position
in it. -/
structure Buf where
  mem : Str
  pos : Nat

/-- `VARIABLE_BUFFER_ZONE` (expand.c 43). -/
def bufferZone : Nat := 5

/-- `memcpy` into the memory at a position; `none` if it does not fit. -/
def memcpyAt (mem : Str) (pos : Nat) (s : Str) : Option Str :=
  if pos + s.length ≤ mem.length then some (mem.take pos ++ s ++ mem.drop (pos + s.length)) else none

/-- `variable_buffer_output` (expand.c 55-72); `fill` is what `xrealloc` leaves in the new
memory. -/
def bufferOutput (fill : Char) (b : Buf) (s : Str) : Option Buf :=
  let newlen := s.length + b.pos
  let mem :=
    if newlen + bufferZone > b.mem.length then
      let size := if newlen + 100 > 2 * b.mem.length then newlen + 100 else 2 * b.mem.length
      b.mem ++ List.replicate (size - b.mem.length) fill
    else b.mem
  (memcpyAt mem b.pos s).map fun mem => ⟨mem, b.pos + s.length⟩

/-- `initialize_variable_output` (expand.c 76-89): 200 bytes, the first NUL. -/
def bufferInit (fill : Char) : Buf := ⟨'\x00' :: List.replicate 199 fill, 0⟩

end Remake
