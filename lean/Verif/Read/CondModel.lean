import Verif.Base.Chars
import Verif.Base.Lemmas
import Verif.Text.Model
import Verif.Quote.Model
/-!
# Conditionals and `define`

Models `conditional_line` (`src/read.c` lines 1603-1861), the reading loop of `do_define`
(1520-1582) and the part of the loop of `eval` (lines 658-830) that decides which lines
are interpreted.

What the interpreted lines do is a parameter: a state `σ` and functions on it, gathered
in `EvalEnv`.  Expanding a condition may change the state (`$(eval)`), so it does in the
model.  Simplifications: target descriptions (comments starting with `#:`), line numbers,
messages that do not stop make, and the skipping of a UTF-8 BOM on the first line
(678-694) are left out; the actions of `EvalEnv` do not fail (a fatal error in one has to
be recorded in `σ`); and `do_define` takes the recipe prefix in force before its variable
name is expanded.
-/
namespace Remake

/-- The state-changing operations `eval` calls. -/
structure EvalEnv (σ : Type) where
  /-- `posix_pedantic`/`.POSIX` (misc.c 56-118). -/
  posix : Bool
  /-- `line[0] == cmd_prefix` and (`no_targets` or `filenames != 0`): the line belongs to a
  recipe (read.c 703-733). -/
  recipe : σ → Str → Bool
  /-- The recipe prefix character. -/
  cmdPrefix : σ → Char
  /-- `parse_var_assignment` (read.c 759-760): `none`, or whether it is a `define`. -/
  assign : Str → Option Bool
  /-- A recipe line is accumulated (read.c 719-732), or dropped if `no_targets` (705-707). -/
  addRecipe : σ → Str → σ
  /-- A variable assignment other than `define`, or an `undefine` (read.c 773-794). -/
  doAssign : σ → Str → σ
  /-- `define`: the first line and the body (read.c 782, 1578-1588). -/
  doDefine : σ → Str → Str → σ
  /-- All other lines (read.c 832-1417). -/
  other : σ → Str → Str → σ
  /-- `variable_expand`. -/
  expand : σ → Str → σ × Str
  /-- `lookup_variable` finds a variable with a non-empty value. -/
  defined : σ → Str → Bool

/-- The kinds of opening conditionals (read.c 1607). -/
inductive CondKind where
  | ifdef | ifndef | ifeq | ifneq
deriving DecidableEq, Repr

/-- The word that starts a conditional line (read.c 1607, 1616-1621). -/
inductive CondWord where
  | opening (k : CondKind)
  | else_
  | endif
deriving DecidableEq, Repr

/-- `chkword` (read.c 1611-1623); `none` is the result -2. -/
def condWord (w : Str) : Option CondWord :=
  if w = "ifdef".toList then some (.opening .ifdef)
  else if w = "ifndef".toList then some (.opening .ifndef)
  else if w = "ifeq".toList then some (.opening .ifeq)
  else if w = "ifneq".toList then some (.opening .ifneq)
  else if w = "else".toList then some .else_
  else if w = "endif".toList then some .endif
  else none

/-- One entry of `conditionals->ignoring` and `seen_else`. -/
structure CondLevel where
  ignoring : Nat
  seenElse : Bool
deriving DecidableEq, Repr

/-- The scan for the comma (read.c 1775-1782). -/
def scanComma (count : Int) (acc : Str) : Str → Option (Str × Str)
  | [] => none
  | c :: cs =>
    if c = '(' then scanComma (count + 1) (acc ++ [c]) cs
    else if c = ')' then scanComma (count - 1) (acc ++ [c]) cs
    else if c = ',' ∧ count ≤ 0 then some (acc, cs)
    else scanComma count (acc ++ [c]) cs

/-- The scan for a closing quote (read.c 1785-1786, 1837-1840). -/
def scanQuote (q : Char) (acc : Str) : Str → Option (Str × Str)
  | [] => none
  | c :: cs => if c = q then some (acc, cs) else scanQuote q (acc ++ [c]) cs

/-- The scan for the closing parenthesis (read.c 1820-1833). -/
def scanParen (count : Int) (acc : Str) : Str → Option (Str × Str)
  | [] => none
  | c :: cs =>
    if c = '(' then scanParen (count + 1) (acc ++ [c]) cs
    else if c = ')' then
      if count ≤ 0 then some (acc, cs) else scanParen (count - 1) (acc ++ [c]) cs
    else scanParen count (acc ++ [c]) cs

/-- The first string of an `ifeq` (read.c 1766-1800): the character after which it
started, the string, and what follows its end. -/
def ifeqFirst (line : Str) : Option (Char × Str × Str) :=
  match line with
  | [] => none
  | c :: cs =>
    if c = '(' ∨ c = ',' then
      -- a leading comma is taken for a parenthesis: `termin` is ',' (1766)
      (scanComma 0 [] cs).map fun (a, rest) => (',', (a.reverse.dropWhile isBlank).reverse, rest)
    else if c = '"' ∨ c = '\'' then
      (scanQuote c [] cs).map fun (a, rest) => (c, a, rest)
    else none

/-- The second string of an `ifeq` (read.c 1809-1846) and what follows it. -/
def ifeqSecond (termin : Char) (line : Str) : Option (Str × Str) :=
  let line := if termin = ',' then line else nextToken line
  let t := if termin = ',' then some ')' else line.head?
  match t with
  | some ')' => scanParen 0 [] (nextToken line)
  | some '"' => scanQuote '"' [] line.tail
  | some '\'' => scanQuote '\'' [] line.tail
  | _ => none

/-- The test of an opening conditional (read.c 1735-1853).  `none`: the result is -1.
Extraneous text after the second string only causes a message (1848). -/
def condTest {σ : Type} (E : EvalEnv σ) (s : σ) (k : CondKind) (line : Str) : σ × Option Bool :=
  if k = .ifdef ∨ k = .ifndef then
    let (s, var) := E.expand s line
    if nextToken (endOfToken var) ≠ [] then (s, none)
    else (s, some (E.defined s (tokenPrefix var) != (k == .ifndef)))
  else
    match ifeqFirst line with
    | none => (s, none)
    | some (termin, a, rest) =>
      let (s, v1) := E.expand s a
      match ifeqSecond termin rest with
      | none => (s, none)
      | some (b, _) =>
        let (s, v2) := E.expand s b
        (s, some ((v1 == v2) != (k == .ifneq)))

/-- Result of `conditional_line`. -/
inductive CondRes (σ : Type) where
  /-- -2: not a conditional. -/
  | notCond
  /-- -1, which is fatal (read.c 820-821). -/
  | bad
  /-- A fatal error. -/
  | fatal
  /-- A malformed conditional after `else`: the level it pushed (read.c 1711)
  stays on the stack with `ignoring` never set, so uninitialised or left over from an earlier
  conditional; it is then read (1689-1691, 1857). -/
  | undef
  /-- The new state; the result is 1 if some level is ignoring, else 0. -/
  | ok (s : σ) (conds : List CondLevel)

/-- The loops "search through the stack to see if we're ignoring" (read.c 1725-1733, 1856-1860). -/
def anyIgnoring (conds : List CondLevel) : Bool := conds.any fun l => l.ignoring != 0

/-- An opening conditional (read.c 1704-1853): the new level, or `none` if malformed.  The
innermost level is the head of the list. -/
def openCond {σ : Type} (E : EvalEnv σ) (s : σ) (conds : List CondLevel) (k : CondKind) (line : Str) :
    σ × Option (List CondLevel) :=
  if anyIgnoring conds then (s, some (⟨1, false⟩ :: conds))
  else
    match condTest E s k line with
    | (s, none) => (s, none)
    | (s, some b) => (s, some (⟨if b then 0 else 1, false⟩ :: conds))

/-- `conditional_line` (read.c 1603-1861).  `p` is the line starting at its first word. -/
def conditionalLine {σ : Type} (E : EvalEnv σ) (s : σ) (conds : List CondLevel) (p : Str) : CondRes σ :=
  let rest := nextToken (endOfToken p)
  match condWord (tokenPrefix p) with
  | none => .notCond
  | some .endif =>
    match conds with
    | [] => .fatal
    | _ :: cs => .ok s cs
  | some .else_ =>
    match conds with
    | [] => .fatal
    | c :: cs =>
      if c.seenElse then .fatal
      else
        let ign := if c.ignoring = 0 then 2 else if c.ignoring = 1 then 0 else c.ignoring
        if rest = [] then .ok s (⟨ign, true⟩ :: cs)
        else
          match condWord (tokenPrefix rest) with
          | some (.opening k) =>
            match openCond E s (⟨ign, false⟩ :: cs) k (nextToken (endOfToken rest)) with
            | (_, none) => .undef
            | (s, some []) => .ok s (⟨ign, false⟩ :: cs)
            | (s, some (l :: _)) =>
              .ok s (⟨if ign < 2 then l.ignoring else ign, false⟩ :: cs)
          -- "extraneous text after 'else'": a message only
          | _ => .ok s (⟨ign, false⟩ :: cs)
  | some (.opening k) =>
    match openCond E s conds k rest with
    | (_, none) => .bad
    | (s, some cs) => .ok s cs

/-- A line of a `define` that opens a nested one (read.c 1543-1546). -/
def isDefineLine (p : Str) : Bool :=
  "define".toList.isPrefixOf p && (p.length == 6 || (p.drop 6).head?.any isBlank)

/-- A line that closes a `define` (read.c 1550-1551). -/
def isEndefLine (p : Str) : Bool :=
  "endef".toList.isPrefixOf p && (p.length == 5 || (p.drop 5).head?.any isBlank)

/-- A line of the body as it is stored: continuations collapsed, and comments removed from
an `endef` line (read.c 1534, 1553-1554). -/
def defineText (posix : Bool) (cmdPrefix : Char) (l : Str) : Str :=
  let l := collapseContinuations posix l
  if l.head? ≠ some cmdPrefix ∧ isEndefLine (nextToken l) then
    l.take (l.length - (nextToken l).length + 5) ++ removeComments ((nextToken l).drop 5)
  else l

/-- Whether a line opens (1) or closes (-1) a `define` (read.c 1538-1562). -/
def defineMark (posix : Bool) (cmdPrefix : Char) (l : Str) : Int :=
  let l := collapseContinuations posix l
  if l.head? = some cmdPrefix then 0
  else if isDefineLine (nextToken l) then 1
  else if isEndefLine (nextToken l) then -1
  else 0

/-- The loop of `do_define` (read.c 1520-1576): the stored lines and the lines after the
matching `endef`; `none` if there is none (fatal). -/
def takeDefine (posix : Bool) (cmdPrefix : Char) : (nlevels : Nat) → List Str → Option (List Str × List Str)
  | _, [] => none
  | n, l :: ls =>
    let m := defineMark posix cmdPrefix l
    if m = -1 ∧ n = 1 then some ([], ls)
    else
      (takeDefine posix cmdPrefix (if m = 1 then n + 1 else if m = -1 then n - 1 else n) ls).map
        fun (b, r) => (defineText posix cmdPrefix l :: b, r)

/-- The value of the variable (read.c 1572-1582): the lines joined by newlines. -/
def defineValue (body : List Str) : Str := ['\n'].intercalate body

theorem takeDefine_length {posix : Bool} {c : Char} : ∀ {ls : List Str} {n : Nat} {b r},
    takeDefine posix c n ls = some (b, r) → r.length < ls.length := by
  intro ls
  induction ls with
  | nil => intro n b r h; simp [takeDefine] at h
  | cons l ls ih =>
    intro n b r h
    simp only [takeDefine] at h
    split at h
    · simp only [Option.some.injEq, Prod.mk.injEq] at h
      rw [← h.2]; simp
    · cases ht : takeDefine posix c (if defineMark posix c l = 1 then n + 1 else if defineMark posix c l = -1 then n - 1 else n) ls with
      | none => rw [ht] at h; simp at h
      | some q =>
        rw [ht] at h; simp only [Option.map_some, Option.some.injEq, Prod.mk.injEq] at h
        have := ih ht
        rw [← h.2]; simp; omega

/-- Result of `eval`. -/
inductive EvalRes (σ : Type) where
  | done (s : σ)
  | fatal
  | undef

/-- The text `eval` looks at: continuations collapsed, comments removed, leading blanks
skipped (read.c 747-755). -/
def evalText (posix : Bool) (line : Str) : Str :=
  nextToken (removeComments (collapseContinuations posix line))

/-- A word and what follows it is an `endef` line for the purpose of skipping (read.c 809). -/
def skipsEndef (p : Str) : Bool :=
  tokenPrefix p == "endef".toList && (nextToken (endOfToken p)).head?.all (fun c => c == '#')

/-- The loop of `eval` (read.c 658-1422) over the logical lines.  `ignoring` and `inDef` are
the local variables `ignoring` and `in_ignored_define`. -/
def evalLoop {σ : Type} (E : EvalEnv σ) (s : σ) (conds : List CondLevel) (ignoring inDef : Bool)
    (lines : List Str) : EvalRes σ :=
  match lines with
  | [] => if conds = [] then .done s else .fatal
  | line :: lines =>
    if line = [] then evalLoop E s conds ignoring inDef lines
    else if E.recipe s line then
      if ignoring then evalLoop E s conds ignoring inDef lines
      else evalLoop E (E.addRecipe s line) conds ignoring inDef lines
    else
      let p := evalText E.posix line
      match E.assign p with
      | some isDefine =>
        if ignoring then evalLoop E s conds ignoring (inDef || isDefine) lines
        else if isDefine then
          match h : takeDefine E.posix (E.cmdPrefix s) 1 lines with
          | none => .fatal
          | some (body, rest) =>
            evalLoop E (E.doDefine s p (defineValue body)) conds ignoring inDef rest
        else evalLoop E (E.doAssign s p) conds ignoring inDef lines
      | none =>
        if p = [] then evalLoop E s conds ignoring inDef lines
        else if inDef then
          evalLoop E s conds ignoring (!skipsEndef p) lines
        else
          match conditionalLine E s conds p with
          | .bad => .fatal
          | .fatal => .fatal
          | .undef => .undef
          | .ok s conds => evalLoop E s conds (anyIgnoring conds) inDef lines
          | .notCond =>
            if ignoring then evalLoop E s conds ignoring inDef lines
            else evalLoop E (E.other s line p) conds ignoring inDef lines
termination_by lines.length
decreasing_by
  all_goals first
    | (simp; done)
    | (have := takeDefine_length h; simp; omega)

/-- `eval` on the lines of a makefile. -/
def evalLines {σ : Type} (E : EvalEnv σ) (s : σ) (lines : List Str) : EvalRes σ :=
  evalLoop E s [] false false lines

end Remake
