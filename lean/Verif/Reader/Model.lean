import Verif.Read.CondModel
import Verif.Files.Model
import Verif.Var.Model
/-!
# Reading a makefile

Models the loop of `eval` (read.c 572-1429) apart from conditionals and the bodies of `define`, which
are in `Verif/Read/CondModel.lean`: how lines are told apart (698-1020), `parse_var_assignment`
(500-562), `get_next_mword` (2757-2939), the reading of rule lines (1028-1346) and when rules are
recorded (613-638 and 1424-1425).

What assignments, directives and recorded rules do is a parameter: a state `σ` and functions on it,
gathered in `RdEnv`; the state is what expansions see and change.  Not modelled: line numbers and
descriptions of targets; the choice of the default goal (1360-1415), which is in `Verif/Files`.
-/
namespace Remake

/-! ## Assignments -/

/-- `struct vmodifiers` (read.c 56-66), without `assign_v`. -/
structure VMods where
  exportV : Bool := false
  overrideV : Bool := false
  privateV : Bool := false
  defineV : Bool := false
  undefineV : Bool := false
deriving DecidableEq, Repr

/-- The loop of `parse_var_assignment` (read.c 512-557), with the text `p` at the next word: `none` if
`assign_v` stays 0, else the modifiers and the place returned. -/
def varAssignGo (m : VMods) (p : Str) : Option (VMods × Str) :=
  if (parseVariableDefinition p).isSome then some (m, p)
  else
    let w := tokenPrefix p
    let next := nextToken (endOfToken p)
    if w = "define".toList then some ({ m with defineV := true }, next)
    else if w = "undefine".toList then some ({ m with undefineV := true }, next)
    else if hk : w = "export".toList ∨ w = "override".toList ∨ w = "private".toList then
      let m' := if w = "export".toList then { m with exportV := true }
        else if w = "override".toList then { m with overrideV := true }
        else { m with privateV := true }
      if next = [] then none else varAssignGo m' next
    else none
termination_by p.length
decreasing_by
  have h1 : (nextToken (endOfToken p)).length ≤ (endOfToken p).length := (List.dropWhile_sublist _).length_le
  have h2 : (tokenPrefix p).length + (endOfToken p).length = p.length := by
    have := congrArg List.length (List.takeWhile_append_dropWhile (p := fun c => !isSpace c) (l := p))
    rw [List.length_append] at this
    exact this
  have h3 : 0 < (tokenPrefix p).length := by
    have e1 : "export".toList.length = 6 := by decide
    have e2 : "override".toList.length = 8 := by decide
    have e3 : "private".toList.length = 7 := by decide
    rcases hk with h | h | h <;> (replace h : tokenPrefix p = _ := h; rw [h]; omega)
  omega

/-- `parse_var_assignment` (read.c 501-562). -/
def parseVarAssignment (line : Str) : Option (VMods × Str) :=
  if nextToken line = [] then none else varAssignGo {} (nextToken line)

/-! ## Words -/

/-- `enum make_word_type` (read.c 68-73). -/
inductive MWordType where
  | eol | static | variable | colon | dcolon | ampcolon | ampdcolon | semicolon | varassign
deriving DecidableEq, Repr

/-- What `get_next_mword` returns: the type, the word and the text after it, and whether that is beyond the end of the buffer. -/
structure MWord where
  type : MWordType
  word : Str
  rest : Str
  over : Bool := false
deriving DecidableEq, Repr

/-- The loop over the characters of a word (read.c 2846-2931): `rev` are those passed, in reverse. -/
def mwordGo (t : MWordType) (rev : Str) (s : Str) : MWord :=
  match s with
  | [] => { type := t, word := rev.reverse, rest := [] }
  | c :: p =>
    if c = ' ' ∨ c = '\t' ∨ c = '=' ∨ c = ':' then { type := t, word := rev.reverse, rest := c :: p }
    else if c = '$' then
      match p with
      | [] => { type := t, word := (c :: rev).reverse, rest := [] }
      | d :: p' =>
        if d = '$' then mwordGo t (d :: c :: rev) p'
        else if d = '(' ∨ d = '{' then
          -- the loop (2884-2893) counts from 0 and stops below 0: one less than in `skipRef`
          let r := skipRef d (if d = '(' then ')' else '}') 1 (d :: c :: rev) p'
          mwordGo .variable r.1 r.2
        else mwordGo .variable (d :: c :: rev) p'
    else if (c = '?' ∨ c = '+') ∧ p.head? = some '=' then { type := t, word := rev.reverse, rest := c :: p }
    else if c = '&' ∧ p.head? = some ':' then { type := t, word := rev.reverse, rest := c :: p }
    else if c = '\\' then
      match p with
      | [] => mwordGo t (c :: rev) []
      | d :: p' =>
        if d = ':' ∨ d = ';' ∨ d = '=' ∨ d = '\\' then mwordGo t (d :: c :: rev) p'
        else mwordGo t (c :: rev) (d :: p')
    else mwordGo t (c :: rev) p
termination_by s.length
decreasing_by
  all_goals simp_wf
  all_goals first
    | (have := skipRef_length d (if d = '(' then ')' else '}') p' 1 (d :: c :: rev); omega)
    | omega

/-- `get_next_mword` (read.c 2757-2939).  `stale` is what is in memory after the NUL that ends the
buffer: after `::` the code looks one character too far (`p[1]` in line 2795 where `p[0]` is meant), and if
that character is the first one after the NUL and an equals sign, the word includes the NUL, and the text after the
word is that after the NUL. -/
def getNextMword (buffer stale : Str) : MWord :=
  match buffer.dropWhile isBlank with
  | [] => { type := .eol, word := [], rest := [] }
  | c :: p =>
    if c = ';' then { type := .semicolon, word := [c], rest := p }
    else if c = '=' then { type := .varassign, word := [c], rest := p }
    else if c = ':' then
      match p with
      | '=' :: p => { type := .varassign, word := [':', '='], rest := p }
      | ':' :: p =>
        match p with
        | [] => if stale.head? = some '=' then { type := .varassign, word := [':', ':'], rest := stale, over := true } else { type := .dcolon, word := [':', ':'], rest := [] }
        | d :: p' =>
          if p'.head? = some '=' then { type := .varassign, word := [':', ':', d], rest := p' } else { type := .dcolon, word := [':', ':'], rest := d :: p' }
      | p => { type := .colon, word := [':'], rest := p }
    else if c = '&' ∧ p.head? = some ':' then
      if p.tail.head? = some ':' then { type := .ampdcolon, word := ['&', ':', ':'], rest := p.tail.tail }
      else { type := .ampcolon, word := ['&', ':'], rest := p.tail }
    else if (c = '+' ∨ c = '?' ∨ c = '!') ∧ p.head? = some '=' then { type := .varassign, word := [c, '='], rest := p.tail }
    else mwordGo .static [] (c :: p)

/-! ## Rule lines -/

/-- A rule that waits for its recipe: the variables `filenames`, `also_make_targets`, `pattern`,
`depstr`, `two_colon` and `prefix` of `eval` (read.c 581-592). -/
structure Waiting where
  names : List Str
  grouped : Bool
  pattern : Option Unq
  deps : Option Str
  twoColon : Bool
  pfx : Char
deriving DecidableEq, Repr

/-- The fatal errors of rule lines. -/
inductive RdError where
  | missingRule | missingSeparator | missingPattern | multiplePatterns | noPercent | early | archive
deriving DecidableEq, Repr

/-- What `eval` does not do itself, on a state `σ`. -/
structure RdEnv (σ : Type) where
  /-- `posix_pedantic`. -/
  posix : Bool
  /-- `cmd_prefix`. -/
  cmdPrefix : σ → Char
  /-- `variable_expand_string` and its relatives. -/
  expand : σ → Str → σ × Str
  /-- `lookup_variable` finds a variable with a non-empty value. -/
  defined : σ → Str → Bool
  /-- File names: wildcards, `~`, archives. -/
  fs : FsEnv
  /-- The bytes in memory after the end of a line, where they do not come from the line itself. -/
  garbage : Str → Str
  /-- A variable assignment or `undefine` (read.c 773-794). -/
  assign : σ → VMods → Str → σ
  /-- `define`: the first line and the body. -/
  define : σ → VMods → Str → Str → σ
  /-- `record_target_var` (read.c 1873-1962). -/
  targetVar : σ → List Str → VMods → Str → σ
  /-- `export`, `unexport`, `vpath`, `include`, `load` and their variants (read.c 832-1014): the word and the
  text after it. -/
  directive : σ → Str → Str → σ
  /-- `record_files` (read.c 1975-2311): the rule and its recipe. -/
  record : σ → Waiting → Str → σ

/-- What a rule line is. -/
inductive RuleOut where
  /-- Nothing but white space (read.c 1067-1072, 1164-1165). -/
  | nothing
  /-- A rule without targets (read.c 1074-1081, 1191-1197). -/
  | noTargets
  | fatal (e : RdError)
  /-- A target-specific variable (read.c 1220-1238). -/
  | targetVar (names : List Str) (m : VMods) (defn : Str)
  /-- A rule, and the command after a semicolon (read.c 1240-1341). -/
  | rule (w : Waiting) (cmd : Option Str)
deriving DecidableEq, Repr

/-- How the search for the colon ends (read.c 1089-1155). -/
inductive ColonRes where
  /-- The end of the line: the expanded text. -/
  | eol (text : Str)
  /-- The expanded text before the colon and after it, the text not yet expanded, and the command if a semicolon
  was found. -/
  | colon (before after lb : Str) (cmd : Option Str)
deriving DecidableEq, Repr

/-- The search for a semicolon in the expanded text (read.c 1092-1120). -/
def findSemi {σ : Type} (x : σ → Str → σ × Str) (s : σ) (p2 lb : Str) (cmd : Option Str) :
    σ × Str × Str × Option Str :=
  match cmd with
  | some c => (s, p2, lb, some c)
  | none =>
    match findCharUnquote ';' p2 with
    | .none t => (s, t, lb, none)
    | .found pre _ post => ((x s lb).1, pre, [], some (post ++ (x s lb).2))

theorem mwordGo_length (t : MWordType) (rev s : Str) : (mwordGo t rev s).rest.length ≤ s.length := by
  fun_induction mwordGo t rev s
  all_goals simp_all
  all_goals first
    | omega
    | (rename_i d p' _ _ r ih
       exact Nat.le_trans ih (Nat.le_trans (skipRef_length _ _ _ _ _) (by omega)))

/-- A word that is not the end of the line has at least one character, unless it ran over the end. -/
theorem getNextMword_length {b stale : Str} (h : (getNextMword b stale).type ≠ .eol) :
    ((getNextMword b stale).over = false ∧ (getNextMword b stale).rest.length < b.length) ∨
      ((getNextMword b stale).over = true ∧ (getNextMword b stale).rest = stale ∧ 2 ≤ b.length) := by
  have hd : (b.dropWhile isBlank).length ≤ b.length := (List.dropWhile_sublist _).length_le
  unfold getNextMword at h ⊢
  have hov : ∀ t rev q, (mwordGo t rev q).over = false := by
    intro t rev q
    fun_induction mwordGo t rev q <;> simp_all
  split
  · rename_i e; simp [e] at h
  · rename_i c p e
    clear h
    rw [e] at hd
    simp only [List.length_cons] at hd
    split
    · left; simp; omega
    split
    · left; simp; omega
    split
    · split
      · left; simp at hd ⊢; omega
      · split
        · split
          · right; simp at hd ⊢; omega
          · left; simp at hd ⊢; omega
        · split
          · left; simp at hd ⊢; omega
          · left; simp at hd ⊢; omega
      · left; simp; omega
    split
    · split
      · left; simp; omega
      · left; simp; omega
    split
    · left; simp; omega
    refine .inl ⟨hov _ _ _, ?_⟩
    rename_i h1 h2 h3 h4 h5
    have hb : isBlank c = false := by
      have := List.head?_dropWhile_not isBlank b
      rw [e] at this; simpa using this
    have hb1 : c ≠ ' ' := by rintro rfl; simp [isBlank] at hb
    have hb2 : c ≠ '\t' := by rintro rfl; simp [isBlank] at hb
    rw [mwordGo.eq_def]
    simp only [hb1, hb2, h2, h3, or_self, if_false]
    have key : ∀ t rev (q : Str), q.length ≤ p.length → (mwordGo t rev q).rest.length < b.length := by
      intro t rev q hq; have := mwordGo_length t rev q; omega
    by_cases hdol : c = '$'
    · simp only [hdol, if_true]
      cases p with
      | nil => simp; omega
      | cons d p' =>
        simp only
        split
        · exact key _ _ _ (by simp)
        · split
          · exact key _ _ _ (Nat.le_trans (skipRef_length _ _ _ _ _) (by simp))
          · exact key _ _ _ (by simp)
    · rw [if_neg hdol, if_neg (by
        rintro ⟨hc | hc, hq⟩
        · exact h5 ⟨.inr (.inl hc), hq⟩
        · exact h5 ⟨.inl hc, hq⟩), if_neg h4]
      by_cases hbs : c = '\\'
      · simp only [hbs, if_true]
        cases p with
        | nil => exact key _ _ _ (by simp)
        | cons d p' =>
          simp only
          split
          · exact key _ _ _ (by simp)
          · exact key _ _ _ (by simp)
      · rw [if_neg hbs]; exact key _ _ _ (by simp)

theorem findSemi_length {σ : Type} (x : σ → Str → σ × Str) (s : σ) (p2 lb : Str) (cmd : Option Str) :
    (findSemi x s p2 lb cmd).2.2.1.length ≤ lb.length := by
  unfold findSemi
  split
  · simp
  · split <;> simp

/-- The loop that expands a rule line word by word until it finds a colon (read.c 1089-1155).  `buf` is the
expanded text before `p2`. -/
def colonLoop {σ : Type} (x : σ → Str → σ × Str) (s : σ) (buf p2 lb stale : Str) (cmd : Option Str) :
    σ × ColonRes :=
  let r := findSemi x s p2 lb cmd
  match findCharUnquote ':' r.2.1 with
  | .found pre _ post => (r.1, .colon (buf ++ pre) post r.2.2.1 r.2.2.2)
  | .none t =>
    let m := getNextMword r.2.2.1 stale
    if h : m.type = .eol then (r.1, .eol (buf ++ t))
    else
      let e := x r.1 m.word
      colonLoop x e.1 (buf ++ t ++ [' ']) e.2 m.rest (if m.over then [] else stale) r.2.2.2
termination_by lb.length + stale.length
decreasing_by
  have h1 := getNextMword_length h
  have h2 := findSemi_length x s p2 lb cmd
  simp only [r, m] at *
  split
  · rename_i e
    rcases h1 with ⟨h3, -⟩ | ⟨-, h3, h4⟩
    · rw [e] at h3; cases h3
    · rw [h3, List.length_nil]; omega
  · rename_i e
    rcases h1 with ⟨-, h3⟩ | ⟨h3, -⟩
    · omega
    · exact absurd h3 e

/-- The search for the colon of a static pattern rule (read.c 1267-1278): whether there is one that is not
quoted. -/
def hasColon (rev : Str) : Str → Bool
  | [] => false
  | c :: cs => if c = ':' ∧ bsCount rev % 2 = 0 then true else hasColon (c :: rev) cs

/-- The rest of a rule line, once it is known not to define a variable: the pattern of a static pattern
rule, the prerequisites (read.c 1266-1322).  `p2` is the expanded text after the colon. -/
def ruleRest (fs : FsEnv) (names : List Str) (grouped two : Bool) (pfx : Char) (p2 : Str) (cmd : Option Str) :
    RuleOut :=
  let fin (pattern : Option Unq) (p2 : Str) : RuleOut :=
    let d := stripWhitespace p2
    .rule { names := names, grouped := grouped, pattern := pattern, deps := if d = [] then none else some d,
            twoColon := two, pfx := pfx } cmd
  if hasColon [] p2 then
    match parseFileSeq fs { noglob := true } none (· == ':') p2 with
    | none => .fatal .archive
    | some ([], _) => .fatal .missingPattern
    | some ([t], rest) =>
      match (findPercentCached t).1 with
      | .none _ => .fatal .noPercent
      | .found a c b => fin (some (.found a c b)) rest.tail
    | some (_ :: _ :: _, _) => .fatal .multiplePatterns
  else fin none p2

/-- The text after the unquoting of equals signs (read.c 1242: `find_char_unquote (lb_next, '=')`). -/
def unquoteEquals (lb : Str) : Str :=
  match findCharUnquote '=' lb with
  | .none t => t
  | .found pre c post => pre ++ c :: post

/-- The text in which prerequisites are looked for (read.c 1211-1219, 1251-1255).  The unexpanded text is put after the
expanded one, `parse_var_assignment` skips the white space at the start, and then the expansion is put where the
unexpanded text was before the skip: as many of its characters remain as white space was skipped.  If all
is white space nothing is left, as the string ends before that place. -/
def prereqText (p2 lb lbx : Str) : Str :=
  if lb = [] then nextToken p2
  else if nextToken (p2 ++ lb) = [] ∧ p2 ≠ [] then []
  else (nextToken (p2 ++ lb)).take p2.length ++ lbx

/-- The part of a rule line after the colon (read.c 1198-1322).  `after` is expanded, `lb` is not; `semi` is the text
after a semicolon of the line itself. -/
def afterColon {σ : Type} (E : RdEnv σ) (s : σ) (names : List Str) (grouped : Bool) (after lb : Str)
    (cmd semi : Option Str) : σ × RuleOut :=
  let two := after.head? = some ':'
  let p2 := if two then after.tail else after
  match parseVarAssignment (p2 ++ lb) with
  | some (m, p) =>
    (s, .targetVar names m (match semi with
      | none => p
      | some c => p ++ collapseContinuations E.posix (';' :: c)))
  | none =>
    let e := if lb = [] then (s, []) else E.expand s (unquoteEquals lb)
    let p3 := prereqText p2 lb e.2
    let pfx := E.cmdPrefix s
    if lb = [] ∨ cmd.isSome then (e.1, ruleRest E.fs names grouped two pfx p3 cmd)
    else
      match findCharUnquote ';' p3 with
      | .none t => (e.1, ruleRest E.fs names grouped two pfx t none)
      | .found pre _ post => (e.1, ruleRest E.fs names grouped two pfx pre (some post))

/-- After the search for the colon (read.c 1157-1197). -/
def colonDone {σ : Type} (E : RdEnv σ) (semi : Option Str) (s : σ) : ColonRes → σ × RuleOut
  | .eol text => (s, if nextToken text = [] then .nothing else .fatal .missingSeparator)
  | .colon before after lb cmd =>
    let grouped := decide (before.getLast? = some '&')
    match parseFileSeq E.fs {} none (fun _ => false) (if grouped then before.dropLast else before) with
    | none => (s, .fatal .archive)
    | some ([], _) => (s, .noTargets)
    | some (names, _) => afterColon E s names grouped after lb cmd semi

/-- A line that may be a rule, cut at its semicolon or comment (read.c 1060-1341).  `line` has its continuation
lines joined; `semi` is the text after the semicolon. -/
def ruleLine {σ : Type} (E : RdEnv σ) (s : σ) (line stale : Str) (semi : Option Str) : σ × RuleOut :=
  let m := getNextMword line stale
  let go : σ × RuleOut :=
    let e := E.expand s m.word
    let r := colonLoop E.expand e.1 [] e.2 m.rest (if m.over then [] else stale) semi
    colonDone E semi r.1 r.2
  match m.type with
  | .eol => (s, if semi.isSome then .fatal .missingRule else .nothing)
  | .colon => (s, .noTargets)
  | .dcolon => (s, .noTargets)
  | .ampcolon => (s, .noTargets)
  | .ampdcolon => (s, .noTargets)
  | .static => go
  | .variable => go
  | .semicolon => go
  | .varassign => go

/-- Cutting a line at its first semicolon or comment (read.c 1044-1058): the text, what is in memory after it, and
the command. -/
def cutLine {σ : Type} (E : RdEnv σ) (line : Str) : Str × Str × Option Str :=
  let (text, after, semi) :=
    match findMapUnquote (fun c => c == ';' || c == '#') true line with
    | .none t => (t, E.garbage line, none)
    | .found pre c post => (pre, post, if c = '#' then none else some post)
  (collapseContinuations E.posix text, if '\n' ∈ text then E.garbage line else after, semi)

/-! ## The loop -/

/-- The variables of `eval`, the state of make, and whether a fatal error was met. -/
structure RdState (σ : Type) where
  env : σ
  waiting : Option Waiting := none
  commands : Str := []
  noTargets : Bool := false
  failed : Option RdError := none

/-- `record_waiting_files` (read.c 612-637). -/
def flush {σ : Type} (E : RdEnv σ) (s : RdState σ) : RdState σ :=
  { s with env := match s.waiting with
                  | none => s.env
                  | some w => E.record s.env w s.commands
           waiting := none
           commands := []
           noTargets := false }

/-- The words of the directives other than conditionals (read.c 834, 869, 897, 958). -/
def directiveWords : List Str :=
  ["export".toList, "unexport".toList, "vpath".toList, "include".toList, "-include".toList, "sinclude".toList,
    "load".toList, "-load".toList]

/-- A line that is no recipe line, no assignment and no conditional (read.c 832-1341).  `p` is its text without comment. -/
def otherLine {σ : Type} (E : RdEnv σ) (s : RdState σ) (line p : Str) : RdState σ :=
  if tokenPrefix p ∈ directiveWords then
    let s := flush E s
    { s with env := E.directive s.env (tokenPrefix p) (nextToken (endOfToken p)) }
  else if line.head? = some (E.cmdPrefix s.env) then { s with failed := some .early }
  else
    let s := flush E s
    let c := cutLine E line
    let r := ruleLine E s.env c.1 c.2.1 c.2.2
    match r.2 with
    | .nothing => { s with env := r.1 }
    | .noTargets => { s with env := r.1, noTargets := true }
    | .fatal e => { s with env := r.1, failed := some e }
    | .targetVar names m defn => { s with env := E.targetVar r.1 names m defn }
    | .rule w cmd =>
      { s with env := r.1, waiting := some w
               commands := match cmd with
                           | none => []
                           | some c => c ++ ['\n'] }

/-- An action, unless make has already failed. -/
def unlessFailed {σ : Type} (s : RdState σ) (f : RdState σ → RdState σ) : RdState σ :=
  if s.failed.isSome then s else f s

/-- The actions of `eval` as the loop of `Verif/Read/CondModel.lean` calls them. -/
def readerEnv {σ : Type} (E : RdEnv σ) : EvalEnv (RdState σ) where
  posix := E.posix
  -- read.c 703-717
  recipe s line := line.head? = some (E.cmdPrefix s.env) && (s.noTargets || s.waiting.isSome)
  cmdPrefix s := E.cmdPrefix s.env
  assign p := (parseVarAssignment p).map (·.1.defineV)
  -- read.c 705-707, 719-732
  addRecipe s line := unlessFailed s fun s =>
    if s.noTargets then s else { s with commands := s.commands ++ line.tail ++ ['\n'] }
  -- read.c 773-794
  doAssign s p := unlessFailed s fun s =>
    match parseVarAssignment p with
    | none => s
    | some (m, q) => let s := flush E s; { s with env := E.assign s.env m q }
  doDefine s p body := unlessFailed s fun s =>
    match parseVarAssignment p with
    | none => s
    | some (m, q) => let s := flush E s; { s with env := E.define s.env m q body }
  other s line p := unlessFailed s fun s => otherLine E s line p
  expand s t := let r := E.expand s.env t; ({ s with env := r.1 }, r.2)
  defined s n := E.defined s.env n

/-- The byte order mark (read.c 679-694). -/
def skipBom (lines : List Str) : List Str :=
  match lines with
  | [] => []
  | l :: ls =>
    (if [Char.ofNat 0xEF, Char.ofNat 0xBB, Char.ofNat 0xBF].isPrefixOf l then l.drop 3 else l) :: ls

/-- What reading a makefile leads to. -/
inductive ReadRes (σ : Type) where
  | done (s : σ)
  | fatal
  | undef

/-- `eval` on the logical lines of a makefile (read.c 572-1429); at the end the last rule is recorded (1424-1425). -/
def readMakefile {σ : Type} (E : RdEnv σ) (s : σ) (lines : List Str) : ReadRes σ :=
  match evalLines (readerEnv E) { env := s } (skipBom lines) with
  | .done s => if s.failed.isSome then .fatal else .done (flush E s).env
  | .fatal => .fatal
  | .undef => .undef

end Remake
