import Verif.Files.Model
import Verif.Rules.Model
import Verif.Expand.Model

/-!
# Second expansion in pattern rules

Models `get_next_word` (implicit.c 64-142) and the part of `pattern_search` that makes the names of the prerequisites of a pattern rule
(implicit.c 224-226, 507-669).  Text is in memory: what can be read from a pointer on is a list of characters, with the NUL at the end of the
string and whatever follows it; reading beyond the list is undefined.  The buffer `depname` has a size.  Expansion of variables for the target
is a parameter, a function of the text.  Simplified: expansion has no effects; the names of all prerequisites are made before the first is
tried (the code tries those of one word before it expands the next).
-/
set_option linter.unusedVariables false
namespace Remake

/-- The end of a string. -/
def nul : Char := '\x00'

/-- The string that a pointer points to. -/
def cString (mem : Str) : Str := mem.takeWhile (· ≠ nul)

/-- The loop to the matching parenthesis (implicit.c 113-122): the text passed over and what is left; it stops before a NUL.  `none`: read
beyond the memory. -/
def skipParens (opn cls : Char) : (count : Nat) → Str → Option (Str × Str)
  | _, [] => none
  | n, c :: p =>
    if c = nul then some ([], c :: p)
    else if c = opn then (skipParens opn cls (n + 1) p).map fun r => (c :: r.1, r.2)
    else if c = cls then
      match n with
      | 0 => some ([c], p)
      | n + 1 => (skipParens opn cls n p).map fun r => (c :: r.1, r.2)
    else (skipParens opn cls n p).map fun r => (c :: r.1, r.2)

theorem skipParens_length {opn cls : Char} {n : Nat} {p a b : Str} (h : skipParens opn cls n p = some (a, b)) : b.length ≤ p.length := by
  induction p generalizing n a b with
  | nil => cases h
  | cons c p ih =>
    rw [skipParens.eq_def] at h; simp only at h
    have key : ∀ m, (skipParens opn cls m p).map (fun r => (c :: r.1, r.2)) = some (a, b) → b.length ≤ (c :: p).length := by
      intro m hm
      cases hs : skipParens opn cls m p with
      | none => rw [hs] at hm; cases hm
      | some r =>
        rw [hs] at hm
        cases hm
        have := ih (a := r.1) (b := r.2) hs
        simp; omega
    split at h
    · cases h; simp
    · split at h
      · exact key _ h
      · split at h
        · split at h
          · cases h; simp
          · exact key _ h
        · exact key _ h

/-- The loop of `get_next_word` (implicit.c 85-141), from the character `c` on: the word and what is left.  A bar ends the word and belongs to
it.  After a dollar sign the next character is passed over whatever it is. -/
def nextWordGo (mem : Str) : Option (Str × Str) :=
  match mem with
  | [] => none
  | c :: p =>
    if c = nul ∨ c = ' ' ∨ c = '\t' then some ([], c :: p)
    else if c = '|' then some ([c], p)
    else if c = '$' then
      match p with
      | [] => none
      | d :: p =>
        if d = '(' ∨ d = '{' then
          match _h : skipParens d (if d = '(' then ')' else '}') 0 p with
          | none => none
          | some (a, q) => (nextWordGo q).map fun r => (c :: d :: a ++ r.1, r.2)
        else (nextWordGo p).map fun r => (c :: d :: r.1, r.2)
    else (nextWordGo p).map fun r => (c :: r.1, r.2)
termination_by mem.length
decreasing_by
  · have := skipParens_length _h; simp; omega
  · simp; omega
  · simp

/-- What `get_next_word` returns. -/
inductive NextWord where
  /-- memory after the end of the string was read and ran out -/
  | undefined
  | none
  | word (w rest : Str)
deriving DecidableEq, Repr

/-- `get_next_word` (implicit.c 64-142). -/
def getNextWord (mem : Str) : NextWord :=
  match nextToken mem with
  | [] => .undefined
  | c :: p =>
    if c = nul then .none
    else match nextWordGo (c :: p) with
      | Option.none => .undefined
      | some (w, rest) => .word w rest

/-- The word with `$*` or `$(*F)` for its first percent sign (implicit.c 594-619). -/
def fillWord (lastslash : Bool) (w : Str) : Str :=
  match w.dropWhile (· ≠ '%') with
  | [] => w
  | _ :: rest => w.takeWhile (· ≠ '%') ++ (if lastslash then ['$', '(', '*', 'F', ')'] else ['$', '*']) ++ rest

/-- The loop that parses the expanded text (implicit.c 642-668): the names, each with whether it is order-only, and whether the
next ones are.  `none` is a fatal error. -/
def wordNames (env : FsEnv) (pfx : Option Str) (orderOnly : Bool) (s : Str) : Option (List (Str × Bool) × Bool) :=
  match parseFileSeq env {} pfx (fun c => !orderOnly && c == '|') s with
  | none => none
  | some (ns, []) => some (ns.map (·, orderOnly), orderOnly)
  | some (ns, _ :: p) =>
    if p = [] then some (ns.map (·, orderOnly), true)
    else match parseFileSeq env {} pfx (fun _ => false) p with
      | none => none
      | some (os, _) => some (ns.map (·, orderOnly) ++ os.map (·, true), true)

/-- The names that a prerequisite stands for that needs no second expansion (implicit.c 522-548), the whole text being one word; `core` is the
stem in the pattern.  `none` is a fatal error. -/
def plainNames (env : FsEnv) (dir core text : Str) : Option (List Str) :=
  (parseFileSeq env { oneword := true } none (fun _ => false) (substStem dir core text)).map (·.1)

/-- `max_pattern_dep_length` (rule.c 76-86, 93-119), from the names in `.EXTRA_PREREQS` and the prerequisites of every pattern rule. -/
def maxDepLength (extra : List Str) (rules : List (List Str)) : Nat :=
  rules.foldl (fun m ds => ds.foldl (fun m d => if d.length > m then d.length else m) m)
    (extra.foldl (fun m d => if d.length > m then d.length else m) 0)

/-- The size of `depname` (implicit.c 226). -/
def depnameRoom (filename : Str) (extra : List Str) (rules : List (List Str)) : Nat :=
  filename.length + maxDepLength extra rules + 4

/-- `variable_expand_for_file` (implicit.c 641) with the variables of `st`; what does not end with a text is taken to be empty. -/
def expandText (ext : List (VarSet × Bool) → Str → List Str → Option Str) (fuel : Nat) (st : XState) (t : Str) : Str :=
  match expand ext fuel st t with
  | .ok v _ => v
  | _ => []

/-- What comes of the text of the prerequisites. -/
inductive SecondRes where
  /-- memory outside of the string was read and ran out, or `depname` was written beyond its end -/
  | undefined
  | fatal
  | done (names : List (Str × Bool))
deriving DecidableEq, Repr

theorem nextWordGo_length {mem w rest : Str} (h : nextWordGo mem = some (w, rest)) : rest.length ≤ mem.length := by
  induction hn : mem.length using Nat.strongRecOn generalizing mem w rest with
  | _ n ih =>
    rw [nextWordGo.eq_def] at h
    have key : ∀ (q : Str) (f : Str → Str), q.length < n → (nextWordGo q).map (fun r => (f r.1, r.2)) = some (w, rest) → rest.length ≤ n := by
      intro q f hq hm
      cases hs : nextWordGo q with
      | none => rw [hs] at hm; cases hm
      | some r =>
        rw [hs] at hm; cases hm
        have := ih q.length hq (mem := q) (w := r.1) (rest := r.2) hs rfl
        omega
    cases mem with
    | nil => cases h
    | cons c p =>
      simp only [List.length_cons] at hn
      simp only at h
      split at h
      · cases h; simp; omega
      · split at h
        · cases h; omega
        · split at h
          · cases p with
            | nil => cases h
            | cons d p =>
              simp only [List.length_cons] at hn
              simp only at h
              split at h
              · split at h
                · cases h
                · rename_i a q hq
                  have := skipParens_length hq
                  exact key q (fun x => c :: d :: a ++ x) (by omega) h
              · exact key p (fun x => c :: d :: x) (by omega) h
          · exact key p (fun x => c :: x) (by omega) h

theorem nextWordGo_shorter {c : Char} {p w rest : Str} (h0 : ¬(c = nul ∨ c = ' ' ∨ c = '\t')) (h : nextWordGo (c :: p) = some (w, rest)) :
    rest.length < (c :: p).length := by
  rw [nextWordGo.eq_def] at h
  have key : ∀ (q : Str) (f : Str → Str), q.length ≤ p.length → (nextWordGo q).map (fun r => (f r.1, r.2)) = some (w, rest) →
      rest.length < (c :: p).length := by
    intro q f hq hm
    cases hs : nextWordGo q with
    | none => rw [hs] at hm; cases hm
    | some r =>
      rw [hs] at hm; cases hm
      have := nextWordGo_length (mem := q) (w := r.1) (rest := r.2) hs
      simp; omega
  simp only [h0, if_false] at h
  split at h
  · cases h; simp
  · split at h
    · cases p with
      | nil => cases h
      | cons d p =>
        simp only at h
        split at h
        · split at h
          · cases h
          · rename_i a q hq
            have := skipParens_length hq
            exact key q (fun x => c :: d :: a ++ x) (by simp; omega) h
        · exact key p (fun x => c :: d :: x) (by simp) h
    · exact key p (fun x => c :: x) (by simp) h

theorem getNextWord_shorter {mem w rest : Str} (h : getNextWord mem = .word w rest) : rest.length < mem.length := by
  unfold getNextWord at h
  have hl : (nextToken mem).length ≤ mem.length := (List.dropWhile_sublist _).length_le
  split at h
  · cases h
  · rename_i c p hn
    split at h
    · cases h
    · rename_i hc
      split at h
      · cases h
      · rename_i w' r' hw
        cases h
        have hs := nextToken_head_not_space hn
        have := nextWordGo_shorter (c := c) (p := p) ?_ hw
        · rw [hn] at hl; omega
        · rintro (h | h | h)
          · exact hc h
          · subst h; exact absurd hs (by decide)
          · subst h; exact absurd hs (by decide)

/-- The loop over the words of one prerequisite that needs second expansion (implicit.c 507-519, 565-669); `room` is the size of `depname`
(implicit.c 226), `dir` the directory that is put in front of names from words with a percent sign, if the target has one that is not in the
pattern. -/
def secondLoop (env : FsEnv) (ex : Str → Str) (dir : Option Str) (room : Nat) (orderOnly : Bool) (mem : Str) : SecondRes :=
  match _h : getNextWord mem with
  | .undefined => .undefined
  | .none => .done []
  | .word w rest =>
    if orderOnly = false ∧ w = ['|'] then secondLoop env ex dir room true rest
    else if (fillWord dir.isSome w).length + 1 > room then .undefined
    else
      match wordNames env (if '%' ∈ w then dir else none) orderOnly (ex (cString (fillWord dir.isSome w))) with
      | none => .fatal
      | some (ps, oo) =>
        match secondLoop env ex dir room oo rest with
        | .done l => .done (ps ++ l)
        | r => r
termination_by mem.length
decreasing_by all_goals exact getNextWord_shorter _h

end Remake
