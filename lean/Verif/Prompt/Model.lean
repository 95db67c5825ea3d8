import Verif.Member.Model

/-!
# The prompt of the debugger

Models the prompt of `enter_debugger` (libdebugger/cmd.c 316-327, 365-376), which tells the level of recursion by nested brackets.  Writing outside of the arrays, and reading bytes not written, give `none` (`mbPut`, `mbGet`).
-/
namespace Remake

/-- The loop that writes the brackets (cmd.c 316-319; `MAX_NEST_DEPTH` is 10): the array and `i` afterwards. -/
def dpLoop (level : Nat) (c : Char) (i : Nat) (buf : List (Option Char)) : Option (List (Option Char) × Nat) :=
  if i ≤ level ∧ i < 10 - 5 then (mbPut buf i [c]).bind fun b => dpLoop level c (i + 1) b
  else some (buf, i)
termination_by 10 - i

/-- `open_depth` or `close_depth` (cmd.c 249-250, 316-327). -/
def dpDepth (level : Nat) (c : Char) : Option Str :=
  (dpLoop level c 0 (List.replicate 10 none)).bind fun (b, i) =>
  (if 10 - 5 = i then
    (mbPut b i ['.']).bind fun b => (mbPut b (i + 1) ['.']).bind fun b => (mbPut b (i + 2) ['.']).map fun b => (b, i + 3)
   else some (b, i)).bind fun (b, i) =>
  (mbPut b i [Char.ofNat 0]).bind mbGet

/-- The prompt (cmd.c 365-376): cut to 299 characters by `snprintf`.  `n` is `where_history ()`, or 0 without readline. -/
def dpPrompt (level n : Nat) : Option Str :=
  (dpDepth level '<').bind fun o => (dpDepth level '>').map fun c =>
    ("remake".toList ++ o ++ Nat.toDigits 10 n ++ c ++ [' ']).take 299

end Remake
