import Verif.Text.Spec
/-! What a POSIX shell makes of a command line, and which part of a line is a command. -/
namespace Remake.Spec
open Remake

/-- The first command of a text: up to the first newline that has no backslash just before it.
`p`: the previous character is a backslash. -/
def commandText : (p : Bool) → Str → Str
  | _, [] => []
  | p, c :: s => if c = '\n' ∧ p = false then [] else c :: commandText (c = '\\') s

/-- The characters that mean something to a POSIX shell when they are not quoted (POSIX XCU 2.2, and the
reserved words `{`, `}` and `!`); `^` is the pipe of old shells. -/
def shSpecial : Str := "|&;<>()$`\"*?[]#~{}!^".toList

/-- The words collected so far and the current one. -/
def flushWord (ws : List Str) : Option Str → List Str
  | none => ws
  | some w => ws ++ [w]

/-- Token recognition and quote removal for a simple command without expansions (POSIX XCU 2.2,
2.3): words are separated by blanks; a backslash quotes the next character and with a newline
disappears; single quotes quote everything.  `none`: the text is something else (it has an unquoted special
character or newline, an assignment before the command name, or an open quote).  `cur` is the word
being read, if there is one.  `last` is what a backslash at the very end stands for (POSIX leaves it
open). -/
def shTokens (last : Str) : (ws : List Str) → (cur : Option Str) → (inq : Bool) → Str → Option (List Str)
  | ws, cur, inq, [] => if inq then none else some (flushWord ws cur)
  | ws, cur, true, c :: s =>
    if c = '\'' then shTokens last ws cur false s
    else shTokens last ws (some (cur.getD [] ++ [c])) true s
  | ws, cur, false, '\\' :: '\n' :: s => shTokens last ws cur false s
  | ws, cur, false, '\\' :: c :: s => shTokens last ws (some (cur.getD [] ++ [c])) false s
  | ws, cur, false, ['\\'] =>
    some (flushWord ws (if last = [] then cur else some (cur.getD [] ++ last)))
  | ws, cur, false, c :: s =>
    if c ∈ shSpecial ∨ c = '\n' then none
    else if c = '\'' then shTokens last ws (some (cur.getD [])) true s
    else if isBlank c then shTokens last (flushWord ws cur) none false s
    else if c = '=' ∧ ws = [] then none
    else shTokens last ws (some (cur.getD [] ++ [c])) false s

/-- The special built-in utilities (POSIX XCU 2.14). -/
def specialBuiltins : List Str :=
  ["break", ":", "continue", ".", "eval", "exec", "exit", "export", "readonly", "return", "set",
   "shift", "times", "trap", "unset"].map String.toList

/-- Utilities that act on the shell that runs them, or report about it, so that they do nothing useful as programs (POSIX XCU 1.7,
2.9.1), and words that begin compound commands (POSIX XCU 2.4). -/
def shellUtilities : List Str :=
  ["alias", "bg", "cd", "command", "fc", "fg", "getopts", "hash", "jobs", "read", "type", "ulimit", "umask", "unalias", "wait",
   "case", "for", "if", "while"].map String.toList

/-- A shell that is given by a plain name: without blanks, quotes, backslashes and equals signs. -/
def plainShell (s : Str) : Prop :=
  s ≠ [] ∧ ∀ c ∈ s, isSpace c = false ∧ c ≠ '\'' ∧ c ≠ '\\' ∧ c ≠ '='

/-- Flags without characters special to the shell, quotes, backslashes and newlines. -/
def plainFlags (s : Str) : Prop :=
  ∀ c ∈ s, c ∉ shSpecial ∧ c ≠ '\'' ∧ c ≠ '\\' ∧ (isSpace c = true → isBlank c = true)

/-- The lines of a script: they end at a newline that is not quoted by a backslash.  `esc`: the
next character is quoted. -/
def scriptLines : (esc : Bool) → Str → List Str
  | _, [] => [[]]
  | esc, c :: s =>
    if c = '\n' ∧ esc = false then [] :: scriptLines false s
    else
      match scriptLines (c = '\\' ∧ esc = false) s with
      | [] => [[c]]
      | l :: ls => (c :: l) :: ls

/-- A script without the blanks and the prefix characters at the start of its lines. -/
def scriptText (s : Str) : Str :=
  "\n".toList.intercalate ((scriptLines false s).map fun l =>
    l.dropWhile fun c => isBlank c || c == '-' || c == '@' || c == '+')

end Remake.Spec
