import Verif.Debugger.Vars
import Verif.Debugger.Spec
import Verif.Var.Spec
/-!
# What the debugger commands about variables, settings, files and scripts should do
-/
namespace Remake.Spec
open Remake

/-- The global set differs only in `n`. -/
def OnlyAt (g g' : VarSet) (n : Str) : Prop := ∀ m, m ≠ n → g' m = g m

/-- The names of the settings, with the fewest letters the command asks for. -/
inductive SettingName : Str → Setting → Prop
  | basename (w : Str) : w <+: "basename".toList → 1 ≤ w.length → SettingName w .basename
  | ignore (w : Str) : w <+: "ignore-errors".toList → 3 ≤ w.length → SettingName w .ignore
  | keep (w : Str) : w <+: "keep-going".toList → 1 ≤ w.length → SettingName w .keep
  | silent (w : Str) : w <+: "silent".toList → 1 ≤ w.length → SettingName w .silent

/-- What a word says about a flag that was on or off. -/
inductive Says : Str → Int → Int → Prop
  | on (old : Int) : Says "on".toList old 1
  | off (old : Int) : Says "off".toList old 0
  | toggleOn : Says "toggle".toList 0 1
  | toggleOff (old : Int) : old ≠ 0 → Says "toggle".toList old 0

/-- The text of a file with these lines, each ended. -/
def fileOf : List Str → Str
  | [] => []
  | l :: ls => l ++ '\n' :: fileOf ls

/-- A line that fits and holds something. -/
def Plain (l : Str) : Prop := '\n' ∉ l ∧ l.length ≤ 2046 ∧ ∃ c ∈ l, isWhite c = false

/-- Typed one after the other, none of the lines ends the session or fails. -/
def AllStay {σ : Type} (run : σ → Str → σ × DbgRet) : σ → List Str → Prop
  | _, [] => True
  | st, l :: ls => (run st (stripwhite l)).2 = .readloop ∧ AllStay run (run st (stripwhite l)).1 ls

/-- A character that a recipe line may begin with and that is not part of the command. -/
def isPrefixChar (c : Char) : Prop := c = '@' ∨ c = '+' ∨ c = '-' ∨ c = ' ' ∨ c = '\t'

/-- The command of a recipe line: without the characters in front. -/
inductive CommandOf : Str → Str → Prop
  | bare (s : Str) : (∀ c ∈ s.head?, ¬ isPrefixChar c) → CommandOf s s
  | skip (c : Char) (s r : Str) : isPrefixChar c → CommandOf s r → CommandOf (c :: s) r

/-- The commands of these lines, in order. -/
inductive CommandsOf : List Str → List Str → Prop
  | nil : CommandsOf [] []
  | cons {l c : Str} {ls cs : List Str} : CommandOf l c → CommandsOf ls cs → CommandsOf (l :: ls) (c :: cs)

/-- Lines joined by newlines. -/
def nlJoined : List Str → Str
  | [] => []
  | [l] => l
  | l :: ls => l ++ '\n' :: nlJoined ls

end Remake.Spec
