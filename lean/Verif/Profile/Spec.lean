import Verif.Profile.Model
import Verif.Misc.Spec

/-!
# JSON (RFC 8259), and what a profile says
-/
namespace Remake.Spec
open Remake

/-- The values of JSON; a number is `m / 10 ^ k`. -/
inductive Json where
  | null
  | bool (b : Bool)
  | num (m : Int) (k : Int)
  | str (s : Str)
  | arr (l : List Json)
  | obj (l : List (Str × Json))

/-- White space of JSON. -/
def JWhite (s : Str) : Prop := ∀ c ∈ s, c = ' ' ∨ c = '\t' ∨ c = '\n' ∨ c = '\r'

/-- The value of a string of digits. -/
def decValue (ds : Str) : Nat := ds.foldl (fun v c => 10 * v + (c.toNat - '0'.toNat)) 0

/-- The value of a digit of base sixteen. -/
def hexDigit (c : Char) : Option Nat :=
  if c.isDigit then some (c.toNat - '0'.toNat)
  else if 'a' ≤ c ∧ c ≤ 'f' then some (c.toNat - 'a'.toNat + 10)
  else if 'A' ≤ c ∧ c ≤ 'F' then some (c.toNat - 'A'.toNat + 10)
  else none

/-- `ExpText e t`: `t` is the exponent `e` of a number of JSON, or nothing and `e` is 0. -/
def ExpText (e : Int) (t : Str) : Prop :=
  e = 0 ∧ t = [] ∨
  ∃ (c : Char) (sign ds : Str), (c = 'e' ∨ c = 'E') ∧ ds ≠ [] ∧ (∀ d ∈ ds, d.isDigit = true) ∧ t = c :: sign ++ ds ∧
    ((sign = [] ∨ sign = ['+']) ∧ e = decValue ds ∨ sign = ['-'] ∧ e = -(decValue ds : Int))

/-- `NumText m k t`: `t` is a number of JSON with the value `m / 10 ^ k`. -/
def NumText (m : Int) (k : Int) (t : Str) : Prop :=
  ∃ (neg : Bool) (ip fp ex : Str) (e : Int), ip ≠ [] ∧ (∀ c ∈ ip ++ fp, c.isDigit = true) ∧ (ip.head? = some '0' → ip = ['0']) ∧ ExpText e ex ∧
    k = fp.length - e ∧ t = (if neg then ['-'] else []) ++ ip ++ (if fp = [] then [] else '.' :: fp) ++ ex ∧
    m = if neg then -(decValue (ip ++ fp) : Int) else decValue (ip ++ fp)

/-- `StrText s b`: `b` is the text between the quotes of a JSON string, `s` what it stands for.  Of a character written as two surrogates the
surrogates are not joined. -/
inductive StrText : Str → Str → Prop
  | nil : StrText [] []
  | char {c : Char} {s b : Str} : c ≠ '"' → c ≠ '\\' → ¬ c.toNat < 0x20 → StrText s b → StrText (c :: s) (c :: b)
  | same {c : Char} {s b : Str} : c = '"' ∨ c = '\\' ∨ c = '/' → StrText s b → StrText (c :: s) ('\\' :: c :: b)
  | named {c d : Char} {s b : Str} : (c, d) ∈ [('b', '\x08'), ('f', '\x0c'), ('n', '\n'), ('r', '\r'), ('t', '\t')] → StrText s b →
      StrText (d :: s) ('\\' :: c :: b)
  | hex {h₁ h₂ h₃ h₄ : Char} {n₁ n₂ n₃ n₄ : Nat} {s b : Str} : hexDigit h₁ = some n₁ → hexDigit h₂ = some n₂ → hexDigit h₃ = some n₃ →
      hexDigit h₄ = some n₄ → StrText s b →
      StrText (Char.ofNat (((n₁ * 16 + n₂) * 16 + n₃) * 16 + n₄) :: s) ('\\' :: 'u' :: h₁ :: h₂ :: h₃ :: h₄ :: b)

/-- What a text may be: a value, the elements of an array, the members of an object. -/
inductive JKind where
  | val (v : Json)
  | elems (l : List Json)
  | members (l : List (Str × Json))

/-- The grammar of JSON. -/
inductive JText : JKind → Str → Prop
  | null : JText (.val .null) "null".toList
  | true : JText (.val (.bool true)) "true".toList
  | false : JText (.val (.bool false)) "false".toList
  | num {m k : Int} {t : Str} : NumText m k t → JText (.val (.num m k)) t
  | str {s b : Str} : StrText s b → JText (.val (.str s)) ('"' :: b ++ ['"'])
  | empty {w : Str} : JWhite w → JText (.val (.arr [])) ('[' :: w ++ [']'])
  | arr {l : List Json} {t : Str} : JText (.elems l) t → JText (.val (.arr l)) ('[' :: t ++ [']'])
  | nothing {w : Str} : JWhite w → JText (.val (.obj [])) ('{' :: w ++ ['}'])
  | obj {l : List (Str × Json)} {t : Str} : JText (.members l) t → JText (.val (.obj l)) ('{' :: t ++ ['}'])
  | one {v : Json} {a t b : Str} : JWhite a → JText (.val v) t → JWhite b → JText (.elems [v]) (a ++ t ++ b)
  | more {v : Json} {l : List Json} {a t b r : Str} : JWhite a → JText (.val v) t → JWhite b → JText (.elems l) r →
      JText (.elems (v :: l)) (a ++ t ++ b ++ ',' :: r)
  | last {k : Str} {v : Json} {a kt b c t d : Str} : JWhite a → StrText k kt → JWhite b → JWhite c → JText (.val v) t → JWhite d →
      JText (.members [(k, v)]) (a ++ '"' :: kt ++ '"' :: b ++ ':' :: c ++ t ++ d)
  | member {k : Str} {v : Json} {l : List (Str × Json)} {a kt b c t d r : Str} : JWhite a → StrText k kt → JWhite b → JWhite c →
      JText (.val v) t → JWhite d → JText (.members l) r →
      JText (.members ((k, v) :: l)) (a ++ '"' :: kt ++ '"' :: b ++ ':' :: c ++ t ++ d ++ ',' :: r)

/-- A JSON document. -/
def IsJson (v : Json) (s : Str) : Prop := ∃ a t b, JWhite a ∧ JText (.val v) t ∧ JWhite b ∧ s = a ++ t ++ b

/-! ## The profile -/

/-- A text as it is shown: control characters are blanks. -/
def shownText (s : Str) : Json := .str (s.map fun c => if c ∈ softControl then ' ' else c)

/-- A stamp of the profile: none yet, or a time from 1970 to 2514. -/
def IsStamp (ts : Nat) : Prop := ts = 0 ∨ ∃ a : Time, a.inRange ∧ ts = timestampCons a.sec a.ns

/-- A time in seconds with nine decimals. -/
def shownTime (ts : Nat) : Json :=
  if ts = 0 then .null else .num ((ts - 3) / 2 ^ 30 * 10 ^ 9 + (ts - 3) % 2 ^ 30 : Nat) 9

/-- An integer. -/
def shownInt (i : Int) : Json := .num i 0

/-- The name of a makefile, if there is one. -/
def shownFile : Option Str → Json
  | some f => .str f
  | none => .null

/-- A target. -/
def shownTarget (e : PEntry) : Json :=
  .obj [("name".toList, shownText e.name), ("file".toList, shownFile e.file), ("line".toList, shownInt e.line),
    ("start".toList, shownTime e.start), ("deps".toList, shownTime e.deps), ("recipe".toList, shownTime e.recipe), ("end".toList, shownTime e.stop),
    ("depends".toList, .arr (e.calls.map shownText))]

/-- The make that started this one. -/
def shownParent (pid : Nat) (target : Option Str) : List (Str × Json) :=
  match target with
  | some t => if pid = 0 then [] else [("parent".toList, .obj [("pid".toList, shownInt pid), ("target".toList, shownText t)])]
  | none => []

/-- A run. -/
def shownRun (c : PContext) (es : List PEntry) : Json :=
  .obj ([("version".toList, .str "1.0.0".toList), ("pid".toList, shownInt c.pid)] ++ shownParent c.parentPid c.parentTarget ++
    [("creator".toList, .str c.creator), ("argv".toList, .arr (c.argv.map shownText)), ("jobs".toList, shownInt c.jobs), ("server".toList, .bool c.jobserver),
     ("status".toList, .str c.status), ("start".toList, shownTime c.start), ("end".toList, shownTime c.stop), ("directory".toList, .str c.directory),
     ("entry".toList, .arr (c.goals.map shownText)), ("targets".toList, .arr (es.map shownTarget))])

/-- A text that may be printed between quotes as it is. -/
def PlainJson (s : Str) : Prop := ∀ c ∈ s, c ≠ '"' ∧ c ≠ '\\' ∧ ¬ c.toNat < 0x20

/-- A text that `escape_print` prints well: no control characters but those that are shown as blanks. -/
def SoftJson (s : Str) : Prop := ∀ c ∈ s, c.toNat < 0x20 → c ∈ softControl

/-! ## The history -/

/-- The target of an event. -/
def _root_.Remake.PEvent.target : PEvent → PTarget
  | .push t _ _ => t
  | .pop t _ => t
  | .stamp t _ => t

/-- The time of an event. -/
def _root_.Remake.PEvent.now : PEvent → Nat
  | .push _ _ now => now
  | .pop _ now => now
  | .stamp _ now => now

/-- The names in an event. -/
def _root_.Remake.PEvent.names : PEvent → List Str
  | .push t (some p) _ => [t.name, p.name]
  | e => [e.target.name]

/-- The time when a target was first seen in a state; 0 if it was not. -/
def firstIn (n : Str) (st : CmdState) : List PEvent → Nat
  | [] => 0
  | e :: es => if e.target.name = n ∧ e.target.state = st then e.now else firstIn n st es

/-- The targets that were considered for the target `n`, in order. -/
def consideredFor (n : Str) : List PEvent → List Str
  | [] => []
  | .push t (some p) _ :: es => if p.name = n then t.name :: consideredFor n es else consideredFor n es
  | _ :: es => consideredFor n es

/-- The record of the target `n` in the last event of leaving it. -/
def lastLeft (n : Str) (evs : List PEvent) : Option PTarget :=
  (evs.filterMap fun ev => match ev with | .pop t _ => if t.name = n then some t else none | _ => none).getLast?

/-- The record of the target `n` in the first event it is in. -/
def firstNamed (n : Str) : List PEvent → Option PTarget
  | [] => none
  | ev :: evs =>
    if ev.target.name = n then some ev.target
    else match ev with
      | .push _ (some p) _ => if p.name = n then some p else firstNamed n evs
      | _ => firstNamed n evs

/-! ## Reading a callgrind file -/

/-- The pairs of file and function that costs are given for. -/
def cgDefined (file : Str) : List CgLine → List (Str × Str)
  | [] => []
  | .fl f :: ls => cgDefined f ls
  | .fn n :: ls => (file, n) :: cgDefined file ls
  | _ :: ls => cgDefined file ls

/-- The pairs of file and function that are called: `cfi` is for the next call only; without it the function is in the file of the caller. -/
def cgCalled (file : Str) (cfi : Option Str) : List CgLine → List (Str × Str)
  | [] => []
  | .fl f :: ls => cgCalled f cfi ls
  | .cfi f :: ls => cgCalled file (some f) ls
  | .cfn n :: ls => (cfi.getD file, n) :: cgCalled file none ls
  | _ :: ls => cgCalled file cfi ls

end Remake.Spec
