import Verif.Cmds.Model
/-!
# What recipes and automatic variables should be
-/
namespace Remake.Spec

/-- A text ends with an odd number of backslashes. -/
def OddEnd (t : Str) : Prop :=
  ∃ a k, t = a ++ List.replicate (2 * k + 1) '\\' ∧ a.getLast? ≠ some '\\'

/-- All newlines of a line are escaped. -/
def OnlyEscaped (l : Str) : Prop := ∀ a b, l = a ++ '\n' :: b → OddEnd a

/-- The lines of a recipe: a newline that is not escaped ends a line, an escaped one does not. -/
inductive Lines : Str → List Str → Prop
  | nil : Lines [] []
  | last {l} : l ≠ [] → OnlyEscaped l → Lines l [l]
  | cons {l s ls} : OnlyEscaped l → ¬ OddEnd l → Lines s ls → Lines (l ++ '\n' :: s) (l :: ls)

/-- The longest prefix of a line that consists of blanks, `+`, `@` and `-`. -/
def linePrefix (l : Str) : Str := l.takeWhile fun c => c = ' ' || c = '\t' || c = '+' || c = '@' || c = '-'

/-- Words with a space between them. -/
def spacedOut : List Str → Str
  | [] => []
  | [w] => w
  | w :: ws => w ++ ' ' :: spacedOut ws

/-- Each word once, where it occurs first. -/
def once : List Str → List Str
  | [] => []
  | w :: ws => w :: (once ws).filter (· ≠ w)

/-- The prerequisites that automatic variables are about. -/
def eligible (ds : List ADep) : List ADep := ds.filter fun d => !d.second && !d.noAuto

/-- There is a normal prerequisite of this name. -/
def isNormal (ds : List ADep) (n : Str) : Bool := (eligible ds).any fun d => decide (d.name = n) && !d.order

/-- The first prerequisite of this name has changed. -/
def isChanged (ds : List ADep) (n : Str) : Bool :=
  (((eligible ds).find? fun d => decide (d.name = n)).map (·.changed)).getD false

/-- How a prerequisite is listed: a member of an archive without the archive. -/
def listed (n : Str) : Str := if arName n = .yes then (arParseName n).2 else n

/-- A target that is to be deleted: a regular file that has changed, neither precious nor phony. -/
def Doomed (d : Disk) (f : DFile) : Prop :=
  f.precious = false ∧ f.phony = false ∧ arName f.name ≠ .yes ∧
    ∃ i, d f.name = some i ∧ i.regular = true ∧ i.mtime ≠ f.lastMtime

/-- The line of a recipe as it is meant to be: inside of references, a backslash-newline, the blanks
before it and the white space after it become one space.  `ref`: the opening bracket and the number of
brackets that are open besides; `out` is reversed. -/
def joined (ref : Option (Char × Nat)) (out : Str) (s : Str) : Str :=
  match ref, s with
  | _, [] => out.reverse
  | none, c :: t =>
    if c = '$' then
      match t with
      | o :: t' =>
        if o = '(' ∨ o = '{' then joined (some (o, 0)) (o :: '$' :: out) t'
        else joined none ('$' :: out) (o :: t')
      | [] => joined none ('$' :: out) []
    else joined none (c :: out) t
  | some (o, n), c :: t =>
    if c = (if o = '(' then ')' else '}') then
      if n = 0 then joined none (c :: out) t else joined (some (o, n - 1)) (c :: out) t
    else if c = '\\' ∧ t.head? = some '\n' ∧ (out.takeWhile (· = '\\')).length % 2 = 0 then
      joined (some (o, n)) (' ' :: out.dropWhile isBlank) (t.tail.dropWhile isSpace)
    else joined (some (o, if c = o then n + 1 else n)) (c :: out) t
termination_by s.length
decreasing_by
  all_goals simp_wf
  all_goals try omega
  have := dropWhile_length_le isSpace t.tail
  rw [List.length_tail] at this
  omega

end Remake.Spec
