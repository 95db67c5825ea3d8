import Verif.Misc.Model
import Verif.Base.Lemmas
/-!
# Recipes and automatic variables

Models `src/commands.c` 56-314 (`set_file_variables`), 319-431 (`chop_commands`), 434-539
(`expand_command_lines`), 587-690 (`fatal_error_signal`), 702-771 (`delete_target`,
`delete_child_targets`), `src/job.c` 809-881 and `src/file.c` 201-274 (`remove_intermediates`).
-/
namespace Remake

/-! ## Splitting a recipe into lines -/

/-- The number of backslashes at the end, here at the start of the reversed text, is odd (commands.c
361-367). -/
def oddBackslashes (rev : Str) : Bool := (rev.takeWhile (· = '\\')).length % 2 = 1

/-- The end of a line (commands.c 356-372, 380-382): `rev` is the text between `p` and `end`, reversed.  The
line, and what `p` points to afterwards. -/
def chopLine : (rev s : Str) → Str × Str
  | rev, [] => (rev.reverse, [])
  | rev, c :: s =>
    if c = '\n' then
      if oddBackslashes rev then chopLine (c :: rev) s else (rev.reverse, s)
    else chopLine (c :: rev) s

theorem chopLine_length (rev s : Str) : (chopLine rev s).2.length ≤ s.length := by
  induction s generalizing rev with
  | nil => simp [chopLine]
  | cons c s ih =>
    simp only [chopLine]
    split
    · split
      · have := ih (c :: rev); simp only [List.length_cons]; omega
      · simp
    · have := ih (c :: rev); simp only [List.length_cons]; omega

theorem chopLine_lt (s : Str) (a : s ≠ []) : (chopLine [] s).2.length < s.length := by
  cases s with
  | nil => exact absurd rfl a
  | cons c s =>
    simp only [chopLine, oddBackslashes]
    split
    · simp
    · have := chopLine_length [c] s
      simp only [List.length_cons]; omega

/-- The lines that the loop of `chop_commands` (commands.c 353-383) finds. -/
def chopText (s : Str) : List Str :=
  if a : s = [] then [] else (chopLine [] s).1 :: chopText (chopLine [] s).2
termination_by s.length
decreasing_by exact chopLine_lt s a

/-- The array in which they are stored (commands.c 321-323, 350-352): `idx` is an `unsigned short`. -/
structure ChopArr where
  lines : Nat → Str
  idx : Nat
  nlines : Nat

/-- Storing a line (commands.c 374-379). -/
def ChopArr.push (a : ChopArr) (line : Str) : ChopArr :=
  { lines := fun i => if i = a.idx then line else a.lines i
    idx := (a.idx + 1) % 2 ^ 16
    nlines := if a.idx = a.nlines then a.nlines + 2 else a.nlines }

/-- The lines at the end (commands.c 385-389, 395-399): `cmds->command_lines`. -/
def ChopArr.result (a : ChopArr) : List Str :=
  (List.range (if a.idx ≠ a.nlines then a.idx else a.nlines)).map a.lines

/-- `chop_commands` (commands.c 319-431), the lines; `oneShell` is `.ONESHELL`. -/
def chopCommands (oneShell : Bool) (s : Str) : List Str :=
  if oneShell then [if s.getLast? = some '\n' then s.dropLast else s]
  else ((chopText s).foldl ChopArr.push ⟨fun _ => [], 0, 5⟩).result

/-- `lines_flags` of a line (commands.h 40-42). -/
structure LineFlags where
  recurse : Bool := false
  silent : Bool := false
  noerror : Bool := false
deriving DecidableEq, Repr

/-- The loop over the prefix of a line (commands.c 409-421); the rest of the line. -/
def prefixFlags : (f : LineFlags) → Str → LineFlags × Str
  | f, [] => (f, [])
  | f, c :: s =>
    if c = '+' then prefixFlags { f with recurse := true } s
    else if c = '@' then prefixFlags { f with silent := true } s
    else if c = '-' then prefixFlags { f with noerror := true } s
    else if isBlank c then prefixFlags f s
    else (f, c :: s)

/-- `strstr (s, sub) != 0`. -/
def hasInfix (sub : Str) : Str → Bool
  | [] => sub.isEmpty
  | c :: s => sub.isPrefixOf (c :: s) || hasInfix sub s

/-- The flags of a line (commands.c 406-428). -/
def lineFlags (line : Str) : LineFlags :=
  let (f, p) := prefixFlags {} line
  if !f.recurse && (hasInfix "$(MAKE)".toList p || hasInfix "${MAKE}".toList p) then { f with recurse := true } else f

/-- `any_recurse` (commands.c 401, 429). -/
def anyRecurse (lines : List Str) : Bool := lines.any fun l => (lineFlags l).recurse

/-! ## References in recipe lines -/

/-- Discarding the blanks before `out` (commands.c 510-512), as long as `out > ref`: `len` is `in - ref`,
`lag` is `in - out`. -/
def dropBlanks (len : Nat) : (lag : Nat) → (out : Str) → Nat × Str
  | lag, [] => (lag, [])
  | lag, c :: out => if lag < len ∧ isBlank c then dropBlanks len (lag + 1) out else (lag, c :: out)

/-- Whether a backslash-newline is quoted (commands.c 491-493): the line is changed in place, so what
precedes `in` is what it was before only back to `out`.  `orig` is the text from `ref` to `in` as it was
before, `out` what has been written, both reversed. -/
def collapseQuoted (lag : Nat) (orig out : Str) : Bool :=
  oddBackslashes (((orig.take lag) ++ out).take (orig.length - 1))

/-- The loops of `expand_command_lines` (commands.c 455-532): `out` is what has been written, reversed,
`lag` is `in - out`.  Inside a reference: the opening bracket, `count`, and the text from `ref` to `in`
as it was before, reversed. -/
def collapseRefs (ref : Option (Char × Nat × Str)) (lag : Nat) (out : Str) (s : Str) : Str :=
  match ref, s with
  | _, [] => out.reverse
  | none, c :: t =>
    if c = '$' then
      match t with
      | o :: t' =>
        if o = '(' ∨ o = '{' then collapseRefs (some (o, 0, [o])) lag (o :: '$' :: out) t'
        else collapseRefs none lag ('$' :: out) (o :: t')
      | [] => collapseRefs none lag ('$' :: out) []
    else collapseRefs none lag (c :: out) t
  | some (o, count, orig), c :: t =>
    if c = (if o = '(' then ')' else '}') then
      if count = 0 then collapseRefs none lag (c :: out) t
      else collapseRefs (some (o, count - 1, c :: orig)) lag (c :: out) t
    else if c = '\\' ∧ t.head? = some '\n' then
      if collapseQuoted lag orig out then collapseRefs (some (o, count, c :: orig)) lag (c :: out) t
      else
        let t' := t.tail.dropWhile isSpace
        let eaten := (c :: t).length - t'.length
        let (lag', out') := dropBlanks (orig.length + eaten) (lag + eaten) out
        collapseRefs (some (o, count, ((c :: t).take eaten).reverse ++ orig)) (lag' - 1) (' ' :: out') t'
    else
      collapseRefs (some (o, if c = o then count + 1 else count, c :: orig)) lag (c :: out) t
termination_by s.length
decreasing_by
  all_goals simp_wf
  all_goals try omega
  have := dropWhile_length_le isSpace t.tail
  rw [List.length_tail] at this
  omega

/-- A recipe line before it is expanded (commands.c 455-532). -/
def collapseLine (s : Str) : Str := collapseRefs none 0 [] s

/-! ## Automatic variables -/

/-- `struct dep`, the members that matter for automatic variables (dep.h 50-63). -/
structure ADep where
  name : Str
  order : Bool := false
  second : Bool := false
  noAuto : Bool := false
  changed : Bool := false
deriving DecidableEq, Repr

/-- `need_2nd_expansion || ignore_automatic_vars`. -/
def ADep.skip (d : ADep) : Bool := d.second || d.noAuto

/-- What is listed for a name (commands.c 200-208, 269-277): the member of an archive.  `ar_name` does
not fail here: it would have done so before. -/
def shownName (n : Str) : Str :=
  if arName n = .yes then ((n.dropWhile (· ≠ '(')).drop 1).dropLast else n

/-- `cp[cp > value ? -1 : 0] = '\0'`: the last character is removed. -/
def killSpace (s : Str) : Str := s.dropLast

/-- The value of `$+` (commands.c 192-220). -/
def plusValue (ds : List ADep) : Str :=
  killSpace ((ds.filter fun d => !d.order && !d.skip).flatMap fun d => shownName d.name ++ [' '])

/-- The loop that looks for repeated prerequisites (commands.c 241-259).  `seen`: those already gone
through; the hash table has the first one of each name. -/
def upgradeDeps : (seen rest : List ADep) → List ADep
  | seen, [] => seen
  | seen, d :: rest =>
    if d.skip then upgradeDeps (seen ++ [d]) rest
    else
      match seen.findIdx? fun x => !x.skip && decide (x.name = d.name) with
      | none => upgradeDeps (seen ++ [d]) rest
      | some i =>
        if (seen[i]?.map (·.order)) = some d.order then upgradeDeps (seen ++ [d]) rest
        else upgradeDeps (seen.modify i (fun x => { x with order := false }) ++ [{ d with order := false }]) rest

/-- The buffers for `$^`, `$?` and `$|`. -/
structure AutoBufs where
  caret : Str := []
  qmark : Str := []
  bar : Str := []
deriving DecidableEq, Repr

/-- The loop that lists them (commands.c 261-297). -/
def listDeps (always : Bool) : (seen rest : List ADep) → AutoBufs → AutoBufs
  | _, [], b => b
  | seen, d :: rest, b =>
    if d.skip || (seen.any fun x => !x.skip && decide (x.name = d.name)) then listDeps always (seen ++ [d]) rest b
    else
      let c := shownName d.name ++ [' ']
      listDeps always (seen ++ [d]) rest
        (if d.order then { b with bar := b.bar ++ c }
         else { b with caret := b.caret ++ c, qmark := if d.changed || always then b.qmark ++ c else b.qmark })

/-- The automatic variables; `deps` is the list of prerequisites afterwards. -/
structure AutoVars where
  plus : Str
  caret : Str
  qmark : Str
  bar : Str
  deps : List ADep
deriving DecidableEq, Repr

/-- `$+`, `$^`, `$?` and `$|` (commands.c 167-310), if the buffers are large enough. -/
def setListVars (always : Bool) (ds : List ADep) : AutoVars :=
  let ds' := upgradeDeps [] ds
  let b := listDeps always [] ds' {}
  { plus := plusValue ds, caret := killSpace b.caret, qmark := killSpace b.qmark, bar := killSpace b.bar, deps := ds' }

/-- `plus_len` (commands.c 170-190): the size of the buffer for `$+` and `$^`, if there is not a larger
one from another time. -/
def plusLen (ds : List ADep) : Nat :=
  max 1 ((ds.filter fun d => !d.order && !d.skip).map fun d => d.name.length + 1).sum

/-- `bar_len` (commands.c 170-184). -/
def barLen (ds : List ADep) : Nat :=
  max 1 ((ds.filter fun d => d.order && !d.skip).map fun d => d.name.length + 1).sum

/-- `qmark_len` (commands.c 194, 213-214), a `size_t`; it does not become negative. -/
def qmarkLen (always : Bool) (ds : List ADep) : Nat :=
  plusLen ds + 1 - ((ds.filter fun d => !d.order && !d.skip && !(d.changed || always)).map fun d => (shownName d.name).length + 1).sum

/-- The same with the buffers, which are static (commands.c 154-155, 189-190, 226-232): `plusMax`, `barMax`
and `qmarkMax` are their sizes from before, zero in the beginning.  `none` if something is written
past the end of one of them. -/
def setListVarsIn (plusMax barMax qmarkMax : Nat) (always : Bool) (ds : List ADep) : Option AutoVars :=
  let b := listDeps always [] (upgradeDeps [] ds) {}
  if (ds.filter fun d => !d.order && !d.skip).foldl (fun n d => n + (shownName d.name).length + 1) 0 ≤ max plusMax (plusLen ds) ∧
      b.caret.length ≤ max plusMax (plusLen ds) ∧
      b.bar.length ≤ max barMax (barLen ds) ∧
      b.qmark.length ≤ max qmarkMax (qmarkLen always ds) then
    some (setListVars always ds)
  else none

/-- `$<` (commands.c 126-139): `isDefault` if the recipe is that of `.DEFAULT`. -/
def lessValue (isDefault : Bool) (at_ : Str) (ds : List ADep) : Str :=
  if isDefault then at_
  else
    match ds.find? fun d => !d.order && !d.noAuto with
    | none => []
    | some d => if d.second then [] else d.name

/-- `$@` and `$%` (commands.c 65-88). -/
def atPercent (name : Str) : Str × Str :=
  if arName name = .yes then arParseName name else (name, [])

/-- `$*` for a target without a stem (commands.c 90-124): the first suffix that the name, or the
member, ends with is removed. -/
def explicitStem (suffixes : List Str) (name : Str) : Str :=
  let n := if arName name = .yes then (arParseName name).2 else name
  match suffixes.find? fun sfx => decide (sfx.length < n.length) && decide (n.drop (n.length - sfx.length) = sfx) with
  | some sfx => n.take (n.length - sfx.length)
  | none => []

/-! ## Deleting targets -/

/-- What a file name leads to. -/
structure Inode where
  regular : Bool
  mtime : Nat
deriving DecidableEq, Repr

/-- The file system. -/
abbrev Disk := Str → Option Inode

/-- `unlink`, which may fail. -/
def Disk.unlink (d : Disk) (ok : Str → Bool) (n : Str) : Disk := fun x => if x = n ∧ ok n then none else d x

/-- A target, as `delete_target` and `remove_intermediates` see it (filedef.h 33-122). -/
structure DFile where
  name : Str
  precious : Bool := false
  phony : Bool := false
  lastMtime : Nat := 0
  intermediate : Bool := false
  secondary : Bool := false
  dontcare : Bool := false
  cmdTarget : Bool := false
  /-- `update_status != us_none` -/
  touched : Bool := false
deriving DecidableEq, Repr

/-- `delete_target` (commands.c 702-749).  `ok`: whether unlinking a file works. -/
def deleteTarget (ok : Str → Bool) (d : Disk) (f : DFile) : Disk :=
  if f.precious || f.phony then d
  else if arName f.name = .yes then d
  else
    match d f.name with
    | none => d
    | some i => if i.regular && decide (i.mtime ≠ f.lastMtime) then d.unlink ok f.name else d

/-- `struct child` (job.h), the members that matter here. -/
structure DChild where
  file : DFile
  also : List DFile := []
  deleted : Bool := false
  pid : Int
deriving DecidableEq, Repr

/-- `delete_child_targets` (commands.c 755-771). -/
def deleteChildTargets (ok : Str → Bool) (d : Disk) (c : DChild) : Disk × DChild :=
  if c.deleted || decide (c.pid < 0) then (d, c)
  else (c.also.foldl (deleteTarget ok) (deleteTarget ok d c.file), { c with deleted := true })

/-- The loop over the children in `fatal_error_signal` (commands.c 660-661). -/
def interruptChildren (ok : Str → Bool) : Disk → List DChild → Disk × List DChild
  | d, [] => (d, [])
  | d, c :: cs =>
    let (d, c) := deleteChildTargets ok d c
    let (d, cs) := interruptChildren ok d cs
    (d, c :: cs)

/-- A recipe has failed and this is not ignored (job.c 809-826): `signal` if it was ended by one,
`onError` for `.DELETE_ON_ERROR`. -/
def recipeFailed (ok : Str → Bool) (signal onError : Bool) (d : Disk) (c : DChild) : Disk × DChild :=
  if signal || onError then deleteChildTargets ok d c else (d, c)

/-- Whether a file is removed at the end (file.c 224-232). -/
def removable (f : DFile) : Bool :=
  f.intermediate && (f.dontcare || !f.precious) && !f.secondary && !f.cmdTarget && f.touched

/-- `remove_intermediates` (file.c 201-274); `never` if there is `-q`, `-t` or an empty `.SECONDARY`;
`dry` for `-n`.  The files of the table in the order of the slots. -/
def removeIntermediates (ok : Str → Bool) (never dry : Bool) (d : Disk) (files : List DFile) : Disk :=
  if never then d
  else files.foldl (fun d f => if removable f && !dry then d.unlink ok f.name else d) d

end Remake
