import Verif.Cmds.Lemmas
import Verif.Cmds.Auto
import Verif.Cmds.Collapse
import Verif.Cmds.Delete
/-!
# Recipes and automatic variables: properties
-/
namespace Remake
set_option linter.unusedVariables false
open Spec

/-! ## C39 -/

/-- **C39**: `$+` lists the normal prerequisites in order; `$^` lists once, where they occur first, the
names with a normal occurrence; `$?` those of them that have changed; `$|` the names with no normal
occurrence.  This is for lists in which the occurrences of a name agree on whether it has changed, and
whatever the sizes of the buffers from before (see `C39_qmark_overflow`). -/
theorem C39_lists_partial (plusMax barMax qmarkMax : Nat) (always : Bool) (ds : List ADep)
    (same : ∀ d ∈ ds, ∀ e ∈ ds, d.name = e.name → d.changed = e.changed) :
    ∃ v, setListVarsIn plusMax barMax qmarkMax always ds = some v ∧
      v.plus = spacedOut (((eligible ds).filter fun d => !d.order).map fun d => listed d.name) ∧
      v.caret = spacedOut (((once ((eligible ds).map (·.name))).filter (isNormal ds)).map listed) ∧
      v.qmark = spacedOut (((once ((eligible ds).map (·.name))).filter fun n => isNormal ds n && (isChanged ds n || always)).map listed) ∧
      v.bar = spacedOut (((once ((eligible ds).map (·.name))).filter fun n => !isNormal ds n).map listed) :=
  ⟨_, buffers_fit plusMax barMax qmarkMax always ds same, plus_spec ds, lists_spec always ds⟩

/-- Some prerequisites. -/
def someDeps : List ADep :=
  [{ name := "a".toList }, { name := "b".toList, order := true }, { name := "lib(m)".toList, changed := true }, { name := "a".toList },
   { name := "c".toList, order := true }, { name := "b".toList }, { name := "x".toList, noAuto := true }]

/-- The hypothesis holds of a list with repetitions, order-only prerequisites and a member of an
archive. -/
example : (∀ d ∈ someDeps, ∀ e ∈ someDeps, d.name = e.name → d.changed = e.changed) ∧
    setListVarsIn 0 0 0 false someDeps = some (setListVars false someDeps) ∧
    (setListVars false someDeps).plus = "a m a b".toList ∧ (setListVars false someDeps).caret = "a b m".toList ∧
    (setListVars false someDeps).qmark = "m".toList ∧ (setListVars false someDeps).bar = "c".toList := by
  decide +kernel

/-- **C39** does not hold as stated: if a prerequisite is listed as order-only and later as a normal one,
and has changed only the first time it was looked at, more is written to the buffer for `$?` than
there is room. -/
theorem C39_qmark_overflow : ∃ ds, setListVarsIn 0 0 0 false ds = none :=
  ⟨[{ name := "out".toList, order := true, changed := true }, { name := "out".toList }, { name := "in".toList, changed := true }], by decide +kernel⟩

/-- **C39**: computing the variables a second time gives another `$+` if an order-only prerequisite is also
a normal one: the list of prerequisites is changed. -/
theorem C39_plus_changes : ∃ ds, (setListVars false (setListVars false ds).deps).plus ≠ (setListVars false ds).plus :=
  ⟨[{ name := "a".toList, order := true }, { name := "a".toList }], by decide +kernel⟩

/-- **C39**: `$<` is the first prerequisite that is not order-only; for the recipe of `.DEFAULT` it is
`$@`. -/
theorem C39_first (at_ : Str) (xs ys : List ADep) (d : ADep) (a : ∀ x ∈ xs, x.order = true ∨ x.noAuto = true)
    (b : d.order = false) (c : d.noAuto = false) (e : d.second = false) :
    lessValue false at_ (xs ++ d :: ys) = d.name ∧ lessValue false at_ xs = [] ∧ lessValue true at_ (xs ++ d :: ys) = at_ := by
  have n : xs.find? (fun d => !d.order && !d.noAuto) = none := by
    rw [List.find?_eq_none]
    intro x hx
    rcases a x hx with h | h <;> simp [h]
  refine ⟨?_, ?_, rfl⟩
  · simp [lessValue, List.find?_append, n, b, c, e]
  · simp [lessValue, n]

/-- **C39**: `$@` and `$%` of a member are the archive and the member; otherwise `$@` is the target. -/
theorem C39_at (a m : Str) (ha : a ≠ []) (hp : '(' ∉ a) (hm : m ≠ []) (hb : ¬ (m.head? = some '(' ∧ m.getLast? = some ')')) :
    atPercent (a ++ '(' :: m ++ [')']) = (a, m) ∧ (∀ n, '(' ∉ n → atPercent n = (n, [])) := by
  have dw : ∀ (a r : Str), '(' ∉ a → (a ++ r).dropWhile (· ≠ '(') = r.dropWhile (· ≠ '(') := by
    intro a r h
    induction a with
    | nil => rfl
    | cons c a ih =>
      simp only [List.mem_cons, not_or] at h
      rw [List.cons_append, List.dropWhile_cons, if_pos (by simpa using fun e => h.1 e.symm), ih h.2]
  have tw : ∀ (a r : Str), '(' ∉ a → (a ++ '(' :: r).takeWhile (· ≠ '(') = a := by
    intro a r h
    induction a with
    | nil => rfl
    | cons c a ih =>
      simp only [List.mem_cons, not_or] at h
      rw [List.cons_append, List.takeWhile_cons, if_pos (by simpa using fun e => h.1 e.symm), ih h.2]
  constructor
  · have e : (a ++ '(' :: m ++ [')']).dropWhile (· ≠ '(') = '(' :: (m ++ [')']) := by
      rw [List.append_assoc, dw a _ hp]; rfl
    have y : arName (a ++ '(' :: m ++ [')']) = .yes := by
      rw [arName, e]
      simp only
      rw [if_neg, if_neg, if_neg]
      · rintro ⟨h1, h2⟩
        apply hb
        refine ⟨?_, by simpa using h2⟩
        cases m with
        | nil => exact absurd rfl hm
        | cons c m => exact h1
      · intro h
        rcases h with h | h
        · apply h; rw [← List.cons_append, List.getLast?_append]; rfl
        · cases m with
          | nil => exact hm rfl
          | cons c m => simp at h
      · intro h
        have := congrArg List.length h
        simp at this
        exact ha this
    rw [atPercent, if_pos y, arParseName, e, List.append_assoc, List.cons_append, tw a _ hp]
    simp
  · intro n h
    have e := dw n [] h
    rw [List.append_nil] at e
    rw [atPercent, arName, e]
    rfl

example : atPercent "libx.a(y.o)".toList = ("libx.a".toList, "y.o".toList) := by decide +kernel

/-- **C39**: `$*` of an explicit rule: a name that ends with one of the suffixes, and is longer, without
the first of them. -/
theorem C39_stem (pre post : List Str) (sfx stem : Str) (h : stem ≠ [])
    (a : arName (stem ++ sfx) ≠ .yes) (b : ∀ x ∈ pre, ¬ (x <:+ stem ++ sfx ∧ x ≠ stem ++ sfx)) :
    explicitStem (pre ++ sfx :: post) (stem ++ sfx) = stem := by
  have key : ∀ x : Str, (decide (x.length < (stem ++ sfx).length) && decide ((stem ++ sfx).drop ((stem ++ sfx).length - x.length) = x)) = true →
      x <:+ stem ++ sfx ∧ x ≠ stem ++ sfx := by
    intro x hx
    simp only [Bool.and_eq_true, decide_eq_true_eq] at hx
    refine ⟨?_, fun e => ?_⟩
    · rw [← hx.2]; exact List.drop_suffix _ _
    · rw [e] at hx; exact absurd hx.1 (Nat.lt_irrefl _)
  have n : pre.find? (fun x => decide (x.length < (stem ++ sfx).length) && decide ((stem ++ sfx).drop ((stem ++ sfx).length - x.length) = x)) = none := by
    rw [List.find?_eq_none]
    intro x hx hk
    exact b x hx (key x hk)
  have l : 0 < stem.length := List.length_pos_iff.2 h
  have t : (decide (sfx.length < (stem ++ sfx).length) && decide ((stem ++ sfx).drop ((stem ++ sfx).length - sfx.length) = sfx)) = true := by
    simp only [Bool.and_eq_true, decide_eq_true_eq, List.length_append]
    refine ⟨by omega, ?_⟩
    rw [show stem.length + sfx.length - sfx.length = stem.length by omega, List.drop_left]
  simp only [explicitStem, if_neg a]
  rw [List.find?_append, n, Option.none_or, List.find?_cons, t]
  simp

example : explicitStem [".o".toList, ".c".toList] "main.c".toList = "main".toList := by decide +kernel

/-! ## C40 -/

/-- **C40**: a recipe is split exactly at the newlines that are not escaped; there is only one list of
lines that has this property.  This is for recipes of less than 65536 lines (see
`C40_too_many`). -/
theorem C40_split_partial (s : Str) (h : s.count '\n' + 1 < 2 ^ 16) :
    Lines s (chopCommands false s) ∧ ∀ ls, Lines s ls → ls = chopCommands false s := by
  have l := chopText_lines s
  have e : chopCommands false s = chopText s := by
    rw [chopCommands]
    exact push_result _ (by have := lines_count l; omega)
  rw [e]
  exact ⟨l, fun ls h => lines_unique h l⟩

/-- **C40**: the lines with newlines between them are the recipe, but for a last newline. -/
theorem C40_rejoin_partial (s : Str) (h : s.count '\n' + 1 < 2 ^ 16) :
    s = List.intercalate ['\n'] (chopCommands false s) ∨ s = List.intercalate ['\n'] (chopCommands false s) ++ ['\n'] :=
  lines_join (C40_split_partial s h).1

/-- A recipe of three lines, one of them continued. -/
example : "a \\\n b\n\nc\\\\\n".toList.count '\n' + 1 < 2 ^ 16 ∧
    Lines "a \\\n b\n\nc\\\\\n".toList ["a \\\n b".toList, [], "c\\\\".toList] := by
  refine ⟨by decide, ?_⟩
  have := chopText_lines "a \\\n b\n\nc\\\\\n".toList
  have e : chopText "a \\\n b\n\nc\\\\\n".toList = ["a \\\n b".toList, [], "c\\\\".toList] := by
    simp [chopText, chopLine, oddBackslashes]
  rwa [e] at this

/-- **C40** does not hold as stated: the number of lines is counted modulo 65536, so of a recipe of 65536
lines nothing remains; the check for too many lines does not see it. -/
theorem C40_too_many (s : Str) (ls : List Str) (h : Lines s ls) (n : ls.length = 2 ^ 16) : chopCommands false s = [] := by
  rw [lines_unique h (chopText_lines s)] at n
  rw [chopCommands]
  exact push_wrapped _ (by rw [n])

/-- There is such a recipe. -/
example : ∃ s ls, Lines s ls ∧ ls.length = 2 ^ 16 := by
  refine ⟨List.replicate (2 ^ 16) '\n', List.replicate (2 ^ 16) [], ?_, by rw [List.length_replicate]⟩
  generalize 2 ^ 16 = n
  induction n with
  | zero => exact .nil
  | succ n ih =>
    have : Lines ([] ++ '\n' :: List.replicate n '\n') ([] :: List.replicate n []) := by
      refine .cons onlyEscaped_nil ?_ ih
      rintro ⟨a, k, e, _⟩
      simp at e
    exact this

/-- **C40**: with `.ONESHELL` the recipe is one line, without a last newline. -/
theorem C40_oneshell (s : Str) : (chopCommands true (s ++ ['\n']) = [s]) ∧ (s.getLast? ≠ some '\n' → chopCommands true s = [s]) := by
  refine ⟨by simp [chopCommands], fun h => by rw [chopCommands, if_pos rfl, if_neg h]⟩

/-- **C40**: the flags of a line depend on its own prefix of blanks, `+`, `@` and `-`; besides, a line
with a reference to `MAKE` is taken to be recursive. -/
theorem C40_flags (l : Str) :
    ((lineFlags l).silent = true ↔ '@' ∈ linePrefix l) ∧ ((lineFlags l).noerror = true ↔ '-' ∈ linePrefix l) ∧
    ((lineFlags l).recurse = true ↔ '+' ∈ linePrefix l ∨ "$(MAKE)".toList <:+: l ∨ "${MAKE}".toList <:+: l) := by
  obtain ⟨e1, e2⟩ := prefixFlags_spec {} l
  have nd : '$' ∉ linePrefix l := by
    intro h
    have := mem_takeWhile_imp h
    simp at this
  have inf : ∀ w : Str, ('$' :: w) <:+: (prefixFlags {} l).2 ↔ ('$' :: w) <:+: l := by
    intro w
    constructor
    · intro h; rw [← e2]; exact h.trans (List.suffix_append _ _).isInfix
    · intro h; rw [← e2] at h; exact infix_of_append nd h
  have i1 : hasInfix "$(MAKE)".toList (prefixFlags {} l).2 = true ↔ "$(MAKE)".toList <:+: l := (hasInfix_iff _ _).trans (inf _)
  have i2 : hasInfix "${MAKE}".toList (prefixFlags {} l).2 = true ↔ "${MAKE}".toList <:+: l := (hasInfix_iff _ _).trans (inf _)
  have f : lineFlags l = if !(prefixFlags {} l).1.recurse &&
      (hasInfix "$(MAKE)".toList (prefixFlags {} l).2 || hasInfix "${MAKE}".toList (prefixFlags {} l).2) then
      { (prefixFlags {} l).1 with recurse := true } else (prefixFlags {} l).1 := rfl
  rw [f, ← i1, ← i2, e1]
  cases hp : (linePrefix l).contains '+' <;> cases hasInfix "$(MAKE)".toList (prefixFlags {} l).2 <;>
    cases hasInfix "${MAKE}".toList (prefixFlags {} l).2 <;> simp
  all_goals simpa using hp

example : lineFlags " @-echo ${MAKE}".toList = ⟨true, true, true⟩ := by decide +kernel

/-! ## C67 -/

/-- **C67**: before a recipe line is expanded, nothing of it is lost or moved but white space and
backslashes. -/
theorem C67_rest (s : Str) : (collapseLine s).filter (fun c => !isSpace c && c != '\\') = s.filter (fun c => !isSpace c && c != '\\') :=
  collapse_solid s

/-- **C67**: a backslash-newline inside a reference becomes one space, with the white space after it;
nothing else is changed.  This is for lines in which no backslash-newline comes after white space
or a backslash. -/
theorem C67_tame_partial (s : Str) (h : ∀ a c b, s = a ++ c :: '\\' :: '\n' :: b → isSpace c = false ∧ c ≠ '\\') :
    collapseLine s = joined none [] s := collapse_tame s h

/-- **C67**: a backslash-newline inside a reference becomes one space, with the white space around it;
nothing else is changed.  This is for lines in which no backslash-newline comes after a
backslash, and no reference starts after a backslash-newline. -/
theorem C67_one_partial (s : Str) (h : ∀ a b, s ≠ a ++ '\\' :: '\\' :: '\n' :: b) (r : ∀ a b, s = a ++ '\\' :: '\n' :: b → '$' ∉ b) :
    collapseLine s = joined none [] s := collapse_one s h r

/-- A line of which this holds. -/
example : joined none [] "x \\\n$(y a \\\n\t $(b)\\\n c)".toList = "x \\\n$(y a $(b) c)".toList := by
  simp [joined, isBlank, isSpace, isNewlineClass]

/-- **C67** does not hold as stated: after a reference from which something was removed, the blanks before
a backslash-newline stay. -/
theorem C67_blanks : collapseLine "$(a\\\n         b)$(c  \\\n d)".toList ≠ joined none [] "$(a\\\n         b)$(c  \\\n d)".toList := by
  simp [collapseLine, collapseRefs, joined, dropBlanks, collapseQuoted, oddBackslashes, isBlank, isSpace, isNewlineClass]

/-- **C67** does not hold as stated: the text before a backslash-newline has been changed in place when it
is looked at, so a backslash-newline that is not quoted may be taken to be so. -/
theorem C67_backslashes : collapseLine "$(a\\\n\\\\\\\nb)".toList ≠ joined none [] "$(a\\\n\\\\\\\nb)".toList := by
  simp [collapseLine, collapseRefs, joined, dropBlanks, collapseQuoted, oddBackslashes, isBlank, isSpace, isNewlineClass]

/-! ## C51 -/

/-- **C51**: if make is interrupted, exactly the targets of its running recipes that are changed regular
files, and are neither precious nor phony, are deleted. -/
theorem C51_interrupted (ok : Str → Bool) (d : Disk) (cs : List DChild) (n : Str) (hok : ok n = true) :
    ((∃ c ∈ cs, c.deleted = false ∧ 0 ≤ c.pid ∧ ∃ f ∈ c.file :: c.also, f.name = n ∧ Doomed d f) → (interruptChildren ok d cs).1 n = none) ∧
    (¬ (∃ c ∈ cs, c.deleted = false ∧ 0 ≤ c.pid ∧ ∃ f ∈ c.file :: c.also, f.name = n ∧ Doomed d f) → (interruptChildren ok d cs).1 n = d n) := by
  have e : (∃ c ∈ cs, c.deleted = false ∧ 0 ≤ c.pid ∧ ∃ f ∈ c.file :: c.also, f.name = n ∧ Doomed d f) ↔
      ∃ f ∈ cs.flatMap childTargets, f.name = n ∧ Doomed d f := by
    constructor
    · rintro ⟨c, hc, h1, h2, f, hf, h3⟩
      refine ⟨f, List.mem_flatMap.2 ⟨c, hc, ?_⟩, h3⟩
      rw [childTargets, h1, if_neg (by simp; omega)]
      exact hf
    · rintro ⟨f, hf, h3⟩
      obtain ⟨c, hc, h⟩ := List.mem_flatMap.1 hf
      rw [childTargets] at h
      split at h
      · cases h
      · rename_i k
        simp only [Bool.or_eq_true, decide_eq_true_eq, not_or, Bool.not_eq_true] at k
        exact ⟨c, hc, k.1, by omega, f, h, h3⟩
  rw [interrupt_eq, e]
  have := deleteTargets_spec ok d (cs.flatMap childTargets) n
  exact ⟨fun h => this.1 h hok, fun h => this.2 (.inl h)⟩

/-- **C51**: if a recipe fails, the same is done for its targets if it was ended by a signal or if
there is `.DELETE_ON_ERROR`; otherwise nothing is deleted. -/
theorem C51_failed (ok : Str → Bool) (signal onError : Bool) (d : Disk) (c : DChild) (n : Str) (hok : ok n = true)
    (h1 : c.deleted = false) (h2 : 0 ≤ c.pid) :
    (((signal = true ∨ onError = true) ∧ ∃ f ∈ c.file :: c.also, f.name = n ∧ Doomed d f) → (recipeFailed ok signal onError d c).1 n = none) ∧
    (¬ ((signal = true ∨ onError = true) ∧ ∃ f ∈ c.file :: c.also, f.name = n ∧ Doomed d f) → (recipeFailed ok signal onError d c).1 n = d n) := by
  rw [recipeFailed]
  by_cases h : (signal || onError) = true
  · rw [if_pos h, deleteChild_eq, childTargets, h1, if_neg (by simp; omega)]
    simp only [Bool.or_eq_true] at h
    have := deleteTargets_spec ok d (c.file :: c.also) n
    exact ⟨fun x => this.1 x.2 hok, fun x => this.2 (.inl fun y => x ⟨h, y⟩)⟩
  · rw [if_neg h]
    simp only [Bool.or_eq_true] at h
    exact ⟨fun x => absurd x.1 h, fun _ => rfl⟩

/-- **C51**: the targets of a recipe are seen to only once, even if it fails because of the signal. -/
theorem C51_once (ok : Str → Bool) (signal onError : Bool) (d d' : Disk) (c : DChild) :
    (recipeFailed ok signal onError d' (deleteChildTargets ok d c).2).1 = d' := by
  rw [recipeFailed]
  split
  · by_cases h : (c.deleted || decide (c.pid < 0)) = true
    · simp only [deleteChildTargets, if_pos h]
    · have e : (deleteChildTargets ok d c).2.deleted = true := by simp only [deleteChildTargets, if_neg h]
      generalize (deleteChildTargets ok d c).2 = c' at e
      rw [deleteChildTargets, e]; rfl
  · rfl

/-- A file that is deleted. -/
example : Doomed (fun _ => some ⟨true, 5⟩) { name := "out".toList, lastMtime := 3 } :=
  ⟨rfl, rfl, by decide +kernel, ⟨true, 5⟩, rfl, rfl, by decide⟩

/-! ## C52 -/

/-- **C52**: at the end exactly those files are removed that are intermediate, not secondary, not given on
the command line, have been considered in this run, and are not precious or marked don't-care. -/
theorem C52_removed_partial (ok : Str → Bool) (never dry : Bool) (d : Disk) (files : List DFile) (n : Str) (hok : ok n = true) :
    ((never = false ∧ dry = false ∧ ∃ f ∈ files, f.name = n ∧ f.intermediate = true ∧ f.secondary = false ∧ f.cmdTarget = false ∧
        f.touched = true ∧ (f.precious = false ∨ f.dontcare = true)) → removeIntermediates ok never dry d files n = none) ∧
    (¬ (never = false ∧ dry = false ∧ ∃ f ∈ files, f.name = n ∧ f.intermediate = true ∧ f.secondary = false ∧ f.cmdTarget = false ∧
        f.touched = true ∧ (f.precious = false ∨ f.dontcare = true)) → removeIntermediates ok never dry d files n = d n) := by
  rw [removeIntermediates]
  cases never
  · simp only [Bool.false_eq_true, if_false, true_and]
    rw [unlink_fold ok (fun f => removable f && !dry) d files n, hok, Bool.and_true]
    have e : (files.any fun f => (removable f && !dry) && decide (f.name = n)) = true ↔
        (dry = false ∧ ∃ f ∈ files, f.name = n ∧ f.intermediate = true ∧ f.secondary = false ∧ f.cmdTarget = false ∧
        f.touched = true ∧ (f.precious = false ∨ f.dontcare = true)) := by
      simp only [List.any_eq_true, Bool.and_eq_true, removable, decide_eq_true_eq, Bool.not_eq_true', Bool.or_eq_true]
      constructor
      · rintro ⟨f, hf, ⟨⟨⟨⟨⟨a, b⟩, c⟩, e⟩, g⟩, h⟩, i⟩
        exact ⟨h, f, hf, i, a, c, e, g, b.symm⟩
      · rintro ⟨h, f, hf, i, a, c, e, g, b⟩
        exact ⟨f, hf, ⟨⟨⟨⟨⟨a, b.symm⟩, c⟩, e⟩, g⟩, h⟩, i⟩
    rw [← e]
    exact ⟨fun h => by rw [if_pos h], fun h => by rw [if_neg h]⟩
  · simp

/-- **C52** does not hold as stated: a file that is marked don't-care is removed even if it is precious. -/
theorem C52_dontcare : ∃ f : DFile, f.precious = true ∧ f.dontcare = true ∧
    removeIntermediates (fun _ => true) false false (fun _ => some ⟨true, 5⟩) [f] f.name = none :=
  ⟨{ name := "x".toList, precious := true, dontcare := true, intermediate := true, touched := true }, rfl, rfl, by decide +kernel⟩

end Remake
