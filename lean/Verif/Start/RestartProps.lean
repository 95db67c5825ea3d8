import Verif.Start.Restart
/-!
# Properties of starting make again

C97: the command line and the environment of the new make; C98: when it is started.
-/
set_option linter.unusedVariables false
set_option linter.unusedSimpArgs false
namespace Remake

/-! ## Specification -/

namespace Spec

/-- The letter of an option without an argument. -/
def FlagLetter (c : Char) : Prop := ∃ cs ∈ switches, cs.short = true ∧ cs.c = c.toNat ∧ cs.hasArg = .no

/-- The letter of an option other than `-f` that may have, or has to have, an argument. -/
def ArgLetter (req : Bool) (c : Char) : Prop :=
  c ≠ 'f' ∧ ∃ cs ∈ switches, cs.short = true ∧ cs.c = c.toNat ∧ if req then cs.hasArg = .required else cs.hasArg ≠ .no

/-- A long option, maybe abbreviated, that is not another name for `-f`. -/
def LongName (t : Str) (a : HasArg) : Prop :=
  '=' ∉ t ∧ t ≠ [] ∧ ∃ p, longOptionFor t longOptions = .found p ∧ p.hasArg = a ∧ p.val ≠ 'f'.toNat

/-- The word is not taken as the number of a `-j` or `-l` before it. -/
def NoNumber (ws : List Str) : Prop := ∀ w ∈ ws.head?, ∃ c r, w = c :: r ∧ isDigitC c = false ∧ c ≠ '.'

/-- Words for goals, assignments and options other than `-f`.  `true`: the option might take a number that follows. -/
inductive OtherWords : List Str → Bool → Prop
  /-- A goal or an assignment. -/
  | word {w : Str} : w.head? ≠ some '-' ∨ w = ['-'] → OtherWords [w] false
  /-- `-kn` -/
  | flags {c : Char} {ls : Str} : FlagLetter c → (∀ x ∈ ls, FlagLetter x) → OtherWords ['-' :: c :: ls] false
  /-- `-kj4`, `-Idir` -/
  | joined {ls : Str} {c : Char} {a : Str} : (∀ x ∈ ls, FlagLetter x) → ArgLetter false c → a ≠ [] →
      OtherWords ['-' :: (ls ++ c :: a)] false
  /-- `-kI dir` -/
  | apart {ls : Str} {c : Char} {a : Str} : (∀ x ∈ ls, FlagLetter x) → ArgLetter true c → ¬ "-f".toList <+: a →
      OtherWords ['-' :: (ls ++ [c]), a] false
  /-- `-kj`, `-O` -/
  | bare {ls : Str} {c : Char} : (∀ x ∈ ls, FlagLetter x) → ArgLetter false c → ¬ ArgLetter true c →
      OtherWords ['-' :: (ls ++ [c])] true
  /-- `-j 4` -/
  | number {ls n : Str} : (∀ x ∈ ls, FlagLetter x) → (∀ x ∈ n, isDigitC x = true) → OtherWords ['-' :: (ls ++ ['j']), n] false
  /-- `--keep-going` -/
  | long {t : Str} : LongName t .no → OtherWords ['-' :: '-' :: t] false
  /-- `--include-dir=dir` -/
  | longJoined {t a : Str} {h : HasArg} : LongName t h → h ≠ .no → OtherWords ['-' :: '-' :: (t ++ '=' :: a)] false
  /-- `--include-dir dir` -/
  | longApart {t a : Str} : LongName t .required → ¬ "-f".toList <+: a → OtherWords ['-' :: '-' :: t, a] false

/-- `Renamed ws ns ms ws'`: the words `ws` have the makefiles `ns`, each given by `-f` and a name, in one word or in two.  `ws'` is
the same with the names `ms`. -/
inductive Renamed : List Str → List Str → List Str → List Str → Prop
  | nil : Renamed [] [] [] []
  /-- `-f name` -/
  | two {x m : Str} {ws ns ms ws'} : x ≠ [] → m ≠ [] → Renamed ws ns ms ws' →
      Renamed ("-f".toList :: x :: ws) (x :: ns) (m :: ms) ("-f".toList :: m :: ws')
  /-- `-fname` -/
  | one {x m : Str} {ws ns ms ws'} : x ≠ [] → m ≠ [] → Renamed ws ns ms ws' →
      Renamed (("-f".toList ++ x) :: ws) (x :: ns) (m :: ms) (("-f".toList ++ m) :: ws')
  | other {pre : List Str} {num : Bool} {ws ns ms ws'} : OtherWords pre num → (num = true → NoNumber ws) → Renamed ws ns ms ws' →
      Renamed (pre ++ ws) ns ms (pre ++ ws')

/-- Options that differ only in the makefiles, which are `L` in the second. -/
def SameButMakefiles {F : Type} (L : List Str) (d d' : Decoded F) : Prop :=
  d'.args = d.args ∧ d'.bad = d.bad ∧ d'.opts.num = d.opts.num ∧ d'.opts.str = d.opts.str ∧ d'.opts.load = d.opts.load ∧
    (∀ v, v ≠ .makefiles → d'.opts.lst v = d.opts.lst v) ∧ d'.opts.lst .makefiles = L

end Spec
open Remake.Spec

/-! ## Lemmas -/

section
variable {F : Type} (fl : Floats F) (tilde : Str → Option Str)

/-- Options with another list of makefiles. -/
def withMk (L : List Str) (d : Decoded F) : Decoded F :=
  { d with opts := { d.opts with lst := fun v => if v = .makefiles then L else d.opts.lst v } }

theorem table_makefiles : ∀ cs ∈ switches, cs.c ≠ 'f'.toNat → cs.var ≠ .makefiles := by decide +kernel

/-- What an option does that leaves the words after it alone. -/
def effect (cs : Switch) (a : Option Str) (d : Decoded F) : Decoded F := (applySwitch fl tilde false cs a [] d).1

theorem effect_withMk {cs : Switch} (h : cs ∈ switches) (hc : cs.c ≠ 'f'.toNat) (a : Option Str) (L : List Str) (d : Decoded F) :
    effect fl tilde cs a (withMk L d) = withMk L (effect fl tilde cs a d) := by
  have hv := table_makefiles cs h hc
  unfold effect applySwitch
  simp only [Bool.not_false, Bool.true_or, if_true]
  cases ht : cs.type
  case flag => rfl
  case flagOff => rfl
  case ignore => rfl
  case string =>
    simp only [storeString, ht, if_true]
    split <;> rfl
  case strlist =>
    simp only [storeString, ht, reduceCtorEq, if_false]
    split
    · rfl
    · simp only [withMk, Opts.addStr]
      congr 2
      funext w
      by_cases h1 : w = .makefiles
      · subst h1; simp [hv, Ne.symm hv]
      · simp [h1]
  case filename =>
    simp only [storeString, ht, reduceCtorEq, if_false, if_true]
    split
    · rfl
    · simp only [withMk, Opts.addStr]
      congr 2
      funext w
      by_cases h1 : w = .makefiles
      · subst h1; simp [hv, Ne.symm hv]
      · simp [h1]
  case positiveInt =>
    simp only [storeNumber]
    split
    · split <;> rfl
    · split <;> rfl
  case floating => rfl

/-- The option takes no word of those that follow. -/
theorem applyOpt_effect {cs : Switch} (h : cs ∈ switches) (a : Option Str) (ws : List Str) (d : Decoded F)
    (hw : a ≠ none ∨ cs.hasArg ≠ .optional ∨ NoNumber ws) :
    applyOpt fl tilde false cs.c a ws d = (effect fl tilde cs a d, ws) := by
  unfold applyOpt
  rw [table_find cs h]
  simp only [effect, applySwitch, Bool.not_false, Bool.true_or, if_true]
  cases ht : cs.type
  case flag => rfl
  case flagOff => rfl
  case ignore => rfl
  case string => rfl
  case strlist => rfl
  case filename => rfl
  case positiveInt =>
    cases a with
    | some a => simp only [takeNumber]
    | none =>
      have hopt : cs.hasArg = .optional := by
        have := (table_numbers cs h ht).2.1
        simp only [Switch.hasArg, ht, this, Option.isSome_some, if_true]
      have hn : NoNumber ws := by simpa [hopt] using hw
      cases ws with
      | nil => rfl
      | cons w ws =>
        obtain ⟨c, r, rfl, h1, h2⟩ := hn w rfl
        have h3 : (c :: r).all isDigitC = false := by simp [h1]
        simp only [takeNumber, h3, Bool.false_eq_true, if_false]
  case floating =>
    cases a with
    | some a => rfl
    | none =>
      have hopt : cs.hasArg = .optional := by
        have : ∀ cs ∈ switches, cs.type = .floating → cs.hasArg = .optional := by decide +kernel
        exact this cs h ht
      have hn : NoNumber ws := by simpa [hopt] using hw
      cases ws with
      | nil => rfl
      | cons w ws =>
        obtain ⟨c, r, rfl, h1, h2⟩ := hn w rfl
        simp [takeLoad, h1, h2]

theorem decode_arg (i : Bool) {w : Str} (h : w.head? ≠ some '-' ∨ w = ['-']) (ws : List Str) (d : Decoded F) :
    decodeLoop fl tilde false i [] (w :: ws) d = decodeLoop fl tilde false true [] ws { d with args := d.args ++ [w] } := by
  have hg : getopt (!false) i [] (w :: ws) = (.arg w, [], ws) := by
    unfold getopt
    simp only
    split
    · simp at h
    · simp at h
    · simp at h
    · rfl
  rw [decodeLoop.eq_def, dif_neg (by simp)]
  split
  all_goals
    rename_i hh
    rw [hg] at hh
    simp only [Prod.mk.injEq, GetOpt.arg.injEq, reduceCtorEq, false_and] at hh
  obtain ⟨rfl, rfl, rfl⟩ := hh
  rfl

theorem find_letter {cs : Switch} (h : cs ∈ switches) (hs : cs.short = true) {c : Char} (hc : cs.c = c.toNat) :
    switches.find? (fun x => x.short && x.c == c.toNat) = some cs ∧ c ≠ '-' := by
  have h1 := table_short cs h hs
  have h2 := table_letters cs h hs
  rw [h2.2] at h1
  refine ⟨by rw [← hc]; exact h1, ?_⟩
  rintro rfl
  apply h2.1.2.1
  apply Char.ext
  apply UInt32.toNat_inj.mp
  exact h2.2.trans hc

/-- The step of the loop, by what `getopt` finds. -/
def decodeStep (d : Decoded F) : GetOpt × Str × List Str → Decoded F
  | (.eof, _, ws') => { d with args := d.args ++ ws' }
  | (.arg w, cur', ws') => decodeLoop fl tilde false true cur' ws' { d with args := d.args ++ [w] }
  | (.bad, cur', ws') => decodeLoop fl tilde false true cur' ws' { d with bad := true }
  | (.opt c a, cur', ws') =>
    decodeLoop fl tilde false true cur' (applyOpt fl tilde false c a ws' d).2 (applyOpt fl tilde false c a ws' d).1

theorem decode_step (i : Bool) (cur : Str) (ws : List Str) (d : Decoded F) (h0 : ¬ (cur = [] ∧ ws = [])) :
    decodeLoop fl tilde false i cur ws d = decodeStep fl tilde d (getopt true i cur ws) := by
  rw [decodeLoop.eq_def, dif_neg h0]
  split
  all_goals
    rename_i hh
    rw [show getopt true i cur ws = getopt (!false) i cur ws from rfl, hh]
    rfl

/-- A word of letters is read like the letters. -/
theorem decode_enter (i : Bool) {c : Char} (hc : c ≠ '-') (r : Str) (ws : List Str) (d : Decoded F) :
    decodeLoop fl tilde false i [] (('-' :: c :: r) :: ws) d = decodeLoop fl tilde false i (c :: r) ws d := by
  have hg : getopt true i [] (('-' :: c :: r) :: ws) = getopt true i (c :: r) ws := by
    unfold getopt
    simp only
    split
    · rename_i heq; simp at heq; exact absurd heq.1 hc
    · rename_i heq; simp at heq; exact absurd heq.1 hc
    · rename_i heq; simp at heq; obtain ⟨rfl, rfl⟩ := heq; rfl
    · rename_i h; exact absurd rfl (h c r)
  rw [decode_step _ _ _ _ _ _ (by simp), decode_step _ _ _ _ _ _ (by simp), hg]

/-- A letter of an option without an argument. -/
theorem decode_flag {c : Char} (hc : FlagLetter c) : ∃ cs ∈ switches, cs.c ≠ 'f'.toNat ∧ c ≠ '-' ∧ c ≠ 'f' ∧
    ∀ (i : Bool) (r : Str) (ws : List Str) (d : Decoded F),
      decodeLoop fl tilde false i (c :: r) ws d = decodeLoop fl tilde false true r ws (effect fl tilde cs none d) := by
  obtain ⟨cs, h1, h2, h3, h4⟩ := hc
  obtain ⟨h5, h6⟩ := find_letter h1 h2 h3
  have hf : cs.c ≠ 'f'.toNat := by
    have : ∀ cs ∈ switches, cs.hasArg = .no → cs.c ≠ 'f'.toNat := by decide +kernel
    exact this cs h1 h4
  refine ⟨cs, h1, hf, h6, ?_, ?_⟩
  · rintro rfl; exact hf h3
  · intro i r ws d
    rw [decode_step _ _ _ _ _ _ (by simp)]
    have hg : getopt true i (c :: r) ws = (.opt cs.c none, r, ws) := by
      simp only [getopt, getoptShort, if_neg h6, h5, h4]
    rw [hg]
    simp only [decodeStep]
    rw [applyOpt_effect fl tilde h1 none ws d (Or.inr (Or.inl (by rw [h4]; decide)))]

/-- Whether `getopt_long` has been called, after letters. -/
def afterLetters (i : Bool) (ls : Str) : Bool := if ls = [] then i else true

/-- A group of such letters before others. -/
theorem decode_flags (ls : Str) (h : ∀ x ∈ ls, FlagLetter x) : ∃ eff : Decoded F → Decoded F,
    (∀ L d, eff (withMk L d) = withMk L (eff d)) ∧
    ∀ (i : Bool) (r : Str) (ws : List Str) (d : Decoded F),
      decodeLoop fl tilde false i (ls ++ r) ws d = decodeLoop fl tilde false (afterLetters i ls) r ws (eff d) := by
  induction ls with
  | nil => exact ⟨id, fun _ _ => rfl, fun i r ws d => rfl⟩
  | cons c ls ih =>
    obtain ⟨cs, h1, h2, _, _, h3⟩ := decode_flag fl tilde (h c List.mem_cons_self)
    obtain ⟨eff, e1, e2⟩ := ih (fun x hx => h x (List.mem_cons_of_mem _ hx))
    refine ⟨fun d => eff (effect fl tilde cs none d), ?_, ?_⟩
    · intro L d
      simp only [effect_withMk fl tilde h1 h2, e1]
    · intro i r ws d
      rw [List.cons_append, h3, e2]
      have : afterLetters true ls = afterLetters i (c :: ls) := by
        simp [afterLetters]
      rw [this]

/-- The words are read one after the other, and leave the makefiles alone. -/
def QuietWords (pre : List Str) (num : Bool) : Prop :=
  ∃ eff : Decoded F → Decoded F, (∀ L d, eff (withMk L d) = withMk L (eff d)) ∧
    ∀ (i : Bool) (ws : List Str) (d : Decoded F), (num = true → NoNumber ws) →
      decodeLoop fl tilde false i [] (pre ++ ws) d = decodeLoop fl tilde false true [] ws (eff d)

/-- The first letter of a group is no minus sign. -/
theorem letter_enter {ls : Str} {c : Char} {r : Str} (h : ∀ x ∈ ls, FlagLetter x) (hc : c ≠ '-') (i : Bool) (ws : List Str)
    (d : Decoded F) :
    decodeLoop fl tilde false i [] (('-' :: (ls ++ c :: r)) :: ws) d = decodeLoop fl tilde false i (ls ++ c :: r) ws d := by
  cases ls with
  | nil => exact decode_enter fl tilde i hc r ws d
  | cons x ls =>
    obtain ⟨_, _, _, h3, _, _⟩ := decode_flag fl tilde (h x List.mem_cons_self)
    exact decode_enter fl tilde i h3 _ ws d

theorem argLetter_find {req : Bool} {c : Char} (h : ArgLetter req c) :
    ∃ cs ∈ switches, cs.c = c.toNat ∧ c ≠ '-' ∧ cs.c ≠ 'f'.toNat ∧ switches.find? (fun x => x.short && x.c == c.toNat) = some cs ∧
      if req then cs.hasArg = .required else cs.hasArg ≠ .no := by
  obtain ⟨hf, cs, h1, h2, h3, h4⟩ := h
  obtain ⟨h5, h6⟩ := find_letter h1 h2 h3
  refine ⟨cs, h1, h3, h6, ?_, h5, h4⟩
  rw [h3]
  intro he
  exact hf (Char.ext (UInt32.toNat_inj.mp he))

/-- An option that is a letter with an argument after other letters. -/
theorem quiet_letter {ls : Str} {c : Char} {r : Str} {pre : List Str} {num : Bool} (h : ∀ x ∈ ls, FlagLetter x) (hc : c ≠ '-')
    {cs : Switch} (h1 : cs ∈ switches) (hf : cs.c ≠ 'f'.toNat) (a : Option Str)
    (hg : ∀ i ws, getopt true i (c :: r) (pre ++ ws) = (.opt cs.c a, [], ws))
    (ha : a ≠ none ∨ cs.hasArg ≠ .optional ∨ num = true) : QuietWords fl tilde (('-' :: (ls ++ c :: r)) :: pre) num := by
  obtain ⟨eff, e1, e2⟩ := decode_flags fl tilde ls h
  refine ⟨fun d => effect fl tilde cs a (eff d), ?_, ?_⟩
  · intro L d
    simp only [effect_withMk fl tilde h1 hf, e1]
  · intro i ws d hn
    rw [List.cons_append, letter_enter fl tilde h hc, e2, decode_step _ _ _ _ _ _ (by simp), hg]
    simp only [decodeStep]
    rw [applyOpt_effect fl tilde h1 a ws _ (by
      rcases ha with ha | ha | ha
      · exact Or.inl ha
      · exact Or.inr (Or.inl ha)
      · exact Or.inr (Or.inr (hn ha)))]

/-- A long option. -/
theorem quiet_long {t : Str} {pre : List Str} {p : LongOpt} (a : Option Str) (hp : p.val ≠ 'f'.toNat)
    (hl : p ∈ longOptions)
    (hg : ∀ i ws, getopt true i [] (('-' :: '-' :: t) :: (pre ++ ws)) = (.opt p.val a, [], ws))
    (ha : a ≠ none ∨ p.hasArg ≠ .optional) : QuietWords fl tilde (('-' :: '-' :: t) :: pre) false := by
  have hs : ∀ p ∈ longOptions, ∃ cs ∈ switches, cs.c = p.val ∧ cs.hasArg = p.hasArg := by decide +kernel
  obtain ⟨cs, h1, h2, h3⟩ := hs p hl
  refine ⟨effect fl tilde cs a, fun L d => effect_withMk fl tilde h1 (by rw [h2]; exact hp) a L d, fun i ws d _ => ?_⟩
  rw [List.cons_append, decode_step _ _ _ _ _ _ (by simp), hg]
  simp only [decodeStep]
  rw [← h2, applyOpt_effect fl tilde h1 a ws d (by
    rw [h3]
    rcases ha with ha | ha
    · exact Or.inl ha
    · exact Or.inr (Or.inl ha))]

theorem longFor_mem {name : Str} {opts : List LongOpt} {p : LongOpt} (h : longOptionFor name opts = .found p) : p ∈ opts := by
  unfold longOptionFor at h
  split at h
  · rename_i q hq
    cases h
    exact List.mem_of_find?_eq_some hq
  · split at h
    · cases h
    · rename_i q hq
      cases h
      have : p ∈ opts.filter (fun p => name.isPrefixOf p.name) := by rw [hq]; simp
      exact (List.mem_filter.mp this).1
    · cases h

theorem no_equals {t : Str} (h : '=' ∉ t) :
    t.takeWhile (fun c => decide (c ≠ '=')) = t ∧ t.dropWhile (fun c => decide (c ≠ '=')) = [] := by
  have hp : ∀ c ∈ t, decide (c ≠ '=') = true := fun c hc => by simp; rintro rfl; exact h hc
  have h1 := List.takeWhile_append_of_pos (l₂ := []) hp
  have h2 := List.dropWhile_append_of_pos (l₂ := []) hp
  simp only [List.append_nil, List.takeWhile_nil, List.dropWhile_nil] at h1 h2
  exact ⟨h1, h2⟩

theorem jobs_find : switches.find? (fun x => x.short && x.c == 'j'.toNat) =
    some ⟨'j'.toNat, .positiveInt, .jobSlots, true, true, false, some (.num 0), some (.num (-1)), "jobs".toList⟩ ∧
  switches.find? (fun x => x.c == 'j'.toNat) =
    some ⟨'j'.toNat, .positiveInt, .jobSlots, true, true, false, some (.num 0), some (.num (-1)), "jobs".toList⟩ := by decide +kernel

theorem quiet_other {pre : List Str} {num : Bool} (h : OtherWords pre num) : QuietWords fl tilde pre num := by
  cases h with
  | word h =>
    exact ⟨fun d => { d with args := d.args ++ [_] }, fun _ _ => rfl, fun i ws d _ => decode_arg fl tilde i h ws d⟩
  | @flags c ls hc h =>
    obtain ⟨eff, e1, e2⟩ := decode_flags fl tilde (c :: ls) (by
      intro x hx
      rcases List.mem_cons.mp hx with rfl | hx
      · exact hc
      · exact h x hx)
    refine ⟨eff, e1, fun i ws d _ => ?_⟩
    obtain ⟨_, _, _, h3, _, _⟩ := decode_flag fl tilde hc
    have := e2 i [] ws d
    rw [List.append_nil] at this
    rw [List.singleton_append, decode_enter fl tilde i h3, this]
    rfl
  | @joined ls c a h hc ha =>
    obtain ⟨cs, h1, h2, h3, h4, h5, h6⟩ := argLetter_find hc
    refine quiet_letter fl tilde h h3 h1 h4 (some a) ?_ (Or.inl (by simp))
    intro i ws
    simp only [getopt, getoptShort, if_neg h3, h5]
    simp only [Bool.false_eq_true, if_false] at h6
    cases hh : cs.hasArg with
    | no => exact absurd hh h6
    | required => simp [ha]
    | optional => simp [ha]
  | @apart ls c a h hc ha =>
    obtain ⟨cs, h1, h2, h3, h4, h5, h6⟩ := argLetter_find hc
    refine quiet_letter fl tilde h h3 h1 h4 (some a) ?_ (Or.inl (by simp))
    intro i ws
    simp only [if_true] at h6
    simp [getopt, getoptShort, if_neg h3, h5, h6]
  | @bare ls c h hc hr =>
    obtain ⟨cs, h1, h2, h3, h4, h5, h6⟩ := argLetter_find hc
    refine quiet_letter fl tilde h h3 h1 h4 none ?_ (Or.inr (Or.inr rfl))
    intro i ws
    simp only [Bool.false_eq_true, if_false] at h6
    have h7 : cs.hasArg = .optional := by
      cases hh : cs.hasArg with
      | no => exact absurd hh h6
      | optional => rfl
      | required =>
        refine absurd ?_ hr
        obtain ⟨hf, cs', g1, g2, g3, g4⟩ := hc
        have : cs' = cs := table_same cs' g1 cs h1 (by rw [g3, h2])
        subst this
        exact ⟨hf, cs', g1, g2, g3, hh⟩
    simp [getopt, getoptShort, if_neg h3, h5, h7]
  | @number ls n h hn =>
    obtain ⟨eff, e1, e2⟩ := decode_flags fl tilde ls h
    obtain ⟨j1, j2⟩ := jobs_find
    have hj : (⟨'j'.toNat, .positiveInt, .jobSlots, true, true, false, some (.num 0), some (.num (-1)), "jobs".toList⟩ : Switch) ∈ switches :=
      List.mem_of_find?_eq_some j2
    refine ⟨fun d => effect fl tilde ⟨'j'.toNat, .positiveInt, .jobSlots, true, true, false, some (.num 0), some (.num (-1)), "jobs".toList⟩
      (some n) (eff d), ?_, ?_⟩
    · intro L d
      simp only [effect_withMk fl tilde hj (by decide), e1]
    · intro i ws d _
      rw [List.cons_append, letter_enter fl tilde h (by decide), e2, decode_step _ _ _ _ _ _ (by simp)]
      have hg : ∀ k, getopt true k ('j' :: []) ([n] ++ ws) = (.opt 'j'.toNat none, [], n :: ws) := by
        intro k
        simp only [getopt, getoptShort]
        rw [if_neg (by decide), j1]
        rfl
      rw [hg]
      simp only [decodeStep, applyOpt, j2]
      have hall : n.all isDigitC = true := List.all_eq_true.mpr hn
      simp only [applySwitch, takeNumber, hall, if_true, effect, Bool.not_false, Bool.true_or]
  | @long t h =>
    obtain ⟨h1, h2, p, h3, h4, h5⟩ := h
    rw [← C82_abbreviation] at h3
    obtain ⟨k1, k2⟩ := no_equals h1
    refine quiet_long fl tilde (p := p) none h5 (longFor_mem (by rw [← C82_abbreviation]; exact h3)) ?_ (Or.inr (by rw [h4]; decide))
    intro i ws
    cases t with
    | nil => exact absurd rfl h2
    | cons c t => simp only [getopt, getoptLong, k1, k2, h3, h4, List.nil_append]
  | @longJoined t a ha h hn =>
    obtain ⟨h1, h2, p, h3, h4, h5⟩ := h
    rw [← C82_abbreviation] at h3
    obtain ⟨k1, k2⟩ := take_until (p := fun c => decide (c ≠ '=')) (a := t) (b := a) (x := '=')
      (fun c hc => by simp; rintro rfl; exact h1 hc) (by simp)
    refine quiet_long fl tilde (p := p) (some a) h5 (longFor_mem (by rw [← C82_abbreviation]; exact h3)) ?_ (Or.inl (by simp))
    intro i ws
    have hh : p.hasArg ≠ .no := by rw [h4]; exact hn
    cases t with
    | nil => exact absurd rfl h2
    | cons c t =>
      simp only [List.cons_append] at k1 k2
      simp only [getopt, getoptLong, List.cons_append, k1, k2, h3, List.nil_append]
  | @longApart t a h ha =>
    obtain ⟨h1, h2, p, h3, h4, h5⟩ := h
    rw [← C82_abbreviation] at h3
    obtain ⟨k1, k2⟩ := no_equals h1
    refine quiet_long fl tilde (p := p) (some a) h5 (longFor_mem (by rw [← C82_abbreviation]; exact h3)) ?_ (Or.inl (by simp))
    intro i ws
    cases t with
    | nil => exact absurd rfl h2
    | cons c t => simp only [getopt, getoptLong, k1, k2, h3, h4, List.nil_append, List.cons_append]

/-- `-f` with a name. -/
theorem decode_f {x : Str} (hx : x ≠ []) (i : Bool) (ws : List Str) (d : Decoded F) :
    decodeLoop fl tilde false i [] ("-f".toList :: x :: ws) d =
        decodeLoop fl tilde false true [] ws (withMk (d.opts.lst .makefiles ++ [expandFile tilde x]) d) ∧
    decodeLoop fl tilde false i [] (("-f".toList ++ x) :: ws) d =
        decodeLoop fl tilde false true [] ws (withMk (d.opts.lst .makefiles ++ [expandFile tilde x]) d) := by
  have hff : switches.find? (fun cs => cs.short && cs.c == 'f'.toNat) =
      some ⟨'f'.toNat, .filename, .makefiles, false, false, false, none, none, "file".toList⟩ := by decide +kernel
  have heff : (applyOpt fl tilde false 'f'.toNat (some x) ws d) =
      (withMk (d.opts.lst .makefiles ++ [expandFile tilde x]) d, ws) := by
    simp only [applyOpt, find_f, applySwitch, storeString, Bool.not_false, Bool.true_or, if_true, Option.getD_some,
      Option.some.injEq, if_neg hx, reduceCtorEq, if_false, withMk, Opts.addStr]
    congr 3
    funext w
    split
    · rename_i h; rw [h]
    · rfl
  have e1 : getopt true i [] ("-f".toList :: x :: ws) = (.opt 'f'.toNat (some x), [], ws) := by
    show getoptShort i 'f' [] (x :: ws) = _
    simp only [getoptShort]
    rw [if_neg (by decide), hff]
    rfl
  have e2 : getopt true i [] (("-f".toList ++ x) :: ws) = (.opt 'f'.toNat (some x), [], ws) := by
    show getoptShort i 'f' x ws = _
    simp only [getoptShort]
    rw [if_neg (by decide), hff]
    simp [Switch.hasArg, hx]
  constructor
  · rw [decode_step _ _ _ _ _ _ (by simp), e1]
    simp only [decodeStep, heff]
  · rw [decode_step _ _ _ _ _ _ (by simp), e2]
    simp only [decodeStep, heff]

theorem withMk_self (d : Decoded F) : withMk (d.opts.lst .makefiles) d = d := by
  unfold withMk
  have : (fun v => if v = OptVar.makefiles then d.opts.lst .makefiles else d.opts.lst v) = d.opts.lst := by
    funext v
    split
    · rename_i h; rw [h]
    · rfl
  rw [this]

theorem withMk_lst (L : List Str) (d : Decoded F) : (withMk L d).opts.lst .makefiles = L := by simp [withMk]

theorem withMk_twice (L L' : List Str) (d : Decoded F) : withMk L (withMk L' d) = withMk L d := by
  simp only [withMk]
  congr 2
  funext v
  by_cases h : v = .makefiles <;> simp [h]

theorem decode_end (i : Bool) (d : Decoded F) : decodeLoop fl tilde false i [] [] d = d := by
  rw [decodeLoop.eq_def, dif_pos ⟨rfl, rfl⟩]

theorem noNumber_renamed {ws ns ms ws'} (h : Renamed ws ns ms ws') (hn : NoNumber ws) : NoNumber ws' := by
  cases h with
  | nil => exact hn
  | two => rintro w ⟨⟩; exact ⟨'-', ['f'], rfl, by decide, by decide⟩
  | one => rintro w ⟨⟩; exact ⟨'-', _, rfl, by decide, by decide⟩
  | other ho _ _ => cases ho <;> exact hn

theorem renamed_decode {ws ns ms ws' : List Str} (h : Renamed ws ns ms ws') (hm : ∀ m ∈ ms, expandFile tilde m = m) :
    ∀ (i : Bool) (L : List Str) (d : Decoded F),
      decodeLoop fl tilde false i [] ws' (withMk L d) = withMk (L ++ ms) (decodeLoop fl tilde false i [] ws d) ∧
      (decodeLoop fl tilde false i [] ws d).opts.lst .makefiles = d.opts.lst .makefiles ++ ns.map (expandFile tilde) := by
  induction h with
  | nil => intro i L d; simp [decode_end]
  | @two x m ws ns ms ws' hx hm0 h ih =>
    intro i L d
    have ih := ih (fun m hm' => hm m (List.mem_cons_of_mem _ hm'))
    rw [(decode_f fl tilde hx i ws d).1, (decode_f fl tilde hm0 i ws' _).1, hm m List.mem_cons_self, withMk_lst]
    constructor
    · have := (ih true (L ++ [m]) (withMk (d.opts.lst .makefiles ++ [expandFile tilde x]) d)).1
      rw [withMk_twice] at this ⊢
      rw [this]
      simp
    · rw [(ih true L _).2, withMk_lst]; simp
  | @one x m ws ns ms ws' hx hm0 h ih =>
    intro i L d
    have ih := ih (fun m hm' => hm m (List.mem_cons_of_mem _ hm'))
    rw [(decode_f fl tilde hx i ws d).2, (decode_f fl tilde hm0 i ws' _).2, hm m List.mem_cons_self, withMk_lst]
    constructor
    · have := (ih true (L ++ [m]) (withMk (d.opts.lst .makefiles ++ [expandFile tilde x]) d)).1
      rw [withMk_twice] at this ⊢
      rw [this]
      simp
    · rw [(ih true L _).2, withMk_lst]; simp
  | @other pre num ws ns ms ws' ho hn h ih =>
    intro i L d
    obtain ⟨eff, e1, e2⟩ := quiet_other fl tilde ho
    rw [e2 i ws d hn, e2 i ws' _ (fun hh => noNumber_renamed h (hn hh)), e1]
    refine ⟨(ih hm true L (eff d)).1, ?_⟩
    rw [(ih hm true L (eff d)).2]
    have := congrArg (fun d => d.opts.lst .makefiles) (e1 (d.opts.lst .makefiles) d)
    simp only [withMk_self, withMk_lst] at this
    rw [this]

theorem renamed_append {ws ns ms ws' : List Str} (h : Renamed ws ns ms ws') (t : Str) (ht : t.head? = some '-') (ts : List Str)
    (i : Bool) (d : Decoded F) : ∃ j,
      decodeLoop fl tilde false i [] (ws ++ t :: ts) d = decodeLoop fl tilde false j [] (t :: ts) (decodeLoop fl tilde false i [] ws d) := by
  have hnn : NoNumber (t :: ts) := by
    rintro w ⟨⟩
    cases t with
    | nil => cases ht
    | cons c r =>
      have : c = '-' := by simpa using ht
      subst this
      exact ⟨'-', r, rfl, by decide, by decide⟩
  induction h generalizing i d with
  | nil => exact ⟨i, by rw [decode_end]; rfl⟩
  | @two x m ws ns ms ws' hx hm0 h ih =>
    obtain ⟨j, hj⟩ := ih true (withMk (d.opts.lst .makefiles ++ [expandFile tilde x]) d)
    refine ⟨j, ?_⟩
    rw [List.cons_append, List.cons_append, (decode_f fl tilde hx i _ d).1, (decode_f fl tilde hx i ws d).1, hj]
  | @one x m ws ns ms ws' hx hm0 h ih =>
    obtain ⟨j, hj⟩ := ih true (withMk (d.opts.lst .makefiles ++ [expandFile tilde x]) d)
    refine ⟨j, ?_⟩
    rw [List.cons_append, (decode_f fl tilde hx i _ d).2, (decode_f fl tilde hx i ws d).2, hj]
  | @other pre num ws ns ms ws' ho hn h ih =>
    obtain ⟨eff, e1, e2⟩ := quiet_other fl tilde ho
    obtain ⟨j, hj⟩ := ih true (eff d)
    refine ⟨j, ?_⟩
    rw [List.append_assoc, e2 i _ d (fun hh => ?_), e2 i ws d hn, hj]
    cases ws with
    | nil => exact hnn
    | cons => exact hn hh

end

/-! ## The words -/

theorem restart_skip {w : Str} (h : ¬ ['-', 'f'] <+: w) (ws : List Str) (ms : MkNames) :
    restartWords (w :: ws) ms = (restartWords ws ms).map (some w :: ·) := by
  cases ws with
  | nil => simp [restartWords, h]
  | cons x ws => simp [restartWords, h]

theorem not_f {c : Char} {r : Str} (h : c ≠ 'f') : ¬ ['-', 'f'] <+: '-' :: c :: r := by
  intro hp
  simp at hp
  exact h hp.symm

theorem group_not_f {ls : Str} {c : Char} {r : Str} (h : ∀ x ∈ ls, FlagLetter x) (hc : c ≠ 'f') :
    ¬ ['-', 'f'] <+: '-' :: (ls ++ c :: r) := by
  cases ls with
  | nil => exact not_f hc
  | cons x ls =>
    refine not_f ?_
    rintro rfl
    obtain ⟨cs, h1, _, h2, h3⟩ := h 'f' List.mem_cons_self
    have : ∀ cs ∈ switches, cs.hasArg = .no → cs.c ≠ 'f'.toNat := by decide +kernel
    exact this cs h1 h3 h2

theorem other_skip {pre : List Str} {num : Bool} (h : OtherWords pre num) (ws : List Str) (ms : MkNames) :
    restartWords (pre ++ ws) ms = (restartWords ws ms).map (pre.map some ++ ·) := by
  cases h with
  | @word w h =>
    refine restart_skip ?_ ws ms
    rintro ⟨t, rfl⟩
    simp at h
  | @flags c ls hc h => exact restart_skip (group_not_f (ls := []) (by simp) (by
      rintro rfl
      obtain ⟨cs, h1, _, h2, h3⟩ := hc
      have : ∀ cs ∈ switches, cs.hasArg = .no → cs.c ≠ 'f'.toNat := by decide +kernel
      exact this cs h1 h3 h2)) ws ms
  | joined h hc ha => exact restart_skip (group_not_f h hc.1) ws ms
  | @apart ls c a h hc ha =>
    rw [List.cons_append, restart_skip (group_not_f h hc.1), List.singleton_append, restart_skip ha, Option.map_map]
    rfl
  | bare h hc hr => exact restart_skip (group_not_f h hc.1) ws ms
  | @number ls n h hn =>
    rw [List.cons_append, restart_skip (group_not_f h (by decide)), List.singleton_append, restart_skip, Option.map_map]
    · rfl
    · rintro ⟨t, rfl⟩
      have := hn '-' (by simp)
      cases this
  | long h => exact restart_skip (not_f (by decide)) ws ms
  | longJoined h hn => exact restart_skip (not_f (by decide)) ws ms
  | @longApart t a h ha =>
    rw [List.cons_append, restart_skip (not_f (by decide)), List.singleton_append, restart_skip ha, Option.map_map]
    rfl

theorem renamed_words {ws ns ms ws' : List Str} (h : Renamed ws ns ms ws') :
    restartWords ws (some ms) = some (ws'.map some) := by
  induction h with
  | nil => rfl
  | @two x m ws ns ms ws' hx hm h ih =>
    rw [restartWords, if_pos (by exact List.prefix_refl _)]
    simp only [MkNames.take]
    rw [if_pos (by rfl), ih]
    rfl
  | @one x m ws ns ms ws' hx hm h ih =>
    have hne : "-f".toList ++ x ≠ ['-', 'f'] := by
      intro he
      apply hx
      simpa using he
    have hp : ['-', 'f'] <+: "-f".toList ++ x := ⟨x, rfl⟩
    cases ws with
    | nil =>
      rw [restartWords, if_pos hp]
      simp only [MkNames.take]
      rw [if_neg hne]
      have : ws' = [] := by
        simp only [restartWords, Option.some.injEq] at ih
        simpa using ih.symm
      rw [this]
      rfl
    | cons y ws =>
      rw [restartWords, if_pos hp]
      simp only [MkNames.take]
      rw [if_neg hne, ih]
      rfl
  | @other pre num ws ns ms ws' ho hn h ih =>
    rw [other_skip ho, ih]
    simp

/-! ## C97: the command line -/

/-- **C97** (partial: every makefile is given by `-f` at the start of a word, see `C97_long_option`, `C97_group`; no word `--`, see
`C97_goal_lost`, `C97_temporary_goal`) The new make gets the same words with the names of the makefiles as they are now, and an option
for the temporary file. -/
theorem C97_words_partial {ws ns ms ws' : List Str} (h : Renamed ws ns ms ws') (tmp : Option Str) :
    restartArgs ws ms tmp = some (ws' ++ (tmp.map ("-o".toList ++ ·)).toList) := by
  have key : ∀ l : List Str, ((l.map some).takeWhile (·.isSome)).filterMap id = l := by
    intro l
    induction l with
    | nil => rfl
    | cons x l ih => simp [ih]
  have hw : (if ms = [] then some (ws.map some) else restartWords ws (some ms)) = some (ws'.map some) := by
    split
    · rename_i hm
      have : ∀ {ws ns ms ws' : List Str}, Renamed ws ns ms ws' → ms = [] → ws' = ws := by
        intro ws ns ms ws' h
        induction h with
        | nil => intro _; rfl
        | two => intro h; cases h
        | one => intro h; cases h
        | other _ _ _ ih => intro h; rw [ih h]
      rw [this h hm]
    · exact renamed_words h
  unfold restartArgs
  simp only [hw, Option.map_some]
  have : ws'.map some ++ (tmp.map fun t => some ("-o".toList ++ t)).toList = (ws' ++ (tmp.map ("-o".toList ++ ·)).toList).map some := by
    cases tmp <;> simp
  rw [this, key]

/-- **C97** (partial as above; no name begins with a tilde, see `C79_tilde`) The new make has the same options, goals and assignments, and reads
the makefiles `ms` in place of the ones named at first. -/
theorem C97_options_partial {F : Type} (fl : Floats F) (tilde : Str → Option Str) {ws ns ms ws' : List Str} (h : Renamed ws ns ms ws')
    (hm : ∀ m ∈ ms, expandFile tilde m = m) (s : Opts F) (hs : s.lst .makefiles = []) :
    (decodeSwitches fl tilde false ws s).opts.lst .makefiles = ns.map (expandFile tilde) ∧
    SameButMakefiles ms (decodeSwitches fl tilde false ws s) (decodeSwitches fl tilde false ws' s) := by
  unfold decodeSwitches
  obtain ⟨h1, h2⟩ := renamed_decode fl tilde h hm false [] ⟨s, [], false⟩
  have hself : withMk [] (⟨s, [], false⟩ : Decoded F) = ⟨s, [], false⟩ := by
    have := withMk_self (⟨s, [], false⟩ : Decoded F)
    rw [hs] at this
    exact this
  rw [hself] at h1
  refine ⟨by rw [h2, hs]; rfl, ?_⟩
  rw [h1]
  refine ⟨rfl, rfl, rfl, rfl, rfl, fun v hv => ?_, ?_⟩
  · simp [withMk, hv]
  · simp [withMk]

/-- **C97** (partial as above) With a temporary file for standard input the new make takes that file as old, and nothing else differs. -/
theorem C97_temporary_partial {F : Type} (fl : Floats F) (tilde : Str → Option Str) {ws ns ms ws' : List Str} (h : Renamed ws' ns ms ws)
    {t : Str} (ht : t ≠ []) (s : Opts F) :
    (decodeSwitches fl tilde false (ws' ++ ["-o".toList ++ t]) s).args = (decodeSwitches fl tilde false ws' s).args ∧
    (decodeSwitches fl tilde false (ws' ++ ["-o".toList ++ t]) s).bad = (decodeSwitches fl tilde false ws' s).bad ∧
    (decodeSwitches fl tilde false (ws' ++ ["-o".toList ++ t]) s).opts =
      (decodeSwitches fl tilde false ws' s).opts.addStr .oldFiles (expandFile tilde t) := by
  unfold decodeSwitches
  obtain ⟨j, hj⟩ := renamed_append fl tilde h ("-o".toList ++ t) rfl [] false ⟨s, [], false⟩
  rw [hj]
  generalize decodeLoop fl tilde false false [] ws' ⟨s, [], false⟩ = d
  have hff : switches.find? (fun cs => cs.short && cs.c == 'o'.toNat) =
      some ⟨'o'.toNat, .filename, .oldFiles, false, false, false, none, none, "old-file".toList⟩ ∧
    switches.find? (fun cs => cs.c == 'o'.toNat) =
      some ⟨'o'.toNat, .filename, .oldFiles, false, false, false, none, none, "old-file".toList⟩ := by decide +kernel
  have e2 : getopt true j [] (("-o".toList ++ t) :: []) = (.opt 'o'.toNat (some t), [], []) := by
    show getoptShort j 'o' t [] = _
    simp only [getoptShort]
    rw [if_neg (by decide), hff.1]
    simp [Switch.hasArg, ht]
  rw [decode_step _ _ _ _ _ _ (by simp), e2]
  simp only [decodeStep, applyOpt, hff.2, applySwitch, storeString, Bool.not_false, Bool.true_or, if_true, Option.getD_some,
    Option.some.injEq, if_neg ht, reduceCtorEq, if_false, decode_end]
  exact ⟨trivial, trivial, trivial⟩

/-- `make -kf...` is out, but `make -k -j 4 -f - -Idir all X=1 -fb --include-dir=c` is in. -/
example : Renamed
    ["-k".toList, "-j".toList, "4".toList, "-f".toList, "-".toList, "-Idir".toList, "all".toList, "X=1".toList, "-fb".toList, "--include-dir=c".toList]
    ["-".toList, "b".toList] ["/tmp/GmA".toList, "b".toList]
    ["-k".toList, "-j".toList, "4".toList, "-f".toList, "/tmp/GmA".toList, "-Idir".toList, "all".toList, "X=1".toList, "-fb".toList, "--include-dir=c".toList] := by
  refine .other (pre := ["-k".toList]) (num := false) ?_ (by simp) ?_
  · refine .flags (c := 'k') (ls := []) ?_ (by simp)
    unfold FlagLetter; decide +kernel
  refine .other (pre := ["-j".toList, "4".toList]) (num := false) (.number (ls := []) (by simp) (by decide)) (by simp) ?_
  refine .two (by decide) (by decide) ?_
  refine .other (pre := ["-Idir".toList]) (num := false) ?_ (by simp) ?_
  · refine .joined (ls := []) (c := 'I') (a := "dir".toList) (by simp) ?_ (by decide)
    unfold ArgLetter; decide +kernel
  refine .other (pre := ["all".toList]) (num := false) (.word (by decide)) (by simp) ?_
  refine .other (pre := ["X=1".toList]) (num := false) (.word (by decide)) (by simp) ?_
  refine .one (x := "b".toList) (m := "b".toList) (by decide) (by decide) ?_
  refine .other (pre := ["--include-dir=c".toList]) (num := false) ?_ (by simp) .nil
  refine .longJoined (t := "include-dir".toList) (a := "c".toList) (h := .required) ?_ (by decide)
  exact ⟨by decide, by decide, ⟨"include-dir".toList, .required, 'I'.toNat⟩, by decide +kernel, rfl, by decide⟩

/-- C97 fails for makefiles given by the long option: `make --file=a -f b` starts again with the makefile `a` twice. -/
theorem C97_long_option :
    restartArgs ["--file=a".toList, "-f".toList, "b".toList] ["a".toList, "b".toList] none =
      some ["--file=a".toList, "-f".toList, "a".toList] := by decide +kernel

/-- C97 fails for `-f` in a group: `make -kf -` reads standard input, which is at its end, once more. -/
theorem C97_group :
    restartArgs ["-kf".toList, "-".toList] ["/tmp/GmA".toList] (some "/tmp/GmA".toList) =
      some ["-kf".toList, "-".toList, "-o/tmp/GmA".toList] := by decide +kernel

/-- C97 fails for a goal that begins with `-f`: `make -f a -- -fb` starts again with the goal `-f`; two such goals are a read beyond the list. -/
theorem C97_goal_lost :
    restartArgs ["-f".toList, "a".toList, "--".toList, "-fb".toList] ["a".toList] none =
      some ["-f".toList, "a".toList, "--".toList, "-f".toList] ∧
    restartArgs ["-f".toList, "a".toList, "--".toList, "-fb".toList, "-fc".toList] ["a".toList] none = none := by decide +kernel

/-- C97 fails for `make -f - -- all`: the option for the temporary file becomes a goal. -/
theorem C97_temporary_goal :
    restartArgs ["-f".toList, "-".toList, "--".toList, "all".toList] ["/tmp/GmA".toList] (some "/tmp/GmA".toList) =
      some ["-f".toList, "/tmp/GmA".toList, "--".toList, "all".toList, "-o/tmp/GmA".toList] := by decide +kernel

/-! ## C97: the environment -/

theorem lastEntry_cons_iff {e : Str} {es : List Str} {n v : Str} :
    LastEntry (e :: es) n v ↔ LastEntry es n v ∨ (e = n ++ '=' :: v ∧ '=' ∉ n ∧ ∀ e ∈ es, ¬ (n ++ ['=']) <+: e) := by
  constructor
  · exact lastEntry_cons
  · rintro (⟨pre, post, h1, h2, h3⟩ | ⟨h1, h2, h3⟩)
    · exact ⟨e :: pre, post, by rw [h1]; rfl, h2, h3⟩
    · exact ⟨[], es, by rw [h1]; rfl, h2, h3⟩

/-- The two names make changes. -/
def changedNames : List Str := ["MAKELEVEL".toList, "MAKE_RESTARTS".toList]

theorem prefix_name {n e : Str} (h : (n ++ ['=']) <+: e) : ∃ v, e = n ++ '=' :: v := by
  obtain ⟨t, rfl⟩ := h
  exact ⟨t, by simp⟩

theorem changed_prefix {m n v : Str} (hm : m ∈ changedNames) (hn : '=' ∉ n) (h : (n ++ ['=']) <+: m ++ '=' :: v) : n = m := by
  refine entry_name ?_ hn h
  have : ∀ m ∈ changedNames, '=' ∉ m := by decide
  exact this m hm

theorem restartEntry_other {level : Nat} {traced : Bool} {r : Nat} {e n : Str} (hn : n ∉ changedNames) (hn0 : '=' ∉ n) :
    ((n ++ ['=']) <+: (restartEntry level traced r e).1 ↔ (n ++ ['=']) <+: e) ∧
    ∀ v, (restartEntry level traced r e).1 = n ++ '=' :: v ↔ e = n ++ '=' :: v := by
  have no : ∀ m ∈ changedNames, ∀ x, ¬ (n ++ ['=']) <+: m ++ '=' :: x := by
    intro m hm x hp
    rw [changed_prefix hm hn0 hp] at hn
    exact hn hm
  have no' : ∀ m ∈ changedNames, ∀ x v, m ++ '=' :: x ≠ n ++ '=' :: v := by
    intro m hm x v he
    apply no m hm x
    rw [he]
    exact ⟨v, by simp⟩
  have key : ∀ m ∈ changedNames, ∀ x x', ((n ++ ['=']) <+: m ++ '=' :: x ↔ (n ++ ['=']) <+: m ++ '=' :: x') ∧
      ∀ v, m ++ '=' :: x = n ++ '=' :: v ↔ m ++ '=' :: x' = n ++ '=' :: v := fun m hm x x' =>
    ⟨⟨fun h => absurd h (no m hm x), fun h => absurd h (no m hm x')⟩,
      fun v => ⟨fun h => absurd h (no' m hm x v), fun h => absurd h (no' m hm x' v)⟩⟩
  unfold restartEntry
  split
  · rename_i h
    obtain ⟨t, rfl⟩ := h
    exact key "MAKELEVEL".toList (by decide) _ _
  · split
    · rename_i h
      obtain ⟨t, rfl⟩ := h
      exact key "MAKE_RESTARTS".toList (by decide) _ _
    · exact ⟨Iff.rfl, fun _ => Iff.rfl⟩

theorem added_other {traced : Bool} {r : Nat} {n : Str} (hn : n ∉ changedNames) (hn0 : '=' ∉ n) (e : Str)
    (he : e ∈ restartEntries level traced r []) : ¬ (n ++ ['=']) <+: e := by
  unfold restartEntries at he
  split at he
  · cases he
  · simp only [List.mem_singleton] at he
    subst he
    intro hp
    rw [changed_prefix (m := "MAKE_RESTARTS".toList) (by decide) hn0 hp] at hn
    exact hn (by decide)

theorem restartEntries_other {level : Nat} {traced : Bool} {n : Str} (hn : n ∉ changedNames) (hn0 : '=' ∉ n) (es : List Str) : ∀ r,
    ((∀ e ∈ restartEntries level traced r es, ¬ (n ++ ['=']) <+: e) ↔ ∀ e ∈ es, ¬ (n ++ ['=']) <+: e) ∧
    ∀ v, LastEntry (restartEntries level traced r es) n v ↔ LastEntry es n v := by
  induction es with
  | nil =>
    intro r
    refine ⟨⟨by simp, fun _ e he => added_other hn hn0 e he⟩, fun v => ⟨?_, ?_⟩⟩
    · rintro ⟨pre, post, h1, h2, h3⟩
      exact absurd ⟨v, by simp⟩ (added_other (level := level) hn hn0 (n ++ '=' :: v) (by rw [h1]; simp))
    · rintro ⟨pre, post, h1, _⟩; simp at h1
  | cons e es ih =>
    intro r
    obtain ⟨h1, h2⟩ := restartEntry_other (level := level) (traced := traced) (r := r) (e := e) hn hn0
    obtain ⟨i1, i2⟩ := ih (restartEntry level traced r e).2
    simp only [restartEntries]
    refine ⟨by simp only [List.forall_mem_cons, i1, h1], fun v => ?_⟩
    rw [lastEntry_cons_iff, lastEntry_cons_iff, i2, h2, i1]

theorem restartEntry_name {level : Nat} {traced : Bool} {r : Nat} {e n : Str} (hn0 : '=' ∉ n) :
    (n ++ ['=']) <+: (restartEntry level traced r e).1 ↔ (n ++ ['=']) <+: e := by
  by_cases hn : n ∈ changedNames
  · have key : ∀ m ∈ changedNames, ∀ x x', (n ++ ['=']) <+: m ++ '=' :: x → (n ++ ['=']) <+: m ++ '=' :: x' := by
      intro m hm x x' h
      rw [changed_prefix hm hn0 h]
      exact ⟨x', by simp⟩
    unfold restartEntry
    split
    · rename_i h
      obtain ⟨t, rfl⟩ := h
      exact ⟨key "MAKELEVEL".toList (by decide) _ _, key "MAKELEVEL".toList (by decide) _ _⟩
    · split
      · rename_i h
        obtain ⟨t, rfl⟩ := h
        exact ⟨key "MAKE_RESTARTS".toList (by decide) _ _, key "MAKE_RESTARTS".toList (by decide) _ _⟩
      · exact Iff.rfl
  · exact (restartEntry_other hn hn0).1

/-- Names without an entry still have none; `MAKE_RESTARTS` may be added. -/
theorem restartEntries_none {level : Nat} {traced : Bool} {n : Str} (hn0 : '=' ∉ n) (es : List Str) : ∀ r,
    (n = "MAKE_RESTARTS".toList → r = 0) → (∀ e ∈ es, ¬ (n ++ ['=']) <+: e) →
    ∀ e ∈ restartEntries level traced r es, ¬ (n ++ ['=']) <+: e := by
  induction es with
  | nil =>
    intro r hr _ e he
    unfold restartEntries at he
    split at he
    · cases he
    · rename_i h0
      simp only [List.mem_singleton] at he
      subst he
      intro hp
      exact h0 (hr (changed_prefix (m := "MAKE_RESTARTS".toList) (by decide) hn0 hp))
  | cons e es ih =>
    intro r hr h x hx
    simp only [restartEntries, List.mem_cons] at hx
    rcases hx with rfl | hx
    · rw [restartEntry_name hn0]
      exact h e List.mem_cons_self
    · refine ih _ ?_ (fun e he => h e (List.mem_cons_of_mem _ he)) x hx
      intro hn
      have := hr hn
      subst this
      unfold restartEntry
      split
      · rfl
      · split <;> rfl

/-- No name has two entries for `MAKE_RESTARTS`. -/
def OneRestarts (es : List Str) : Prop :=
  ∀ pre e post, es = pre ++ e :: post → "MAKE_RESTARTS=".toList <+: e → ∀ x ∈ post, ¬ "MAKE_RESTARTS=".toList <+: x

theorem restarts_entry {level : Nat} {traced : Bool} (es : List Str) (h : OneRestarts es) {r : Nat} (hr : r ≠ 0) :
    LastEntry (restartEntries level traced r es) "MAKE_RESTARTS".toList ((if traced then ['-'] else []) ++ numeral r) := by
  have hR : '=' ∉ "MAKE_RESTARTS".toList := by decide
  rw [numeral_eq]
  induction es with
  | nil =>
    refine ⟨[], [], ?_, hR, by simp⟩
    rw [restartEntries, if_neg hr]
    simp
  | cons e es ih =>
    have ht : OneRestarts es := fun pre x post hx => h (e :: pre) x post (by rw [hx]; rfl)
    simp only [restartEntries]
    rw [lastEntry_cons_iff]
    by_cases he : "MAKE_RESTARTS=".toList <+: e
    · right
      have hnl : ¬ "MAKELEVEL=".toList <+: e := by
        intro hl
        have h1 : e.take 5 = "MAKEL".toList := by obtain ⟨t, rfl⟩ := hl; rfl
        have h2 : e.take 5 = "MAKE_".toList := by obtain ⟨t, rfl⟩ := he; rfl
        rw [h1] at h2
        revert h2
        decide
      have hre : restartEntry level traced r e =
          ("MAKE_RESTARTS=".toList ++ (if traced then ['-'] else []) ++ Nat.toDigits 10 r, 0) := by
        rw [restartEntry, if_neg hnl, if_pos he]
      rw [hre]
      refine ⟨by simp, hR, ?_⟩
      exact restartEntries_none hR es 0 (fun _ => rfl) (h [] e es rfl he)
    · left
      have : (restartEntry level traced r e).2 = r := by
        rw [restartEntry]
        split
        · rfl
        · simp only [if_neg he]
      rw [this]
      exact ih ht

theorem level_entry {level : Nat} {traced : Bool} (es : List Str) (h : ∃ e ∈ es, "MAKELEVEL=".toList <+: e) (r : Nat) :
    LastEntry (restartEntries level traced r es) "MAKELEVEL".toList (numeral level) := by
  have hL : '=' ∉ "MAKELEVEL".toList := by decide
  rw [numeral_eq]
  induction es generalizing r with
  | nil => obtain ⟨e, he, _⟩ := h; cases he
  | cons e es ih =>
    simp only [restartEntries]
    rw [lastEntry_cons_iff]
    by_cases hl : ∃ e ∈ es, "MAKELEVEL=".toList <+: e
    · exact Or.inl (ih hl _)
    · right
      have he : "MAKELEVEL=".toList <+: e := by
        obtain ⟨x, hx, hp⟩ := h
        rcases List.mem_cons.mp hx with rfl | hx
        · exact hp
        · exact absurd ⟨x, hx, hp⟩ hl
      refine ⟨?_, hL, ?_⟩
      · rw [restartEntry, if_pos he]
        simp
      · exact restartEntries_none hL es _ (fun h => absurd h (by decide)) fun x hx hp => hl ⟨x, hx, hp⟩

theorem restart_entries {level : Nat} {traced : Bool} (es : List Str) (h : ∀ e ∈ es, IsEntry e) : ∀ r, ∀ e ∈ restartEntries level traced r es, IsEntry e := by
  have key : ∀ (m : Str), nulChar ∉ m → ∀ k (sg : Str), (sg = [] ∨ sg = ['-']) → IsEntry (m ++ ['='] ++ sg ++ Nat.toDigits 10 k) := by
    intro m hm k sg hsg
    refine ⟨?_, by simp⟩
    have h1 : nulChar ∉ Nat.toDigits 10 k := by
      intro hc
      have := toDigits_all_digit k _ hc
      revert this
      decide
    have h2 : nulChar ∉ sg := by rcases hsg with rfl | rfl <;> decide
    have h3 : nulChar ≠ '=' := by decide
    simp [hm, h1, h2, h3]
  have hR : ∀ k, IsEntry ("MAKE_RESTARTS=".toList ++ (if traced then ['-'] else []) ++ Nat.toDigits 10 k) := by
    intro k
    exact key "MAKE_RESTARTS".toList (by decide) k _ (by cases traced <;> simp)
  induction es with
  | nil =>
    intro r e he
    unfold restartEntries at he
    split at he
    · cases he
    · simp only [List.mem_singleton] at he
      subst he
      exact hR r
  | cons e es ih =>
    intro r x hx
    simp only [restartEntries, List.mem_cons] at hx
    rcases hx with rfl | hx
    · unfold restartEntry
      split
      · have := key "MAKELEVEL".toList (by decide) level [] (Or.inl rfl)
        rw [List.append_nil] at this
        exact this
      · split
        · exact hR r
        · exact h e List.mem_cons_self
    · exact ih (fun e he => h e (List.mem_cons_of_mem _ he)) _ x hx

theorem readLevel_numeral {n : Nat} (h : n < 2 ^ 32) : readLevel (some (numeral n)) = n := by
  have hd : ∀ c ∈ numeral n, isDigitC c = true := by rw [numeral_eq]; exact toDigits_all_digit _
  have := toUnsigned_numeral h
  unfold readLevel
  split
  · rename_i heq; cases heq
  · rename_i heq
    have heq := Option.some.inj heq
    rw [numeral_eq] at heq
    exact absurd heq (toDigits_ne_nil _)
  · rename_i heq
    have heq := Option.some.inj heq
    rw [heq] at hd
    have := hd '-' List.mem_cons_self
    cases this
  · rename_i x _ _ heq
    rw [← Option.some.inj heq]
    exact this

/-- **C97** (partial: the environment has one entry for `MAKE_RESTARTS` at most, see `C97_two_restarts`, and fewer than 2^32 - 1
restarts were made) The new make counts one restart more, is at the same level, and has the other variables of the
environment as they were. -/
theorem C97_environment_partial {es : List Str} (hes : ∀ e ∈ es, IsEntry e) (hone : OneRestarts es) {level restarts : Nat}
    (hl : level < 2 ^ 32) (hr : restarts + 1 < 2 ^ 32) (traced : Bool) (beyond : Str) (s : EnvVars)
    (hs : ∀ n x, s.set n = some x → x.origin = .default ∨ x.origin = .env) :
    (∀ n v, n ≠ "MAKELEVEL".toList → n ≠ "MAKE_RESTARTS".toList →
      (LastEntry (restartEnv level restarts traced es) n v ↔ LastEntry es n v)) ∧
    ∃ s', importEnv (restartEnv level restarts traced es) beyond s = some s' ∧ s'.restarts = restarts + 1 ∧
      ((∃ e ∈ es, "MAKELEVEL=".toList <+: e) → ∃ x, s'.set "MAKELEVEL".toList = some x ∧ readLevel (some x.value) = level) ∧
      ((¬ ∃ e ∈ es, "MAKELEVEL=".toList <+: e) → s'.set "MAKELEVEL".toList = s.set "MAKELEVEL".toList) := by
  have hrr : (restarts + 1) % 2 ^ 32 = restarts + 1 := Nat.mod_eq_of_lt hr
  have hL : '=' ∉ "MAKELEVEL".toList := by decide
  unfold restartEnv
  rw [hrr]
  refine ⟨?_, ?_⟩
  · intro n v h1 h2
    by_cases hn0 : '=' ∈ n
    · constructor <;> rintro ⟨_, _, _, h, _⟩ <;> exact absurd hn0 h
    · exact (restartEntries_other (by simp only [changedNames, List.mem_cons, List.not_mem_nil, or_false, not_or]; exact ⟨h1, h2⟩) hn0 es _).2 v
  · obtain ⟨s', h1, h2, h3, _, _, h4, _⟩ := C94_import_partial (restart_entries (level := level) (traced := traced) es hes (restarts + 1)) beyond s hs
    refine ⟨s', h1, ?_, ?_, ?_⟩
    · exact h4 (restarts + 1) hr _ (by cases traced <;> simp) (restarts_entry es hone (by omega))
    · intro h
      obtain ⟨x, hx, hf⟩ := h2 _ _ (level_entry (traced := traced) (level := level) es h (restarts + 1))
      refine ⟨x, hx, ?_⟩
      rcases hf.2.2.2.2 with ⟨h, _⟩ | ⟨_, h⟩
      · exact absurd h (by decide)
      · rw [h]
        exact readLevel_numeral hl
    · intro h
      refine h3 _ ?_ hL
      exact restartEntries_none hL es _ (fun h => absurd h (by decide)) fun x hx hp => h ⟨x, hx, hp⟩

example : (∀ e ∈ ["PATH=/bin".toList, "MAKE_RESTARTS=2".toList, "MAKELEVEL=1".toList], IsEntry e) ∧
    OneRestarts ["PATH=/bin".toList, "MAKE_RESTARTS=2".toList, "MAKELEVEL=1".toList] := by
  refine ⟨by unfold IsEntry; decide, ?_⟩
  intro pre e post h he x hx
  rcases pre with _ | ⟨a, _ | ⟨b, _ | ⟨c, pre⟩⟩⟩
  · simp only [List.nil_append, List.cons.injEq] at h
    obtain ⟨rfl, rfl⟩ := h
    exact absurd he (by decide)
  · simp only [List.cons_append, List.nil_append, List.cons.injEq] at h
    obtain ⟨_, rfl, rfl⟩ := h
    revert x
    decide
  · simp only [List.cons_append, List.nil_append, List.cons.injEq] at h
    obtain ⟨_, _, rfl, rfl⟩ := h
    cases hx
  · simp at h

/-- C97 fails when the environment has two entries for `MAKE_RESTARTS`: the second is set to 0, and it is the one that counts. -/
theorem C97_two_restarts :
    (importEnv (restartEnv 0 1 false ["MAKE_RESTARTS=1".toList, "MAKE_RESTARTS=1".toList]) [] bareVars).map (·.restarts) = some 0 := by
  decide +kernel

/-! ## C98 -/

namespace Spec

/-- The makefile was remade: it was updated and has another time stamp than before; if the update failed, this counts if make cares and the
file is there. -/
def Remade (d : MkState) : Prop :=
  d.updated = true ∧ d.now ≠ d.before ∧ (d.success = true ∨ (d.dontcare = false ∧ d.now ≠ none))

/-- A makefile named by an option (or found by default) is not there and nothing could be done about it. -/
def Missing (d : MkState) : Prop := d.updated = false ∧ d.dontcare = false ∧ d.included = false

/-- The update of a makefile that make cares about failed. -/
def Failed (d : MkState) : Prop := d.updated = true ∧ d.success = false ∧ d.dontcare = false

end Spec

theorem weigh_spec (ds : List MkState) :
    ((weighMakefiles ds).1 = true ↔ ∃ d ∈ ds, Remade d) ∧ ((weighMakefiles ds).2.1 = true ↔ ∃ d ∈ ds, Missing d) ∧
    ((weighMakefiles ds).2.2 = true ↔ ∃ d ∈ ds, Failed d) := by
  induction ds with
  | nil => simp [weighMakefiles]
  | cons d ds ih =>
    obtain ⟨u, sc, now, before, dc, inc⟩ := d
    obtain ⟨i1, i2, i3⟩ := ih
    simp only [weighMakefiles, List.mem_cons, exists_eq_or_imp, ← i1, ← i2, ← i3]
    cases u <;> cases sc <;> cases dc <;> cases inc <;> simp [Remade, Missing, Failed]
    all_goals rw [and_comm]

/-- **C98** Make starts again exactly when makefiles were remade: all of them, or some of them although others failed. -/
theorem C98_restart (s : MkStatus) (ds : List MkState) :
    afterMakefiles s ds = .restart ↔ s = .success ∨ (s = .failed ∧ ∃ d ∈ ds, Remade d) := by
  obtain ⟨h1, h2, h3⟩ := weigh_spec ds
  rw [← h1]
  cases s <;> simp only [afterMakefiles]
  case failed =>
    cases (weighMakefiles ds).1 <;> cases (weighMakefiles ds).2.1 <;> simp
  all_goals simp

/-- **C98** It gives up exactly when the update failed, none was remade, and a makefile is missing. -/
theorem C98_die (s : MkStatus) (ds : List MkState) :
    afterMakefiles s ds = .die ↔ s = .failed ∧ (¬ ∃ d ∈ ds, Remade d) ∧ ∃ d ∈ ds, Missing d := by
  obtain ⟨h1, h2, h3⟩ := weigh_spec ds
  rw [← h1, ← h2]
  cases s <;> simp only [afterMakefiles]
  case failed =>
    cases (weighMakefiles ds).1 <;> cases (weighMakefiles ds).2.1 <;> simp
  all_goals simp

/-- **C98** Else it goes on to the goals; it will exit with an error exactly if the update of a makefile failed that it cares about. -/
theorem C98_goals (s : MkStatus) (ds : List MkState) (b : Bool) (h : afterMakefiles s ds = .goals b) :
    b = true ↔ s = .failed ∧ ∃ d ∈ ds, Failed d := by
  obtain ⟨h1, h2, h3⟩ := weigh_spec ds
  rw [← h3]
  cases s <;> simp only [afterMakefiles] at h
  case failed =>
    split at h
    · cases h
    · split at h
      · cases h
      · cases h; simp
  all_goals simp at h <;> simp [h]

/-- **C98** No loop by double-colon rules: of the makefiles read, exactly those are left out that have a double-colon rule with a recipe and no
prerequisites; the order is kept. -/
theorem C98_colon (ms : List (Str × List ColonEntry)) :
    (remadeMakefiles ms).Sublist ms ∧ ∀ m, m ∈ remadeMakefiles ms ↔ m ∈ ms ∧ ¬ ∃ e ∈ m.2, e.deps = false ∧ e.cmds = true := by
  refine ⟨List.filter_sublist, fun m => ?_⟩
  rw [remadeMakefiles, List.mem_filter]
  simp

/-- **C98** No loop by `-B`: makefiles are remade unconditionally by the first make only. -/
theorem C98_always (b : Bool) (restarts : Nat) :
    (alwaysMake b restarts true = true ↔ b = true ∧ restarts = 0) ∧ alwaysMake b restarts false = b := by
  simp [alwaysMake]

example : afterMakefiles .failed [⟨true, true, some 2, some 1, false, false⟩, ⟨true, false, some 1, some 1, false, true⟩] = .restart ∧
    afterMakefiles .failed [⟨false, false, none, none, false, false⟩] = .die ∧
    afterMakefiles .failed [⟨true, false, none, none, false, true⟩] = .goals true := by decide

/-! ## C100 -/

/-- **C100** (partial: not with `-q` for goals that are out of date after a makefile failed, see `C100_hidden`) The exit status is 2 if the goals
failed or the update of a makefile that make cares about, 1 if `-q` finds something to do, and else 0. -/
theorem C100_exit_partial (s g : MkStatus) (ds : List MkState) (b : Bool) (h : afterMakefiles s ds = .goals b)
    (hq : ¬ (g = .question ∧ s = .failed ∧ ∃ d ∈ ds, Failed d)) :
    (exitStatus b g = 2 ↔ g = .failed ∨ (s = .failed ∧ ∃ d ∈ ds, Failed d)) ∧ (exitStatus b g = 1 ↔ g = .question) ∧
    (exitStatus b g = 0 ↔ g ≠ .failed ∧ g ≠ .question ∧ ¬ (s = .failed ∧ ∃ d ∈ ds, Failed d)) := by
  have hb := C98_goals s ds b h
  rw [← hb] at hq ⊢
  cases g <;> cases b <;> simp_all [exitStatus]

example : exitStatus true .success = 2 ∧ exitStatus false .question = 1 ∧ exitStatus false .none = 0 := by decide

/-- C100 fails with `-q`: the failure of a makefile is forgotten if a goal is out of date. -/
theorem C100_hidden : afterMakefiles .failed [⟨true, false, some 1, some 1, false, true⟩] = .goals true ∧ exitStatus true .question = 1 := by decide

end Remake
