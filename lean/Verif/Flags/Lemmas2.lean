import Verif.Flags.Lemmas
/-!
# Reading the words of MAKEFLAGS
-/
set_option linter.unusedVariables false
set_option linter.unusedSimpArgs false
namespace Remake
open Remake.Spec

variable {F : Type}

/-! ### The table -/

theorem table_letters : ∀ cs ∈ switches, cs.short = true →
    (cs.letter ≠ '$' ∧ cs.letter ≠ '-' ∧ cs.letter ≠ '=' ∧ cs.letter ≠ '\\' ∧ isSpace cs.letter = false ∧ isBlank cs.letter = false) ∧
      cs.letter.toNat = cs.c := by decide +kernel
theorem table_names : ∀ cs ∈ switches, ∀ c ∈ cs.name, c ≠ '$' ∧ c ≠ '=' ∧ c ≠ '\\' ∧ isBlank c = false := by decide +kernel
theorem table_find : ∀ cs ∈ switches, switches.find? (fun x => x.c == cs.c) = some cs := by decide +kernel
theorem table_short : ∀ cs ∈ switches, cs.short = true →
    switches.find? (fun x => x.short && x.c == cs.letter.toNat) = some cs := by decide +kernel
theorem table_long : ∀ cs ∈ switches, cs.short = false →
    findLong cs.name longOptions none false = .found ⟨cs.name, cs.hasArg, cs.c⟩ ∧ cs.name ≠ [] := by decide +kernel
theorem table_env : ∀ cs ∈ switches, cs.toenv = true → cs.env = true := by decide +kernel

/-! ### Words -/

/-- The word for a flag outside the group. -/
def flagWord (f : Switch × Option Str) : Str :=
  '-' :: (if f.1.short then [f.1.letter] else '-' :: f.1.name) ++
    match f.2 with
    | none => []
    | some a => if a = [] then [] else (if f.1.short then [] else ['=']) ++ a

theorem quoteForEnv_eq {a : Str} (h : '$' ∉ a) : quoteForEnv a = escapeBlanks a := by
  induction a with
  | nil => rfl
  | cons c a ih =>
    simp only [List.mem_cons, not_or] at h
    simp only [quoteForEnv, escapeBlanks]
    rw [if_neg (Ne.symm h.1), ih h.2]

theorem flagText_eq {f : Switch × Option Str} (hf : f.1 ∈ switches) (h : ∀ a, f.2 = some a → '$' ∉ a) :
    flagText f = ' ' :: escapeBlanks (flagWord f) := by
  obtain ⟨cs, o⟩ := f
  simp only at hf h
  have hhead : escapeBlanks ('-' :: (if cs.short = true then [cs.letter] else '-' :: cs.name)) =
      '-' :: (if cs.short = true then [cs.letter] else '-' :: cs.name) := by
    apply escapeBlanks_id
    intro c hc
    simp only [List.mem_cons] at hc
    rcases hc with rfl | hc
    · decide
    · split at hc
      · rename_i hs
        simp only [List.mem_singleton] at hc; subst hc
        have := (table_letters cs hf hs).1
        exact ⟨this.2.2.2.2.2, this.2.2.2.1⟩
      · simp only [List.mem_cons] at hc
        rcases hc with rfl | hc
        · decide
        · have := table_names cs hf c hc
          exact ⟨this.2.2.2, this.2.2.1⟩
  unfold flagText flagWord
  simp only
  rw [escapeBlanks_append, hhead]
  simp only [List.cons_append, List.cons.injEq, true_and]
  congr 1
  cases o with
  | none => rfl
  | some a =>
    simp only
    split
    · rfl
    · rw [escapeBlanks_append, quoteForEnv_eq (h a rfl)]
      congr 1
      split <;> rfl

theorem flagWord_head (f : Switch × Option Str) : (flagWord f).head? = some '-' := by simp [flagWord]

/-- The argument that getopt hands over. -/
def argOf : Option Str → Option Str
  | some (c :: a) => some (c :: a)
  | _ => none

theorem argOf_some {a : Str} (h : a ≠ []) : argOf (some a) = some a := by
  cases a with
  | nil => exact absurd rfl h
  | cons c a => rfl

/-- What a flag does to the options. -/
def sendOne (fl : Floats F) (tilde : Str → Option Str) (o : Opts F) (f : Switch × Option Str) : Opts F :=
  match f.1.type, f.2 with
  | .flag, _ => o.setNum f.1.var 1
  | .flagOff, _ => o.setNum f.1.var 0
  | .string, some a => o.setStr f.1.var a
  | .strlist, some a => o.addStr f.1.var a
  | .filename, some a => o.addStr f.1.var (expandFile tilde a)
  | .positiveInt, some a =>
    if a = [] then
      match f.1.noarg with
      | some (.num n) => o.setNum f.1.var n
      | _ => o
    else o.setNum f.1.var (atoi a)
  | .floating, some a => { o with load := fl.atof a }
  | _, _ => o

/-- Flags as `define_makeflags` collects them. -/
def FlagOk (f : Switch × Option Str) : Prop :=
  f.1 ∈ switches ∧ f.1.env = true ∧
  match f.2 with
  | none => f.1.type = .flag ∨ f.1.type = .flagOff
  | some a =>
    (a ≠ [] ∧ (f.1.type = .string ∨ f.1.type = .strlist ∨ f.1.type = .filename ∨ f.1.type = .floating)) ∨
    (a ≠ [] ∧ f.1.type = .positiveInt ∧ 1 ≤ atoi a ∧ a.all isDigitC = true) ∨
    (a = [] ∧ f.1.type = .positiveInt ∧ ∃ n, f.1.noarg = some (.num n))

theorem decodeLoop_opt (fl : Floats F) (tilde : Str → Option Str) (i : Bool) (cur : Str) (ws : List Str) (d : Decoded F)
    (c : Nat) (a : Option Str) (cur' : Str) (ws' : List Str)
    (h0 : ¬ (cur = [] ∧ ws = [])) (h : getopt false i cur ws = (.opt c a, cur', ws')) :
    decodeLoop fl tilde true i cur ws d =
      decodeLoop fl tilde true true cur' (applyOpt fl tilde true c a ws' d).2 (applyOpt fl tilde true c a ws' d).1 := by
  rw [decodeLoop.eq_def]
  rw [dif_neg h0]
  split
  all_goals
    rename_i hh
    simp only [Bool.not_true] at hh
    rw [h] at hh
    simp only [Prod.mk.injEq, GetOpt.opt.injEq, reduceCtorEq, false_and] at hh
  obtain ⟨⟨rfl, rfl⟩, rfl, rfl⟩ := hh
  rfl

/-- Effect of an option that was read. -/
theorem applyOpt_ok (fl : Floats F) (tilde : Str → Option Str) {f : Switch × Option Str} (hf : FlagOk f) (ws : List Str)
    (hws : ∀ w ∈ ws.head?, w.head? = some '-') (d : Decoded F) :
    applyOpt fl tilde true f.1.c (argOf f.2) ws d = ({ d with opts := sendOne fl tilde d.opts f }, ws) := by
  obtain ⟨cs, o⟩ := f
  obtain ⟨h1, h2, h3⟩ := hf
  simp only at h1 h2 h3
  unfold applyOpt
  rw [table_find cs h1]
  have henv := h2
  simp only
  have hdo : (!true || cs.env) = true := by rw [henv]; rfl
  cases o with
  | none =>
    simp only [argOf]
    rcases h3 with h3 | h3 <;> simp [applySwitch, h3, henv, sendOne]
  | some a =>
    simp only at h3
    rcases h3 with ⟨ha, h3⟩ | ⟨ha, h3, h4, h5⟩ | ⟨rfl, h3, n, hn⟩
    · have hfa : argOf (some a) = some a := argOf_some ha
      rw [hfa]
      rcases h3 with h3 | h3 | h3 | h3
      · simp [applySwitch, h3, henv, sendOne, storeString, ha]
      · simp [applySwitch, h3, henv, sendOne, storeString, ha]
      · simp [applySwitch, h3, henv, sendOne, storeString, ha]
      · simp [applySwitch, h3, henv, sendOne, takeLoad]
    · have hfa : argOf (some a) = some a := argOf_some ha
      rw [hfa]
      have h6 : ¬ (atoi a < 1 ∨ a.all isDigitC = false) := by rw [h5]; simp; omega
      have htn : takeNumber (some a) ws = (some a, ws) := rfl
      unfold applySwitch
      simp only [h3, htn, hdo, if_true, storeNumber, sendOne]
      rw [if_neg h6, if_neg ha]
    · have hfa : argOf (some ([] : Str)) = none := rfl
      rw [hfa]
      have htn : takeNumber none ws = (none, ws) := by
        cases ws with
        | nil => rfl
        | cons w ws =>
          have := hws w (by simp)
          have hnd : w.all isDigitC = false := by
            cases w with
            | nil => simp at this
            | cons x w =>
              simp only [List.head?_cons, Option.some.injEq] at this
              subst this
              simp only [List.all_cons, show isDigitC '-' = false by decide, Bool.false_and]
          simp [takeNumber, hnd]
      unfold applySwitch
      simp only [h3, htn, hdo, if_true, storeNumber, sendOne, hn]

/-- Reading the word of a flag. -/
theorem getopt_word {f : Switch × Option Str} (hf : FlagOk f) (i : Bool) (ws : List Str) :
    getopt false i [] (flagWord f :: ws) = (.opt f.1.c (argOf f.2), [], ws) := by
  obtain ⟨cs, o⟩ := f
  obtain ⟨h1, h2, h3⟩ := hf
  simp only at h1 h2 h3
  cases hs : cs.short with
  | true =>
    obtain ⟨⟨_, hd, _, _, _⟩, _⟩ := table_letters cs h1 hs
    have hw : ∃ r, flagWord (cs, o) = '-' :: cs.letter :: r ∧ r = (argOf o).getD [] := by
      unfold flagWord
      simp only [hs, if_true]
      refine ⟨_, rfl, ?_⟩
      cases o with
      | none => rfl
      | some a =>
        simp only
        by_cases ha : a = []
        · simp [ha, argOf]
        · simp [ha, argOf_some ha]
    obtain ⟨r, hw, hr⟩ := hw
    rw [hw]
    have hg : getopt false i [] (('-' :: cs.letter :: r) :: ws) = getoptShort i cs.letter r ws := by
      unfold getopt
      simp only
      split
      · rename_i heq; simp only [List.cons.injEq, true_and] at heq; exact absurd heq.1 hd
      · rename_i heq; simp only [List.cons.injEq, true_and] at heq; exact absurd heq.1 hd
      · rename_i heq; simp only [List.cons.injEq, true_and] at heq; rw [heq.1, heq.2]
      · rename_i hx; exact absurd rfl (hx cs.letter r)
    rw [hg]
    unfold getoptShort
    rw [if_neg hd, table_short cs h1 hs]
    simp only
    cases o with
    | none =>
      have hna : cs.hasArg = .no := by rcases h3 with h3 | h3 <;> simp [Switch.hasArg, h3]
      rw [hna]
      simp only [hr]; rfl
    | some a =>
      simp only at h3
      have hna : cs.hasArg = .required ∨ cs.hasArg = .optional := by
        unfold Switch.hasArg
        rcases h3 with ⟨_, h3 | h3 | h3 | h3⟩ | ⟨_, h3, _⟩ | ⟨_, h3, _⟩ <;> rw [h3] <;> simp only <;> split <;> simp
      by_cases ha : a = []
      · subst ha
        have hopt : cs.hasArg = .optional := by
          rcases h3 with ⟨h, _⟩ | ⟨h, _⟩ | ⟨_, h3, n, hn⟩
          · exact absurd rfl h
          · exact absurd rfl h
          · simp [Switch.hasArg, h3, hn]
        have hr' : r = [] := hr
        rw [hopt]
        simp [hr', argOf]
      · have hr' : r = a := by rw [argOf_some ha] at hr; exact hr
        subst hr'
        rcases hna with hna | hna <;> rw [hna] <;> simp [ha, argOf_some ha]
  | false =>
    obtain ⟨hl, hne⟩ := table_long cs h1 hs
    have hname := table_names cs h1
    have hw : flagWord (cs, o) = '-' :: '-' :: (cs.name ++ (match (argOf o) with
        | none => []
        | some a => '=' :: a)) := by
      unfold flagWord
      simp only [hs, Bool.false_eq_true, if_false]
      cases o with
      | none => simp [argOf]
      | some a =>
        simp only
        by_cases ha : a = []
        · simp [ha, argOf]
        · simp [ha, argOf_some ha]
    rw [hw]
    have hg : ∀ t, t ≠ [] → getopt false i [] (('-' :: '-' :: t) :: ws) = getoptLong false t ws := by
      intro t ht
      cases t with
      | nil => exact absurd rfl ht
      | cons x t => rfl
    rw [hg _ (by simp [hne])]
    unfold getoptLong
    have htw : ∀ t : Str, (t = [] ∨ t.head? = some '=') → (cs.name ++ t).takeWhile (fun x => decide (x ≠ '=')) = cs.name ∧
        (cs.name ++ t).dropWhile (fun x => decide (x ≠ '=')) = t := by
      intro t ht
      have hall : ∀ c ∈ cs.name, decide (c ≠ '=') = true := fun c hc => by simpa using (hname c hc).2.1
      rw [List.takeWhile_append_of_pos hall, List.dropWhile_append_of_pos hall]
      rcases ht with rfl | ht
      · simp
      · cases t with
        | nil => simp
        | cons x t => simp only [List.head?_cons, Option.some.injEq] at ht; subst ht; simp
    cases o with
    | none =>
      have hna : cs.hasArg = .no := by rcases h3 with h3 | h3 <;> simp [Switch.hasArg, h3]
      simp only [argOf]
      rw [(htw [] (Or.inl rfl)).1, (htw [] (Or.inl rfl)).2, hl]
      simp only [hna]
    | some a =>
      simp only at h3
      have hna : cs.hasArg = .required ∨ cs.hasArg = .optional := by
        unfold Switch.hasArg
        rcases h3 with ⟨_, h3 | h3 | h3 | h3⟩ | ⟨_, h3, _⟩ | ⟨_, h3, _⟩ <;> rw [h3] <;> simp only <;> split <;> simp
      by_cases ha : a = []
      · subst ha
        have hopt : cs.hasArg = .optional := by
          rcases h3 with ⟨h, _⟩ | ⟨h, _⟩ | ⟨_, h3, n, hn⟩
          · exact absurd rfl h
          · exact absurd rfl h
          · simp [Switch.hasArg, h3, hn]
        have hfa : argOf (some ([] : Str)) = none := rfl
        simp only [hfa]
        rw [(htw [] (Or.inl rfl)).1, (htw [] (Or.inl rfl)).2, hl]
        simp only [hopt]
      · have hfa : argOf (some a) = some a := argOf_some ha
        simp only [hfa]
        rw [(htw ('=' :: a) (Or.inr rfl)).1, (htw ('=' :: a) (Or.inr rfl)).2, hl]
        rcases hna with hna | hna <;> simp only [hna]

theorem decode_words (fl : Floats F) (tilde : Str → Option Str) (l : List (Switch × Option Str)) (h : ∀ f ∈ l, FlagOk f)
    (ws : List Str) (hws : ∀ w ∈ ws.head?, w.head? = some '-') (i : Bool) (d : Decoded F) :
    ∃ i', (l = [] → i' = i) ∧ decodeLoop fl tilde true i [] (l.map flagWord ++ ws) d =
      decodeLoop fl tilde true i' [] ws { d with opts := l.foldl (sendOne fl tilde) d.opts } := by
  induction l generalizing i d with
  | nil => exact ⟨i, fun _ => rfl, rfl⟩
  | cons f l ih =>
    have hf := h f (by simp)
    have hw : ∀ w ∈ (l.map flagWord ++ ws).head?, w.head? = some '-' := by
      cases l with
      | nil => exact hws
      | cons g l => intro w hw; simp at hw; subst hw; exact flagWord_head g
    obtain ⟨i', _, h2⟩ := ih (fun f hf => h f (by simp [hf])) true { d with opts := sendOne fl tilde d.opts f }
    refine ⟨i', by simp, ?_⟩
    rw [List.map_cons, List.cons_append, decodeLoop_opt fl tilde i [] _ d _ _ _ _ (by simp) (getopt_word hf i _),
      applyOpt_ok fl tilde hf _ hw]
    exact h2

/-! ### The group -/

theorem decode_letters (fl : Floats F) (tilde : Str → Option Str) (l : List (Switch × Option Str)) (h : ∀ f ∈ l, FlagOk f)
    (hs : ∀ f ∈ l, isSimple f = true) (ws : List Str) (d : Decoded F) :
    decodeLoop fl tilde true true (l.map (·.1.letter)) ws d =
      decodeLoop fl tilde true true [] ws { d with opts := l.foldl (sendOne fl tilde) d.opts } := by
  induction l generalizing d with
  | nil => rfl
  | cons f l ih =>
    have hstep : getopt false true ((f :: l).map (·.1.letter)) ws = (.opt f.1.c none, l.map (·.1.letter), ws) ∧
        applyOpt fl tilde true f.1.c none ws d = ({ d with opts := sendOne fl tilde d.opts f }, ws) := by
      obtain ⟨cs, o⟩ := f
      have hf := h (cs, o) (by simp)
      have h4 := hs (cs, o) (by simp)
      simp only [isSimple, Bool.and_eq_true, Option.isNone_iff_eq_none] at h4
      obtain ⟨rfl, h4⟩ := h4
      obtain ⟨h1, h2, h3⟩ := hf
      simp only at h1 h2 h3
      obtain ⟨⟨_, hd, _⟩, _⟩ := table_letters cs h1 h4
      have hna : cs.hasArg = .no := by rcases h3 with h3 | h3 <;> simp [Switch.hasArg, h3]
      constructor
      · simp only [List.map_cons, getopt, getoptShort]
        rw [if_neg hd, table_short cs h1 h4]
        simp only [hna]
      · unfold applyOpt
        rw [table_find cs h1]
        rcases h3 with h3 | h3 <;> simp [applySwitch, h3, h2, sendOne]
    rw [decodeLoop_opt fl tilde true _ ws d _ _ _ _ (by simp) hstep.1, hstep.2]
    exact ih (fun f hf => h f (by simp [hf])) (fun f hf => hs f (by simp [hf])) _

theorem decode_group (fl : Floats F) (tilde : Str → Option Str) (l : List (Switch × Option Str)) (h : ∀ f ∈ l, FlagOk f)
    (hs : ∀ f ∈ l, isSimple f = true) (hne : l ≠ []) (ws : List Str) (d : Decoded F) :
    decodeLoop fl tilde true false [] (('-' :: l.map (·.1.letter)) :: ws) d =
      decodeLoop fl tilde true true [] ws { d with opts := l.foldl (sendOne fl tilde) d.opts } := by
  cases l with
  | nil => exact absurd rfl hne
  | cons f l =>
    have hstep : getopt false false [] (('-' :: (f :: l).map (·.1.letter)) :: ws) = (.opt f.1.c none, l.map (·.1.letter), ws) ∧
        applyOpt fl tilde true f.1.c none ws d = ({ d with opts := sendOne fl tilde d.opts f }, ws) := by
      obtain ⟨cs, o⟩ := f
      have hf := h (cs, o) (by simp)
      have h4 := hs (cs, o) (by simp)
      simp only [isSimple, Bool.and_eq_true, Option.isNone_iff_eq_none] at h4
      obtain ⟨rfl, h4⟩ := h4
      obtain ⟨h1, h2, h3⟩ := hf
      simp only at h1 h2 h3
      obtain ⟨⟨_, hd, _⟩, _⟩ := table_letters cs h1 h4
      have hna : cs.hasArg = .no := by rcases h3 with h3 | h3 <;> simp [Switch.hasArg, h3]
      constructor
      · simp only [List.map_cons]
        have hg : getopt false false [] (('-' :: cs.letter :: l.map (·.1.letter)) :: ws) =
            getoptShort false cs.letter (l.map (·.1.letter)) ws := by
          unfold getopt
          simp only
          split
          · rename_i heq; simp only [List.cons.injEq, true_and] at heq; exact absurd heq.1 hd
          · rename_i heq; simp only [List.cons.injEq, true_and] at heq; exact absurd heq.1 hd
          · rename_i heq; simp only [List.cons.injEq, true_and] at heq; rw [heq.1, heq.2]
          · rename_i hx; exact absurd rfl (hx _ _)
        rw [hg]
        unfold getoptShort
        rw [if_neg hd, table_short cs h1 h4]
        simp only [hna]
      · unfold applyOpt
        rw [table_find cs h1]
        rcases h3 with h3 | h3 <;> simp [applySwitch, h3, h2, sendOne]
    rw [decodeLoop_opt fl tilde false _ _ d _ _ _ _ (by simp) hstep.1, hstep.2]
    exact decode_letters fl tilde l (fun f hf => h f (by simp [hf])) (fun f hf => hs f (by simp [hf])) ws _

/-! ### `--eval` and `--` -/

/-- The word of an `--eval` option. -/
def evalWord (e : Str) : Str := "--eval=".toList ++ e

theorem decode_eval (fl : Floats F) (tilde : Str → Option Str) (l : List Str) (h : ∀ e ∈ l, e ≠ []) (ws : List Str) (i : Bool)
    (d : Decoded F) :
    ∃ i', decodeLoop fl tilde true i [] (l.map evalWord ++ ws) d =
      decodeLoop fl tilde true i' [] ws { d with opts := l.foldl (fun o e => o.addStr .evalStrings e) d.opts } := by
  induction l generalizing i d with
  | nil => exact ⟨i, rfl⟩
  | cons e l ih =>
    obtain ⟨i', h2⟩ := ih (fun e he => h e (by simp [he])) true { d with opts := d.opts.addStr .evalStrings e }
    refine ⟨i', ?_⟩
    have hl : findLong "eval".toList longOptions none false = .found ⟨"eval".toList, .required, 'E'.toNat⟩ := by decide +kernel
    have hg : getopt false i [] (evalWord e :: (l.map evalWord ++ ws)) = (.opt 'E'.toNat (some e), [], l.map evalWord ++ ws) := by
      have h1 : getopt false i [] (evalWord e :: (l.map evalWord ++ ws)) =
        getoptLong false ("eval".toList ++ '=' :: e) (l.map evalWord ++ ws) := rfl
      rw [h1]
      unfold getoptLong
      have h2 : ("eval".toList ++ '=' :: e).takeWhile (fun x => decide (x ≠ '=')) = "eval".toList := by simp
      have h3 : ("eval".toList ++ '=' :: e).dropWhile (fun x => decide (x ≠ '=')) = '=' :: e := by simp
      rw [h2, h3]
      simp only [hl]
    have hsw : switches.find? (fun cs => cs.c == 'E'.toNat) =
      some ⟨'E'.toNat, .strlist, .evalStrings, true, false, false, none, none, "eval".toList⟩ := by decide +kernel
    have ha : applyOpt fl tilde true 'E'.toNat (some e) (l.map evalWord ++ ws) d =
        ({ d with opts := d.opts.addStr .evalStrings e }, l.map evalWord ++ ws) := by
      unfold applyOpt
      rw [hsw]
      simp [applySwitch, storeString, h e (by simp)]
    rw [List.map_cons, List.cons_append, decodeLoop_opt fl tilde i [] _ d _ _ _ _ (by simp) hg, ha]
    exact h2

theorem decode_rest (fl : Floats F) (tilde : Str → Option Str) (ws : List Str) (i : Bool) (d : Decoded F) :
    decodeLoop fl tilde true i [] ("--".toList :: ws) d = { d with args := d.args ++ ws } := by
  rw [decodeLoop.eq_def, dif_neg (by simp)]
  split
  all_goals
    rename_i hh
    simp only [show "--".toList = ['-', '-'] from rfl, getopt, Prod.mk.injEq, reduceCtorEq, false_and, true_and] at hh
  rw [hh.2]

theorem decode_none (fl : Floats F) (tilde : Str → Option Str) (i : Bool) (d : Decoded F) :
    decodeLoop fl tilde true i [] [] d = d := by
  rw [decodeLoop.eq_def, dif_pos ⟨rfl, rfl⟩]

end Remake
