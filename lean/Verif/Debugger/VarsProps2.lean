import Verif.Debugger.VarsProps
set_option linter.unusedVariables false
set_option linter.unusedSimpArgs false
/-!
# C138-C140: settings, command files, scripts
-/
namespace Remake
open Spec

/-! ## C138: settings -/

theorem abbrev_false {sub word : Str} {min : Nat} (h : ¬ (sub <+: word ∧ min ≤ sub.length)) :
    isAbbrevOf sub word min = false := by
  cases hb : isAbbrevOf sub word min with
  | false => rfl
  | true => exact absurd ((C55_abbrev sub word min).1 hb) h

theorem abbrev_true {sub word : Str} {min : Nat} (h : sub <+: word) (hm : min ≤ sub.length) :
    isAbbrevOf sub word min = true := (C55_abbrev sub word min).2 ⟨h, hm⟩

/-- Two words that begin differently have no common abbreviation. -/
theorem head_differs {w a b : Str} {x y : Char} (ha : w <+: x :: a) (hl : 1 ≤ w.length) (hxy : x ≠ y) :
    ¬ (w <+: y :: b) := by
  intro hb
  cases w with
  | nil => simp at hl
  | cons c w =>
    have h1 := (List.cons_prefix_cons.1 ha).1
    have h2 := (List.cons_prefix_cons.1 hb).1
    exact hxy (h1.symm.trans h2)

theorem onOff_says {v : Str} {old new : Int} (h : Says v old new) : onOffToggle v old = some new := by
  cases h with
  | on => rfl
  | off => simp [onOffToggle]
  | toggleOn => simp [onOffToggle]
  | toggleOff _ h => simp [onOffToggle, h]

theorem setLoop_names (s : Setting → Int) {w v : Str} {k : Setting} (hn : SettingName w k) :
    setLoop s w v setTable = .ok (putSetting s k (onOffToggle v (s k))) ∧
    isAbbrevOf w "debug".toList 3 = false ∧ isAbbrevOf w "variable".toList 3 = false := by
  have e1 : "basename".toList = 'b' :: "asename".toList := rfl
  have e2 : "debug".toList = 'd' :: "ebug".toList := rfl
  have e3 : "ignore-errors".toList = 'i' :: "gnore-errors".toList := rfl
  have e4 : "keep-going".toList = 'k' :: "eep-going".toList := rfl
  have e5 : "silent".toList = 's' :: "ilent".toList := rfl
  have e6 : "variable".toList = 'v' :: "ariable".toList := rfl
  cases hn with
  | basename hp hl =>
    rw [e1] at hp
    refine ⟨?_, abbrev_false fun h => ?_, abbrev_false fun h => ?_⟩
    · unfold setTable setLoop; rw [e1, abbrev_true hp hl]; rfl
    · rw [e2] at h; exact head_differs hp hl (by decide) h.1
    · rw [e6] at h; exact head_differs hp hl (by decide) h.1
  | ignore hp hl =>
    rw [e3] at hp
    have hl1 : 1 ≤ w.length := by omega
    have a1 : isAbbrevOf w "basename".toList 1 = false := abbrev_false fun h => by
      rw [e1] at h; exact head_differs hp hl1 (by decide) h.1
    have a2 : isAbbrevOf w "debug".toList 3 = false := abbrev_false fun h => by
      rw [e2] at h; exact head_differs hp hl1 (by decide) h.1
    refine ⟨?_, a2, abbrev_false fun h => ?_⟩
    · have a3 : isAbbrevOf w "ignore-errors".toList 3 = true := by rw [e3]; exact abbrev_true hp hl
      simp only [setTable, setLoop, a1, a2, a3, Bool.false_eq_true, if_false, if_true]
    · rw [e6] at h; exact head_differs hp hl1 (by decide) h.1
  | keep hp hl =>
    rw [e4] at hp
    have a1 : isAbbrevOf w "basename".toList 1 = false := abbrev_false fun h => by
      rw [e1] at h; exact head_differs hp hl (by decide) h.1
    have a2 : isAbbrevOf w "debug".toList 3 = false := abbrev_false fun h => by
      rw [e2] at h; exact head_differs hp hl (by decide) h.1
    have a3 : isAbbrevOf w "ignore-errors".toList 3 = false := abbrev_false fun h => by
      rw [e3] at h; exact head_differs hp hl (by decide) h.1
    refine ⟨?_, a2, abbrev_false fun h => ?_⟩
    · have a4 : isAbbrevOf w "keep-going".toList 1 = true := by rw [e4]; exact abbrev_true hp hl
      simp only [setTable, setLoop, a1, a2, a3, a4, Bool.false_eq_true, if_false, if_true]
    · rw [e6] at h; exact head_differs hp hl (by decide) h.1
  | silent hp hl =>
    rw [e5] at hp
    have a1 : isAbbrevOf w "basename".toList 1 = false := abbrev_false fun h => by
      rw [e1] at h; exact head_differs hp hl (by decide) h.1
    have a2 : isAbbrevOf w "debug".toList 3 = false := abbrev_false fun h => by
      rw [e2] at h; exact head_differs hp hl (by decide) h.1
    have a3 : isAbbrevOf w "ignore-errors".toList 3 = false := abbrev_false fun h => by
      rw [e3] at h; exact head_differs hp hl (by decide) h.1
    have a4 : isAbbrevOf w "keep-going".toList 1 = false := abbrev_false fun h => by
      rw [e4] at h; exact head_differs hp hl (by decide) h.1
    refine ⟨?_, a2, abbrev_false fun h => ?_⟩
    · have a5 : isAbbrevOf w "silent".toList 1 = true := by rw [e5]; exact abbrev_true hp hl
      simp only [setTable, setLoop, a1, a2, a3, a4, a5, Bool.false_eq_true, if_false, if_true]
    · rw [e6] at h; exact head_differs hp hl (by decide) h.1

/-- C138: `set NAME on`, `off` or `toggle`, with a name of a flag or a long enough beginning of it,
sets that flag and leaves the others.  Partial: one blank between name and value (`C138_blanks`). -/
theorem C138_flag_partial (int : Str → Option Int) (s : Setting → Int) {w v : Str} {k : Setting} {new : Int}
    (hw : WhiteFree w) (hn : SettingName w k) (hv : Says v (s k) new) :
    ∃ s', dbgSet int s (w ++ ' ' :: v) = .ok s' ∧ s' k = new ∧ ∀ j, j ≠ k → s' j = s j := by
  have hg := getWord_split (t := ' ' :: v) hw (by simp [isWhite])
  simp only [List.drop_succ_cons, List.drop_zero] at hg
  have hb : bumpValue v = v := by
    generalize s k = old at hv
    cases hv <;> rfl
  obtain ⟨h1, h2, h3⟩ := setLoop_names s (v := v) hn
  refine ⟨putSetting s k (some new), ?_, ?_, ?_⟩
  · unfold dbgSet
    rw [if_neg (by simp)]
    simp only [hg, hb, h2, h3, Bool.false_eq_true, if_false, h1, onOff_says hv]
  · simp [putSetting]
  · intro j hj; simp [putSetting, hj]

example : SettingName "keep".toList .keep ∧ WhiteFree "keep".toList ∧ Says "toggle".toList 0 1 :=
  ⟨.keep _ (by decide) (by decide), ⟨by decide, by decide⟩, .toggleOn⟩

/-- C138: `set debug NUMBER` sets the mask of debug output and nothing else; what is not a number
changes nothing. -/
theorem C138_debug (int : Str → Option Int) (s : Setting → Int) {w v : Str} (hw : WhiteFree w)
    (hp : w <+: "debug".toList) (hl : 3 ≤ w.length) (hv : ∀ c ∈ v.head?, isWhite c = false) :
    ∃ s', dbgSet int s (w ++ ' ' :: v) = .ok s' ∧ s' .debug = (int v).getD (s .debug) ∧ ∀ j, j ≠ .debug → s' j = s j := by
  have hg := getWord_split (t := ' ' :: v) hw (by simp [isWhite])
  simp only [List.drop_succ_cons, List.drop_zero] at hg
  have hb : bumpValue v = v := by
    cases v with
    | nil => rfl
    | cons c cs => simp only [bumpValue, bumpBlank]; rw [if_neg (by simpa using hv)]
  refine ⟨putSetting s .debug (int v), ?_, by simp [putSetting], fun j hj => by simp [putSetting, hj]⟩
  unfold dbgSet
  rw [if_neg (by simp)]
  simp only [hg, hb, abbrev_true hp hl, if_true]

example : "deb".toList <+: "debug".toList ∧ WhiteFree "deb".toList := ⟨by decide, by decide, by decide⟩

/-- C138: a value other than `on`, `off` and `toggle`, and a name that is none, change no setting. -/
theorem C138_refused (int : Str → Option Int) (s s' : Setting → Int) {w v : Str} (hw : WhiteFree w)
    (hv : ∀ c ∈ v.head?, isWhite c = false) (hd : ¬ (w <+: "debug".toList ∧ 3 ≤ w.length))
    (hn : (v ≠ "on".toList ∧ v ≠ "off".toList ∧ v ≠ "toggle".toList) ∨ ∀ k, ¬ SettingName w k)
    (h : dbgSet int s (w ++ ' ' :: v) = .ok s') : s' = s := by
  have hg := getWord_split (t := ' ' :: v) hw (by simp [isWhite])
  simp only [List.drop_succ_cons, List.drop_zero] at hg
  have hb : bumpValue v = v := by
    cases v with
    | nil => rfl
    | cons c cs => simp only [bumpValue, bumpBlank]; rw [if_neg (by simpa using hv)]
  unfold dbgSet at h
  rw [if_neg (by simp)] at h
  simp only [hg, hb, abbrev_false hd, Bool.false_eq_true, if_false] at h
  by_cases hvar : isAbbrevOf w "variable".toList 3 = true
  · rw [if_pos hvar] at h; cases h
  · rw [if_neg hvar] at h
    have hnone : ∀ old, (v ≠ "on".toList ∧ v ≠ "off".toList ∧ v ≠ "toggle".toList) → onOffToggle v old = none := by
      intro old ⟨a, b, c⟩
      simp only [onOffToggle, if_neg a, if_neg b, if_neg c]
    have hput : ∀ k, putSetting s k none = s := by
      intro k; funext x; simp only [putSetting, Option.getD_none]; split <;> simp_all
    have each : ∀ (name : Str) (k : Setting) (m : Nat), (isAbbrevOf w name m = true → SettingName w k) → isAbbrevOf w name m = true →
        putSetting s k (onOffToggle v (s k)) = s := by
      intro name k m hk ha
      rcases hn with hn | hn
      · rw [hnone _ hn, hput]
      · exact absurd (hk ha) (hn k)
    simp only [setTable, setLoop, abbrev_false hd, Bool.false_eq_true, if_false] at h
    by_cases b1 : isAbbrevOf w "basename".toList 1 = true
    · rw [if_pos b1] at h; cases h
      exact each _ .basename 1 (fun hh => .basename _ ((C55_abbrev ..).1 hh).1 ((C55_abbrev ..).1 hh).2) b1
    · rw [if_neg b1] at h
      by_cases b2 : isAbbrevOf w "ignore-errors".toList 3 = true
      · rw [if_pos b2] at h; cases h
        exact each _ .ignore 3 (fun hh => .ignore _ ((C55_abbrev ..).1 hh).1 ((C55_abbrev ..).1 hh).2) b2
      · rw [if_neg b2] at h
        by_cases b3 : isAbbrevOf w "keep-going".toList 1 = true
        · rw [if_pos b3] at h; cases h
          exact each _ .keep 1 (fun hh => .keep _ ((C55_abbrev ..).1 hh).1 ((C55_abbrev ..).1 hh).2) b3
        · rw [if_neg b3] at h
          by_cases b4 : isAbbrevOf w "silent".toList 1 = true
          · rw [if_pos b4] at h; cases h
            exact each _ .silent 1 (fun hh => .silent _ ((C55_abbrev ..).1 hh).1 ((C55_abbrev ..).1 hh).2) b4
          · rw [if_neg b4] at h
            by_cases b5 : isAbbrevOf w "variable".toList 0 = true
            · rw [if_pos b5] at h
              split at h
              · cases h
              · cases h; rfl
            · rw [if_neg b5] at h; cases h

/-- C138 is violated here: `set v on` writes through a null pointer. -/
theorem C138_null (int : Str → Option Int) (s : Setting → Int) : dbgSet int s "v on".toList = .null := by
  have hw : getWord "v on".toList = ("v".toList, "on".toList) := by decide
  have hb : bumpValue "on".toList = "on".toList := by decide
  have a1 : isAbbrevOf "v".toList "basename".toList 1 = false := by decide +kernel
  have a2 : isAbbrevOf "v".toList "debug".toList 3 = false := by decide +kernel
  have a3 : isAbbrevOf "v".toList "ignore-errors".toList 3 = false := by decide +kernel
  have a4 : isAbbrevOf "v".toList "keep-going".toList 1 = false := by decide +kernel
  have a5 : isAbbrevOf "v".toList "silent".toList 1 = false := by decide +kernel
  have a6 : isAbbrevOf "v".toList "variable".toList 3 = false := by decide +kernel
  have a7 : isAbbrevOf "v".toList "variable".toList 0 = true := by decide +kernel
  have a8 : (onOffToggle "on".toList 0).isSome = true := by decide
  unfold dbgSet
  rw [if_neg (by decide), hw]
  simp only [hb, a2, a6, setTable, setLoop, a1, a3, a4, a5, a7, a8, Bool.false_eq_true, if_false, if_true]

/-- C138 is violated here: with two blanks before the value, the flag is not set. -/
theorem C138_blanks (int : Str → Option Int) (s : Setting → Int) : dbgSet int s "silent  on".toList = .ok s := by
  have : putSetting s .silent none = s := by
    funext x; simp only [putSetting, Option.getD_none]; split <;> simp_all
  have hw : getWord "silent  on".toList = ("silent".toList, " on".toList) := by decide
  have hb : bumpValue " on".toList = "!on".toList := by decide
  have a1 : isAbbrevOf "silent".toList "basename".toList 1 = false := by decide +kernel
  have a2 : isAbbrevOf "silent".toList "debug".toList 3 = false := by decide +kernel
  have a3 : isAbbrevOf "silent".toList "ignore-errors".toList 3 = false := by decide +kernel
  have a4 : isAbbrevOf "silent".toList "keep-going".toList 1 = false := by decide +kernel
  have a5 : isAbbrevOf "silent".toList "silent".toList 1 = true := by decide +kernel
  have a6 : isAbbrevOf "silent".toList "variable".toList 3 = false := by decide +kernel
  have a7 : onOffToggle "!on".toList (s .silent) = none := by
    simp only [onOffToggle]
    rw [if_neg (by decide), if_neg (by decide), if_neg (by decide)]
  unfold dbgSet
  rw [if_neg (by decide), hw]
  simp only [hb, a2, a6, setTable, setLoop, a1, a3, a4, a5, a7, this, Bool.false_eq_true, if_false, if_true]

/-! ## C139: command files -/

theorem dbgFgets_line (l : Str) (h : '\n' ∉ l) (n : Nat) (hn : l.length < n) (rest : Str) :
    dbgFgets n (l ++ '\n' :: rest) = (l ++ ['\n'], rest, false) := by
  induction l generalizing n with
  | nil =>
    cases n with
    | zero => simp at hn
    | succ n => simp [dbgFgets]
  | cons c l ih =>
    cases n with
    | zero => simp at hn
    | succ n =>
      have hc : c ≠ '\n' := fun hh => h (by rw [hh]; simp)
      have := ih (fun hh => h (List.mem_cons_of_mem _ hh)) n (by simp at hn; omega)
      simp only [List.cons_append, dbgFgets]
      rw [if_neg hc, this]

theorem dbgFgets_end (l : Str) (h : '\n' ∉ l) (n : Nat) (hn : l.length < n) : dbgFgets n l = (l, [], true) := by
  induction l generalizing n with
  | nil =>
    cases n with
    | zero => simp at hn
    | succ n => simp [dbgFgets]
  | cons c l ih =>
    cases n with
    | zero => simp at hn
    | succ n =>
      have hc : c ≠ '\n' := fun hh => h (by rw [hh]; simp)
      have := ih (fun hh => h (List.mem_cons_of_mem _ hh)) n (by simp at hn; omega)
      simp only [dbgFgets]
      rw [if_neg hc, this]

theorem chomp_line (l : Str) : dbgChomp (l ++ ['\n']) = l := by simp [dbgChomp]

theorem strip_ne_nil {l : Str} (h : ∃ c ∈ l, isWhite c = false) : stripwhite l ≠ [] := by
  obtain ⟨c, hc, hw⟩ := h
  intro hz
  simp only [stripwhite, List.reverse_eq_nil_iff] at hz
  have h1 : ∀ d ∈ (l.dropWhile isWhite).reverse, isWhite d = true := by
    intro d hd
    have := List.takeWhile_append_dropWhile (p := isWhite) (l := (l.dropWhile isWhite).reverse)
    rw [hz, List.append_nil] at this
    rw [← this] at hd
    exact mem_takeWhile_imp hd
  have h2 : ∀ d ∈ l, isWhite d = true := by
    intro d hd
    rw [← List.takeWhile_append_dropWhile (p := isWhite) (l := l)] at hd
    rcases List.mem_append.1 hd with hd | hd
    · exact mem_takeWhile_imp hd
    · exact h1 d (by simpa using hd)
  rw [h2 c hc] at hw; cases hw

theorem fileOf_length (ls : List Str) : ls.length ≤ (fileOf ls).length := by
  induction ls with
  | nil => simp [fileOf]
  | cons l ls ih => simp only [fileOf, List.length_append, List.length_cons]; omega

/-- C139: `source FILE` has the effect of typing the lines of the file.  Partial: every line is
ended, shorter than the buffer and not blank, and none of the commands fails or ends the session
(`C139_unended`, `C139_blank`, `C139_resume`, `C139_error`). -/
theorem C139_source_partial {σ : Type} (run : σ → Str → σ × DbgRet) (st : σ) (ls : List Str) (h : ∀ l ∈ ls, Plain l)
    (hs : AllStay run st ls) : dbgSource run st (fileOf ls) = promptLoop run st ls := by
  have step : ∀ (ls : List Str) (st : σ) (fuel : Nat), ls.length < fuel → (∀ l ∈ ls, Plain l) → AllStay run st ls →
      (sourceLoop run fuel st (fileOf ls), DbgRet.readloop) = promptLoop run st ls := by
    intro ls
    induction ls with
    | nil =>
      intro st fuel hf _ _
      cases fuel with
      | zero => simp at hf
      | succ fuel => simp only [sourceLoop, fileOf, dbgFgets_end [] (by simp) 2047 (by simp), promptLoop]
    | cons l ls ih =>
      intro st fuel hf hp hs
      cases fuel with
      | zero => simp at hf
      | succ fuel =>
        obtain ⟨p1, p2, p3⟩ := hp l (List.mem_cons_self ..)
        obtain ⟨s1, s2⟩ := hs
        have hne := strip_ne_nil p3
        have hfg := dbgFgets_line l p1 2047 (by omega) (fileOf ls)
        have := ih (run st (stripwhite l)).1 fuel (by simp at hf; omega) (fun l hl => hp l (List.mem_cons_of_mem _ hl)) s2
        simp only [sourceLoop, fileOf, hfg, chomp_line, promptLoop]
        rw [if_neg hne, if_neg hne]
        generalize hr : run st (stripwhite l) = r at *
        obtain ⟨st', rr⟩ := r
        simp only at s1
        subst s1
        exact this
  rw [dbgSource]
  exact step ls st _ (by have := fileOf_length ls; omega) h hs

example : ∀ l ∈ ["print X".toList, "  set silent on".toList], Plain l := by
  intro l hl
  simp only [List.mem_cons, List.not_mem_nil, or_false] at hl
  rcases hl with rfl | rfl
  · exact ⟨by decide, by decide, 'p', by decide, by decide⟩
  · exact ⟨by decide, by decide, 's', by decide, by decide⟩

/-- C139 is violated here: a last line without newline is not executed. -/
theorem C139_unended {σ : Type} (run : σ → Str → σ × DbgRet) (st : σ) (l : Str) (h : '\n' ∉ l) (hl : l.length < 2047) :
    dbgSource run st l = (st, .readloop) := by
  simp only [dbgSource, sourceLoop, dbgFgets_end l h 2047 hl]

theorem dbgFgets_full (l : Str) (h : '\n' ∉ l) (rest : Str) : dbgFgets l.length (l ++ rest) = (l, rest, false) := by
  induction l with
  | nil => simp [dbgFgets]
  | cons c l ih =>
    have hc : c ≠ '\n' := fun hh => h (by rw [hh]; simp)
    have := ih (fun hh => h (List.mem_cons_of_mem _ hh))
    simp only [List.cons_append, List.length_cons, dbgFgets]
    rw [if_neg hc, this]

/-- C139 is violated here: a line longer than the buffer is executed as two commands. -/
theorem C139_long {σ : Type} (run : σ → Str → σ × DbgRet) (st st' st'' : σ) (a b : Str) (ha : '\n' ∉ a) (hl : a.length = 2047)
    (hw : ∃ c ∈ a, isWhite c = false) (hb : Plain b) (h1 : run st (stripwhite a) = (st', .readloop))
    (h2 : run st' (stripwhite b) = (st'', .readloop)) : dbgSource run st (fileOf [a ++ b]) = (st'', .readloop) := by
  obtain ⟨p1, p2, p3⟩ := hb
  have hf1 : dbgFgets 2047 (a ++ (b ++ ['\n'])) = (a, b ++ ['\n'], false) := by
    have := dbgFgets_full a ha (b ++ ['\n'])
    rwa [hl] at this
  have hf2 := dbgFgets_line b p1 2047 (by omega) []
  have hf3 := dbgFgets_end [] (by simp) 2047 (by simp)
  have hc : dbgChomp a = a := by
    unfold dbgChomp
    split
    · case isTrue hh => exact absurd (List.mem_of_getLast? hh) ha
    · rfl
  have hfile : fileOf [a ++ b] = a ++ (b ++ ['\n']) := by simp [fileOf]
  have hlen : (fileOf [a ++ b]).length + 1 = ((a ++ b).length - 1) + 1 + 1 + 1 := by
    rw [hfile]
    simp only [List.length_append, List.length_cons, List.length_nil]
    omega
  unfold dbgSource
  rw [hlen, hfile]
  rw [sourceLoop, hf1]
  simp only [hc]
  rw [if_neg (strip_ne_nil hw), h1]
  simp only
  rw [sourceLoop, hf2]
  simp only [chomp_line]
  rw [if_neg (strip_ne_nil p3), h2]
  simp only
  rw [sourceLoop, hf3]

example : ∃ a : Str, '\n' ∉ a ∧ a.length = 2047 ∧ ∃ c ∈ a, isWhite c = false :=
  ⟨List.replicate 2047 'x', by intro h; exact absurd (List.eq_of_mem_replicate h) (by decide), by rw [List.length_replicate],
    'x', List.mem_replicate.2 ⟨by decide, rfl⟩, by decide⟩

/-- C139 is violated here: a command that leaves the prompt (`continue`, `step`) ends the file, but make
does not go on: the prompt comes back. -/
theorem C139_resume {σ : Type} (run : σ → Str → σ × DbgRet) (st st' : σ) (l : Str) (ls : List Str) (hp : Plain l)
    (hr : run st (stripwhite l) = (st', .resume)) :
    dbgSource run st (fileOf (l :: ls)) = (st', .readloop) ∧ promptLoop run st (l :: ls) = (st', .resume) := by
  obtain ⟨p1, p2, p3⟩ := hp
  have hne := strip_ne_nil p3
  have hfg := dbgFgets_line l p1 2047 (by omega) (fileOf ls)
  constructor
  · simp only [dbgSource, sourceLoop, fileOf, hfg, chomp_line]
    rw [if_neg hne, hr]
  · simp only [promptLoop]
    rw [if_neg hne, hr]

/-- C139 is violated here: a command that fails ends the file; at the prompt the next line is read. -/
theorem C139_error {σ : Type} (run : σ → Str → σ × DbgRet) (st st' : σ) (l : Str) (ls : List Str) (hp : Plain l)
    (hr : run st (stripwhite l) = (st', .error)) :
    dbgSource run st (fileOf (l :: ls)) = (st', .readloop) ∧ promptLoop run st (l :: ls) = promptLoop run st' ls := by
  obtain ⟨p1, p2, p3⟩ := hp
  have hne := strip_ne_nil p3
  have hfg := dbgFgets_line l p1 2047 (by omega) (fileOf ls)
  constructor
  · simp only [dbgSource, sourceLoop, fileOf, hfg, chomp_line]
    rw [if_neg hne, hr]
  · simp only [promptLoop]
    rw [if_neg hne, hr]

/-- C139: a blank line of the file is passed over, while typed it is the command `step`. -/
theorem C139_blank {σ : Type} (run : σ → Str → σ × DbgRet) (st : σ) :
    dbgSource run st "\n".toList = (st, .readloop) ∧
    promptLoop run st [[]] =
      match run st "step".toList with
      | (st', .resume) => (st', .resume)
      | (st', _) => (st', .readloop) := by
  constructor
  · have h1 := dbgFgets_line [] (by simp) 2047 (by simp) []
    have h2 := dbgFgets_end [] (by simp) 2047 (by simp)
    have e : "\n".toList = [] ++ '\n' :: [] := rfl
    rw [e, dbgSource]
    simp only [List.nil_append, List.length_cons, List.length_nil, sourceLoop] at h1 h2 ⊢
    simp only [h1, h2]
    rw [if_pos (by rfl)]
  · simp only [promptLoop]
    rw [if_pos (by rfl)]
    cases run st "step".toList with
    | mk a b => cases b <;> rfl

/-! ## C140: scripts -/

theorem writeSkip_command (s r : Str) (h : CommandOf s r) : writeSkip s = r := by
  induction h with
  | bare s h =>
    cases s with
    | nil => rfl
    | cons c cs =>
      have := h c rfl
      unfold writeSkip
      rw [List.dropWhile_cons_of_neg]
      simpa [isPrefixChar, and_assoc, not_or] using this
  | skip c s r hc _ ih =>
    unfold writeSkip at ih ⊢
    rw [List.dropWhile_cons_of_pos, ih]
    rcases hc with rfl | rfl | rfl | rfl | rfl <;> rfl

theorem command_unique {s r r' : Str} (h : CommandOf s r) (h' : CommandOf s r') : r = r' := by
  rw [← writeSkip_command s r h, ← writeSkip_command s r' h']

theorem command_append {s r : Str} (h : CommandOf s r) (hr : r ≠ []) (t : Str) : CommandOf (s ++ t) (r ++ t) := by
  induction h with
  | bare s h =>
    refine .bare _ ?_
    cases s with
    | nil => exact absurd rfl hr
    | cons c cs => simpa using h
  | skip c s r hc _ ih => exact .skip c _ _ hc (ih hr)

/-- C140: the script holds the commands of the recipe, one to a line, without the characters `@`, `-`
and `+` that may stand before them.  Partial: if only the first line has such characters
(`C140_prefix_kept`); the commands are those before expansion, and the script has them expanded
together. -/
theorem C140_script_partial (ex : Str → Str) (first : Str) (rest : List Str) (cmd : Str) (h : CommandOf first cmd)
    (hne : cmd ≠ []) (hr : ∀ l ∈ rest, CommandOf l l) :
    ∃ cmds, CommandsOf (first :: rest) cmds ∧
      writeBody ex (nlJoined (first :: rest)) = some (ex (nlJoined cmds) ++ "\n".toList) := by
  refine ⟨cmd :: rest, .cons h ?_, ?_⟩
  · clear h
    induction rest with
    | nil => exact .nil
    | cons l ls ih => exact .cons (hr l (List.mem_cons_self ..)) (ih fun l hl => hr l (List.mem_cons_of_mem _ hl))
  · have hskip : writeSkip (nlJoined (first :: rest)) = nlJoined (cmd :: rest) := by
      cases rest with
      | nil => exact writeSkip_command _ _ h
      | cons l ls => exact writeSkip_command _ _ (command_append h hne _)
    have hz : nlJoined (cmd :: rest) ≠ [] := by
      cases rest with
      | nil => exact hne
      | cons l ls => simp [nlJoined]
    simp only [writeBody, hskip]
    rw [if_neg hz]

example : CommandOf "@-echo a".toList "echo a".toList :=
  .skip _ _ _ (Or.inl rfl) (.skip _ _ _ (Or.inr (Or.inr (Or.inl rfl))) (.bare _ (by
    intro c hc
    have : c = 'e' := (Option.some.inj hc).symm
    subst this; simp [isPrefixChar])))

/-- C140 is violated here: the characters before the second line are written, so the script has
`@echo b`, which is no command. -/
theorem C140_prefix_kept : writeBody id "@echo a\n@echo b".toList = some "echo a\n@echo b\n".toList := by decide

/-- C140: what comes before the recipe in the script are comments and empty lines only, if no name
holds a newline (which the text of a name cannot). -/
theorem C140_header (shell : Option Str) (place target : Str) (dcolon : Bool) (deps ood : List Str) (wd : Option Str) :
    ∀ l ∈ writeHeader shell place target dcolon deps ood wd, l = [] ∨ l.head? = some '#' := by
  intro l hl
  simp only [writeHeader, List.mem_append, List.mem_cons, List.not_mem_nil, or_false] at hl
  rcases hl with (hl | hl | hl) | hl
  · cases shell with
    | none => cases hl
    | some s => rw [List.mem_singleton.1 hl]; exact Or.inr rfl
  · rw [hl]; exact Or.inr rfl
  · rw [hl]; exact Or.inr rfl
  · cases wd with
    | none => cases hl
    | some w =>
      rcases List.mem_cons.1 hl with rfl | hl
      · exact Or.inl rfl
      · rw [List.mem_singleton.1 hl]; exact Or.inr rfl

/-- C140: the prerequisites are all named in the comment, the order-only ones after a bar. -/
theorem C140_names (shell : Option Str) (place target : Str) (dcolon : Bool) (deps ood : List Str) (wd : Option Str) (d : Str)
    (hd : d ∈ deps ∨ d ∈ ood) :
    ∃ l ∈ writeHeader shell place target dcolon deps ood wd, ∃ a b, l = a ++ ' ' :: d ++ b := by
  refine ⟨"## ".toList ++ target ++ ":".toList ++ (if dcolon then ":".toList else []) ++
     (deps.map fun d => ' ' :: d).flatten ++
     oodText ood, by simp [writeHeader], ?_⟩
  have mid : ∀ l : List Str, d ∈ l → ∃ a b, (l.map fun d => ' ' :: d).flatten = a ++ ' ' :: d ++ b := by
    intro l hl
    obtain ⟨a, b, rfl⟩ := List.append_of_mem hl
    exact ⟨(a.map fun d => ' ' :: d).flatten, (b.map fun d => ' ' :: d).flatten, by simp⟩
  rcases hd with hd | hd
  · obtain ⟨a, b, hab⟩ := mid deps hd
    rw [hab]
    refine ⟨"## ".toList ++ target ++ ":".toList ++ (if dcolon then ":".toList else []) ++ a, b ++ oodText ood, ?_⟩
    simp only [List.append_assoc, List.cons_append]
  · cases ood with
    | nil => cases hd
    | cons x ds =>
      simp only [oodText]
      rcases List.mem_cons.1 hd with rfl | hd
      · refine ⟨"## ".toList ++ target ++ ":".toList ++ (if dcolon then ":".toList else []) ++
          (deps.map fun d => ' ' :: d).flatten ++ " |".toList, (ds.map fun d => ' ' :: d).flatten, ?_⟩
        simp [List.append_assoc]
      · obtain ⟨a, b, hab⟩ := mid ds hd
        rw [hab]
        refine ⟨"## ".toList ++ target ++ ":".toList ++ (if dcolon then ":".toList else []) ++
          (deps.map fun d => ' ' :: d).flatten ++ (" | ".toList ++ x ++ a), b, ?_⟩
        simp [List.append_assoc]

example : writeHeader (some "/bin/sh".toList) "/tmp/Makefile:3".toList ['a'] false [['b']] [['c']] none =
    ["#!/bin/sh".toList, "## /tmp/Makefile:3".toList, "## a: b | c".toList] := by decide

/-- C140: the buffer for the name of the file is large enough. -/
theorem C140_room (max : Nat) (base : Str) : (writeRoom max base).2 ≤ (writeRoom max base).1 := by
  simp only [writeRoom]; omega

/-- C140: without a name the script goes to `/tmp`, under the last part of the target's name; the name
given is used as it is, and `here` means the terminal. -/
theorem C140_place (max : Nat) (target dir base : Str) (hb : '/' ∉ base) (hm : base.length + 8 < max)
    (ht : target = base ∨ target = dir ++ '/' :: base) :
    writeTo max target [] = .file ("/tmp/".toList ++ base ++ ".sh".toList) ∧
    writeTo max target "here".toList = .stdout ∧
    ∀ a, a ≠ [] → a ≠ "here".toList → writeTo max target a = .file a := by
  have hall : ∀ c ∈ base.reverse, (decide (c ≠ '/')) = true := by
    intro c hc
    have : c ∈ base := by simpa using hc
    simp only [decide_eq_true_eq]
    intro h; exact hb (h ▸ this)
  have hbase : (target.reverse.takeWhile (· ≠ '/')).reverse = base := by
    rcases ht with rfl | rfl
    · rw [takeWhile_all hall, List.reverse_reverse]
    · rw [List.reverse_append, List.reverse_cons, List.append_assoc, List.takeWhile_append_of_pos hall]
      simp
  refine ⟨?_, rfl, ?_⟩
  · simp only [writeTo, ne_eq, not_true, if_false]
    rw [hbase, List.take_of_length_le]
    simp
    omega
  · intro a h1 h2
    simp only [writeTo]
    rw [if_pos h1, if_neg h2]

example : writeTo 1000 "src/a.o".toList [] = .file "/tmp/a.o.sh".toList := by decide

/-- C140 is violated here: two targets may share the file. -/
theorem C140_same_file (max : Nat) : writeTo max "x/a".toList [] = writeTo max "y/a".toList [] := rfl

/-- C140 is violated here: used without argument on a target whose name has a blank, the command cuts
the name of the target itself at the blank. -/
theorem C140_name_cut (a b : Str) (ha : WhiteFree a) :
    getTargetName (some (a ++ ' ' :: b)) [] = some (a, b, some a) := by
  have := getWord_split (t := ' ' :: b) ha (by simp [isWhite])
  simp only [getTargetName, if_true, Option.map_some, this, List.drop_succ_cons, List.drop_zero]

/-- C140: a target without blanks is found by no argument, `@` and `$@`, and its name is left alone. -/
theorem C140_target (n : Str) (hn : WhiteFree n) : ∀ args ∈ [[], "@".toList, "$@".toList],
    (getTargetName (some n) args).map (fun r => (r.1, r.2.2)) = some (n, some n) := by
  have h0 := getWord_split (t := []) hn (by simp)
  rw [List.append_nil] at h0
  intro args ha
  simp only [List.mem_cons, List.not_mem_nil, or_false] at ha
  rcases ha with rfl | rfl | rfl
  · simp only [getTargetName, if_true, Option.map_some, h0]
  · have hg : getWord "@".toList = ("@".toList, []) := by decide
    unfold getTargetName
    rw [if_neg (by decide), hg]
    rw [if_pos (Or.inr rfl)]; rfl
  · have hg : getWord "$@".toList = ("$@".toList, []) := by decide
    unfold getTargetName
    rw [if_neg (by decide), hg]
    rw [if_pos (Or.inl rfl)]; rfl

end Remake
