import Verif.Levels.Props

set_option linter.unusedVariables false
set_option linter.unusedSimpArgs false

/-!
# C144: tracing, and the options of the debugger
-/

namespace Remake
open Spec

theorem traceGives_iff {o : Str} {l : Lv} : TraceGives o l ↔ (o = "full".toList ∧ (l = .verbose ∨ l = .readMakefiles)) ∨
    (o = "normal".toList ∧ l = .basic) ∨ (o = "noshell".toList ∧ (l = .basic ∨ l = .trace)) ∨
    (o = "read".toList ∧ l = .readMakefiles) := by
  constructor
  · intro h
    cases h with
    | full _ h => exact Or.inl ⟨rfl, h⟩
    | normal => exact Or.inr (Or.inl ⟨rfl, rfl⟩)
    | noshell _ h => exact Or.inr (Or.inr (Or.inl ⟨rfl, h⟩))
    | read => exact Or.inr (Or.inr (Or.inr ⟨rfl, rfl⟩))
  · rintro (⟨rfl, h⟩ | ⟨rfl, rfl⟩ | ⟨rfl, h⟩ | ⟨rfl, rfl⟩)
    · exact .full l h
    · exact .normal
    · exact .noshell l h
    · exact .read

theorem traceOne_known {o : Str} (h : o ∈ traceKnown) (lv : Lvs) :
    ∃ lv', traceOne o lv = some lv' ∧ ∀ l, lv' l = true ↔ (lv l = true ∧ ¬ o = "noshell".toList) ∨ TraceGives o l := by
  have hc : o = "command".toList ∨ o = "full".toList ∨ o = "normal".toList ∨ o = "noshell".toList ∨ o = "read".toList := by
    simpa only [traceKnown, List.mem_cons, List.not_mem_nil, or_false] using h
  have hcf : ("command".toList = "full".toList) = False := by decide
  have hcn : ("command".toList = "normal".toList) = False := by decide
  have hcs : ("command".toList = "noshell".toList) = False := by decide
  have hcr : ("command".toList = "read".toList) = False := by decide
  have hfc : ("full".toList = "command".toList) = False := by decide
  have hfn : ("full".toList = "normal".toList) = False := by decide
  have hfs : ("full".toList = "noshell".toList) = False := by decide
  have hfr : ("full".toList = "read".toList) = False := by decide
  have hnc : ("normal".toList = "command".toList) = False := by decide
  have hnf : ("normal".toList = "full".toList) = False := by decide
  have hns : ("normal".toList = "noshell".toList) = False := by decide
  have hnr : ("normal".toList = "read".toList) = False := by decide
  have hsc : ("noshell".toList = "command".toList) = False := by decide
  have hsf : ("noshell".toList = "full".toList) = False := by decide
  have hsn : ("noshell".toList = "normal".toList) = False := by decide
  have hsr : ("noshell".toList = "read".toList) = False := by decide
  have hrc : ("read".toList = "command".toList) = False := by decide
  have hrf : ("read".toList = "full".toList) = False := by decide
  have hrn : ("read".toList = "normal".toList) = False := by decide
  have hrs : ("read".toList = "noshell".toList) = False := by decide
  rcases hc with rfl | rfl | rfl | rfl | rfl <;> unfold traceOne
  · refine ⟨lv, by rw [if_pos rfl], fun l => ?_⟩
    simp only [traceGives_iff, hcf, hcn, hcs, hcr, false_and, or_false, not_false_eq_true, and_true]
  · refine ⟨lv.add [.verbose, .readMakefiles], by simp only [hfc, if_false, if_true], fun l => ?_⟩
    rw [lvs_add]
    simp only [traceGives_iff, hfn, hfs, hfr, false_and, or_false, not_false_eq_true, and_true, true_and, List.mem_cons,
      List.not_mem_nil]
  · refine ⟨lv.add [.basic], by simp only [hnc, hnf, if_false, if_true], fun l => ?_⟩
    rw [lvs_add]
    simp only [traceGives_iff, hnf, hns, hnr, false_and, or_false, false_or, not_false_eq_true, and_true, true_and,
      List.mem_cons, List.not_mem_nil]
  · refine ⟨Lvs.none.add [.basic, .trace], by simp only [hsc, hsf, hsn, if_false, if_true], fun l => ?_⟩
    rw [lvs_add]
    simp only [traceGives_iff, hsf, hsn, hsr, false_and, or_false, false_or, not_true_eq_false, and_false, true_and,
      List.mem_cons, List.not_mem_nil, Lvs.none, Bool.false_eq_true]
  · refine ⟨lv.add [.readMakefiles], by simp only [hrc, hrf, hrn, hrs, if_false, if_true], fun l => ?_⟩
    rw [lvs_add]
    simp only [traceGives_iff, hrf, hrn, hrs, false_and, or_false, false_or, not_false_eq_true, and_true, true_and,
      List.mem_cons, List.not_mem_nil]

theorem traceAll_on {os : List Str} (h : ∀ o ∈ os, o ∈ traceKnown) : ∀ lv : Lvs,
    ∃ lv', traceAll os lv = some lv' ∧ ∀ l, lv' l = true ↔ LvOn TraceGives (· = "noshell".toList) os (fun l => lv l = true) l := by
  induction os with
  | nil =>
    intro lv
    exact ⟨lv, rfl, fun l => by simp [LvOn]⟩
  | cons o os ih =>
    intro lv
    obtain ⟨lv1, h1, h2⟩ := traceOne_known (h o (by simp)) lv
    obtain ⟨lv', h3, h4⟩ := ih (fun o ho => h o (by simp [ho])) lv1
    refine ⟨lv', ?_, fun l => ?_⟩
    · simp only [traceAll, h1]; exact h3
    · rw [h4 l, lvOn_cons]
      exact lvOn_congr _ _ _ l (h2 l)

/-- **C144.**  `--trace` shows the recipes with the shell's trace, and what each of its types says; `noshell` switches off whatever
was on before it. -/
theorem C144_trace {os : List Str} (hne : os ≠ []) (h : ∀ o ∈ os, o ∈ traceKnown) (lv : Lvs) :
    ∃ lv', decodeTrace os lv = some lv' ∧ ∀ l, lv' l = true ↔
      LvOn TraceGives (· = "noshell".toList) os (fun l => lv l = true ∨ l = .trace ∨ l = .shell) l := by
  obtain ⟨lv', h1, h2⟩ := traceAll_on h (lv.add [.trace, .shell])
  refine ⟨lv', ?_, fun l => ?_⟩
  · unfold decodeTrace; rw [if_neg hne]; exact h1
  · rw [h2 l]
    apply lvOn_congr
    rw [lvs_add]
    simp

example : ∀ o ∈ ["normal".toList, "read".toList], o ∈ traceKnown := by decide

/-- **C144.**  A type of `--trace` that is not known stops make. -/
theorem C144_trace_unknown {os : List Str} (h : ∃ o ∈ os, o ∉ traceKnown) (lv : Lvs) : decodeTrace os lv = none := by
  have key : ∀ os : List Str, (∃ o ∈ os, o ∉ traceKnown) → ∀ lv, traceAll os lv = none := by
    intro os
    induction os with
    | nil => rintro ⟨o, ho, _⟩; cases ho
    | cons o os ih =>
      intro h lv
      by_cases hk : o ∈ traceKnown
      · obtain ⟨lv1, h1, _⟩ := traceOne_known hk lv
        simp only [traceAll, h1]
        refine ih ?_ lv1
        obtain ⟨d, hd, hn⟩ := h
        rcases List.mem_cons.1 hd with rfl | hd
        · exact absurd hk hn
        · exact ⟨d, hd, hn⟩
      · have hne : ∀ d, d ∈ traceKnown → ¬ o = d := fun d hd he => hk (he ▸ hd)
        have : traceOne o lv = none := by
          unfold traceOne
          rw [if_neg (hne _ (by decide)), if_neg (hne _ (by decide)), if_neg (hne _ (by decide)), if_neg (hne _ (by decide)),
            if_neg (hne _ (by decide))]
        simp only [traceAll, this]
        rfl
  unfold decodeTrace
  have hne : os ≠ [] := by rintro rfl; obtain ⟨o, ho, _⟩ := h; cases ho
  rw [if_neg hne]
  exact key os h _

example : decodeTrace ["shell".toList] Lvs.none = none := C144_trace_unknown ⟨"shell".toList, List.mem_cons_self, by decide⟩ _

theorem verbosity_keeps (os : List Str) (h : "terse".toList ∉ os) (lv : Lvs) (v : Bool) (l : Lv) (hl : lv l = true) :
    (decodeVerbosity os (lv, v)).1 l = true := by
  induction os generalizing lv v with
  | nil => exact hl
  | cons o os ih =>
    have h' : "terse".toList ∉ os := fun hm => h (List.mem_cons_of_mem _ hm)
    have ho : ¬ o = "terse".toList := fun he => h (he ▸ List.mem_cons_self)
    rw [decodeVerbosity]
    split
    · exact ih h' _ _ hl
    · split
      · exact ih h' _ _ (by rw [lvs_add]; exact Or.inl hl)
      · first
          | (rw [if_neg ho]; exact ih h' _ _ hl)
          | exact ih h' _ _ hl

/-- **C144.**  The kinds of messages chosen hold from reading the makefiles to the end: decoding `MAKEFLAGS` again behind the
makefiles changes nothing if they added nothing to it.  Missing: nothing must have been switched off by `--debug=n`,
`--trace=noshell` or `--verbosity=terse`; see `C144_trace_lost` and `C144_shell_back`. -/
theorem C144_stable_partial {o : LvOpts} {s s' : LvSt} {d : Bool} {fs : List Str} {cs ds es : List Char}
    (hE : DbLists o.envFlags cs) (hF : DbLists o.flags ds) (hfs : DbLists fs es)
    (hoff : ∀ c ∈ cs ++ ds, ¬ DbOff c) (hes : ∀ c ∈ es, c ∈ cs ++ ds) (hd : d = true → o.envD = true ∨ o.d = true)
    (htr : "noshell".toList ∉ o.trace) (hvb : "terse".toList ∉ o.verbosity)
    (hr : lvReading o = some s) (hm : lvMaking o true d fs = some s') : s'.lv = s.lv := by
  have happ : ∀ {ps qs : List Str} {as bs : List Char}, DbLists ps as → DbLists qs bs → DbLists (ps ++ qs) (as ++ bs) := by
    intro ps qs as bs h1 h2
    induction h1 with
    | nil => exact h2
    | cons p ps cs ds h hs ih => rw [List.cons_append, List.append_assoc]; exact .cons _ _ _ _ h ih
  have hknown : ∀ {t t' : LvSt} {b : Bool} {gs : List Str} {as : List Char}, DbLists (t.flags ++ gs) as → lvPass b gs t = some t' →
      (∀ c ∈ as, c ∈ dbKnown) := by
    intro t t' b gs as hl ht c hc
    apply Classical.byContradiction
    intro hn
    unfold lvPass decodeDebug at ht
    rw [dbStrings_letters hl, dbLetters_unknown ⟨c, hc, hn⟩] at ht
    cases ht
  -- the passes before the makefiles are read
  unfold lvReading at hr
  obtain ⟨s2, h12, hr2⟩ := Option.bind_eq_some_iff.1 hr
  obtain ⟨s1, h1, h2⟩ := Option.bind_eq_some_iff.1 h12
  obtain ⟨lvt, ht, hs⟩ := Option.map_eq_some_iff.1 hr2
  have hf1 : s1.flags = o.envFlags := by
    unfold lvPass decodeDebug at h1
    obtain ⟨lv, _, rfl⟩ := Option.map_eq_some_iff.1 h1
    rfl
  have hf2 : s2.flags = o.envFlags ++ o.flags := by
    unfold lvPass decodeDebug at h2
    obtain ⟨lv, _, rfl⟩ := Option.map_eq_some_iff.1 h2
    rw [← hf1]
  have hL2 : DbLists (s1.flags ++ o.flags) (cs ++ ds) := by rw [hf1]; exact happ hE hF
  have hk2 := hknown hL2 h2
  obtain ⟨t2, k1, k2⟩ := C144_options (s := s1) (d := o.d) hL2 hk2
  rw [h2] at k1
  cases k1
  -- what the letters give is on
  have hgive : ∀ c ∈ cs ++ ds, ∀ l, DbGives c l → s2.lv l = true := by
    intro c hc l hg
    rw [k2 l]
    obtain ⟨pre, post, he⟩ := List.append_of_mem hc
    exact Or.inr ⟨pre, c, post, he, hg, fun y hy => hoff y (by rw [he]; simp [hy])⟩
  have hdall : (s1.dflag = true ∨ o.d = true) → ∀ l, s2.lv l = true := by
    intro h l
    rw [k2 l]
    exact Or.inl ⟨Or.inl h, fun y hy => hoff y hy⟩
  have hd1 : o.envD = true → s1.dflag = true := by
    intro h
    have hL1 : DbLists ((⟨false, [], Lvs.none⟩ : LvSt).flags ++ o.envFlags) cs := hE
    have hk1 := hknown hL1 h1
    obtain ⟨t1, j1, j2, j3, j4⟩ := decodeDebug_on (s := { (⟨false, [], Lvs.none⟩ : LvSt) with
        dflag := false || o.envD
        flags := [] ++ o.envFlags }) hL1 hk1
    have : lvPass o.envD o.envFlags ⟨false, [], Lvs.none⟩ = some t1 := j1
    rw [h1] at this
    cases this
    rw [j4]
    simp only [h, Bool.false_or, Bool.true_and, List.any_eq_true]
    refine ⟨.basic, by decide, ?_⟩
    rw [j3]
    exact Or.inl ⟨Or.inl (by simp [h]), fun y hy => hoff y (by simp [hy])⟩
  -- tracing and verbosity only add
  have htrace : ∀ l, s2.lv l = true → lvt l = true := by
    intro l hl
    by_cases hne : o.trace = []
    · rw [hne] at ht
      have : decodeTrace [] s2.lv = some s2.lv := rfl
      rw [this] at ht
      cases ht
      exact hl
    · by_cases hk : ∀ x ∈ o.trace, x ∈ traceKnown
      · obtain ⟨lv', j1, j2⟩ := C144_trace hne hk s2.lv
        rw [ht] at j1
        cases j1
        rw [j2 l]
        exact Or.inl ⟨Or.inl hl, fun x hx he => htr (he ▸ hx)⟩
      · exfalso
        have hk' : ∃ x ∈ o.trace, x ∉ traceKnown := by simpa using hk
        rw [C144_trace_unknown hk'] at ht
        cases ht
  have hslv : s.lv = (decodeVerbosity o.verbosity (lvt, true)).1 := by rw [← hs]
  have hsd : s.dflag = s2.dflag := by rw [← hs]
  have hsf : s.flags = s2.flags := by rw [← hs]
  have hup : ∀ l, s2.lv l = true → s.lv l = true := by
    intro l hl
    rw [hslv]
    exact verbosity_keeps _ hvb _ _ _ (htrace l hl)
  -- the pass behind the makefiles
  have hm' : lvPass d fs s = some s' := by
    unfold lvMaking at hm
    rw [show lvReading o = some s from hr] at hm
    simpa using hm
  have hL3 : DbLists (s.flags ++ fs) ((cs ++ ds) ++ es) := by rw [hsf, hf2]; exact happ (happ hE hF) hfs
  have hk3 := hknown hL3 hm'
  obtain ⟨t3, j1, j2⟩ := C144_options (s := s) (d := d) hL3 hk3
  rw [hm'] at j1
  cases j1
  have hoff3 : ∀ c ∈ (cs ++ ds) ++ es, ¬ DbOff c := by
    intro c hc
    rcases List.mem_append.1 hc with hc | hc
    · exact hoff c hc
    · exact hoff c (hes c hc)
  have hdf2 : s2.dflag = true → s1.dflag = true ∨ o.d = true := by
    intro h
    unfold lvPass decodeDebug at h2
    obtain ⟨lv, _, he⟩ := Option.map_eq_some_iff.1 h2
    rw [← he] at h
    simp only [Bool.and_eq_true, Bool.or_eq_true] at h
    exact h.1
  funext l
  have hiff : s'.lv l = true ↔ s.lv l = true := by
    rw [j2 l]
    constructor
    · rintro (⟨(h | h) | h, _⟩ | ⟨pre, c, post, he, hg, _⟩)
      · exact hup l (hdall (hdf2 (hsd ▸ h)) l)
      · refine hup l (hdall ?_ l)
        rcases hd h with h | h
        · exact Or.inl (hd1 h)
        · exact Or.inr h
      · exact h
      · have hc : c ∈ (cs ++ ds) ++ es := by rw [he]; simp
        have hc' : c ∈ cs ++ ds := by
          rcases List.mem_append.1 hc with hc | hc
          · exact hc
          · exact hes c hc
        exact hup l (hgive c hc' l hg)
    · intro h
      exact Or.inl ⟨Or.inr h, hoff3⟩
  cases h1 : s'.lv l <;> cases h2 : s.lv l <;> simp_all

/-- The kinds of messages at the two stages, as lists. -/
def lvStages (o : LvOpts) (d : Bool) (fs : List Str) : Option (List Lv) × Option (List Lv) :=
  ((lvReading o).map (·.lv.list), (lvMaking o true d fs).map (·.lv.list))

example : lvStages { d := true, flags := ["j".toList], trace := ["read".toList] } true [] = (some Lv.all, some Lv.all) ∧
    lvStages { flags := ["v".toList], trace := ["normal".toList] } false [] =
      (some [.basic, .verbose, .trace, .shell], some [.basic, .verbose, .trace, .shell]) := by
  constructor <;> decide +kernel

example : DbLists ["j".toList] ['j'] ∧ (∀ c ∈ [] ++ ['j'], ¬ DbOff c) ∧ "noshell".toList ∉ ["read".toList] ∧
    (lvReading { d := true, flags := ["j".toList], trace := ["read".toList] }).isSome = true :=
  ⟨.cons _ _ ['j'] [] (.last 'j' [] (by decide)) .nil, by intro c hc; simp at hc; subst hc; unfold DbOff; decide, by decide,
    by decide +kernel⟩

/-- **C144.**  Negation: with `--debug=n`, or with it among the options, tracing ends when the makefiles have been read. -/
theorem C144_trace_lost : lvStages { flags := ["n".toList], trace := ["normal".toList] } false [] =
    (some [.basic, .trace, .shell], some []) := by decide +kernel

/-- **C144.**  Negation: with `-d`, `--trace=noshell` holds only while the makefiles are read, and so does
`--verbosity=terse`. -/
theorem C144_shell_back : lvStages { d := true, trace := ["noshell".toList] } true [] = (some [.basic, .trace], some Lv.all) ∧
    lvStages { flags := ["v".toList], verbosity := ["terse".toList] } false [] = (some [.basic], some [.basic, .verbose]) := by
  constructor <;> decide +kernel

/-- The arguments of `--debugger-stop` one after the other (main.c 1458-1489). -/
def dbgStops : List Str → DbgStart → DbgStart
  | [], s => s
  | o :: os, s => dbgStops os (dbgStop o s)

/-- What a step of `--debugger-stop` does, field by field. -/
theorem dbgStop_fields (o : Str) (s : DbgStart) :
    ((dbgStop o s).preread = true ↔ s.preread = true ∨ o = "preread".toList) ∧
    ((dbgStop o s).goal = true ↔ s.goal = true ∨ o = "goal".toList) ∧
    ((dbgStop o s).enabled = true ↔ s.enabled = true ∨ o = "full".toList ∨ o = "preaction".toList ∨
      (s.preread = true ∨ o = "preread".toList) ∨ (s.goal = true ∨ o = "goal".toList)) ∧
    ((dbgStop o s).stepping = true ↔ s.stepping = true ∨ o = "full".toList ∨ o = "preaction".toList ∨
      (s.preread = true ∨ o = "preread".toList) ∨ (s.goal = true ∨ o = "goal".toList)) ∧
    ((dbgStop o s).onError = true ↔ s.onError = true ∨ o = "full".toList ∨ o = "error".toList ∨ (s.goal = true ∨ o = "goal".toList)) ∧
    ((dbgStop o s).onFatal = true ↔ s.onFatal = true ∨ o = "full".toList ∨ o = "error".toList ∨ o = "fatal".toList ∨
      (s.goal = true ∨ o = "goal".toList)) := by
  unfold dbgStop
  have em : ∀ P : Prop, P = True ∨ P = False := Classical.propComplete
  rcases em (o = "preread".toList) with h1 | h1 <;> rcases em (o = "goal".toList) with h2 | h2 <;>
    rcases em (o = "full".toList) with h3 | h3 <;> rcases em (o = "preaction".toList) with h4 | h4 <;>
    rcases em (o = "error".toList) with h5 | h5 <;> rcases em (o = "fatal".toList) with h6 | h6 <;>
    simp only [h1, h2, h3, h4, h5, h6, if_true, if_false, true_or, or_true, or_false, false_or] <;>
    cases hp : s.preread <;> cases hg : s.goal <;> simp [hp, hg]

theorem dbgStops_fields (os : List Str) : ∀ s : DbgStart, (s.preread = true ∨ s.goal = true → s.enabled = true ∧ s.stepping = true) →
    (s.goal = true → s.onError = true ∧ s.onFatal = true) →
    ((dbgStops os s).enabled = true ↔ s.enabled = true ∨ ∃ o ∈ os, o ∈ ["goal".toList, "preread".toList, "preaction".toList, "full".toList]) ∧
    ((dbgStops os s).stepping = true ↔ s.stepping = true ∨ ∃ o ∈ os, o ∈ ["goal".toList, "preread".toList, "preaction".toList, "full".toList]) ∧
    ((dbgStops os s).onError = true ↔ s.onError = true ∨ ∃ o ∈ os, o ∈ ["goal".toList, "full".toList, "error".toList]) ∧
    ((dbgStops os s).onFatal = true ↔ s.onFatal = true ∨ ∃ o ∈ os, o ∈ ["goal".toList, "full".toList, "error".toList, "fatal".toList]) := by
  induction os with
  | nil => intro s _ _; simp [dbgStops]
  | cons o os ih =>
    intro s hi hg
    obtain ⟨f1, f2, f3, f4, f5, f6⟩ := dbgStop_fields o s
    have hi' : (dbgStop o s).preread = true ∨ (dbgStop o s).goal = true → (dbgStop o s).enabled = true ∧ (dbgStop o s).stepping = true := by
      rw [f1, f2, f3, f4]; grind
    have hg' : (dbgStop o s).goal = true → (dbgStop o s).onError = true ∧ (dbgStop o s).onFatal = true := by
      rw [f2, f5, f6]; grind
    obtain ⟨g1, g2, g3, g4⟩ := ih _ hi' hg'
    simp only [dbgStops]
    rw [g1, g2, g3, g4, f3, f4, f5, f6]
    simp only [List.mem_cons, exists_eq_or_imp, List.not_mem_nil, or_false]
    refine ⟨?_, ?_, ?_, ?_⟩ <;> grind

/-- **C144.**  `--debugger-stop` may be repeated: the debugger is entered at each of the points named, in any order. -/
theorem C144_stops (os : List Str) :
    ((dbgStops os {}).enabled = true ↔ ∃ o ∈ os, o ∈ ["goal".toList, "preread".toList, "preaction".toList, "full".toList]) ∧
    ((dbgStops os {}).stepping = true ↔ ∃ o ∈ os, o ∈ ["goal".toList, "preread".toList, "preaction".toList, "full".toList]) ∧
    ((dbgStops os {}).onError = true ↔ ∃ o ∈ os, o ∈ ["goal".toList, "full".toList, "error".toList]) ∧
    ((dbgStops os {}).onFatal = true ↔ ∃ o ∈ os, o ∈ ["goal".toList, "full".toList, "error".toList, "fatal".toList]) := by
  have := dbgStops_fields os {} (by simp) (by simp)
  simpa using this

example : (dbgStops ["fatal".toList, "preaction".toList] {}).onFatal = true ∧ (dbgStops ["fatal".toList] {}).enabled = false := by
  constructor <;> decide +kernel

/-- **C144.**  Negation: the option `-X` is not the same as `--debugger-stop=full`, though the help text says so.  The one turns on the
messages about targets and does not stop at errors, the other stops at errors and leaves the messages off. -/
theorem C144_debugger_not_full : (dbgFlags false true {}).lv.list = [.basic, .shell, .makefiles, .call, .updateGoal] ∧
    (dbgFlags false true {}).onError = false ∧ (dbgStop "full".toList {}).lv.list = [] ∧ (dbgStop "full".toList {}).onError = true := by
  refine ⟨?_, ?_, ?_, ?_⟩ <;> decide +kernel

/-- **C144** With `--post-mortem` the debugger is on and is entered at errors, but does not stop before; with `--debugger` it is on and stops at once;
without either nothing changes. -/
theorem C144_debugger_starts (s : DbgStart) :
    (∀ b, (dbgFlags true b s).enabled = true ∧ (dbgFlags true b s).onError = true ∧ (dbgFlags true b s).onFatal = true ∧
      (dbgFlags true b s).stepping = s.stepping ∧ (dbgFlags true b s).lv = s.lv) ∧
    (dbgFlags false true s).enabled = true ∧ (dbgFlags false true s).stepping = true ∧ (dbgFlags false true s).onError = s.onError ∧
    (dbgFlags false true s).preread = false ∧ dbgFlags false false s = s :=
  ⟨fun _ => ⟨rfl, rfl, rfl, rfl, rfl⟩, rfl, rfl, rfl, rfl, rfl⟩

/-- **C144** If `MAKEFLAGS` is empty after the makefiles have been read, the level is the one they were read with. -/
theorem C144_not_again (o : LvOpts) (d : Bool) (fs : List Str) : lvMaking o false d fs = lvReading o := by
  unfold lvMaking
  cases lvReading o <;> rfl

end Remake
