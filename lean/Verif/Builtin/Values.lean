import Verif.Builtin.Props
set_option linter.unusedVariables false
set_option linter.unusedSimpArgs false
/-!
# C147: the values of variables, recipes and rules when the built-in ones are there
-/
namespace Remake

theorem bi_vars_run (T : BiTables) (posix r R mr : Bool) (env : Str → Option (BiOrigin × Str)) (ls : List BiLine) :
    (biRun T posix r R mr false env ls).vars = (ls.foldl BiSt.read (biStart T r R env)).vars := by
  unfold biRun biEnd
  simp only [Bool.false_and, Bool.false_eq_true, if_false]
  split <;> rfl

theorem bi_defaults_none (n d : Str) : ∀ (T : List (Str × Str)) (env : Str → Option (BiOrigin × Str)), (T.map (·.1)).Nodup →
    (n, d) ∈ T → env n = none → T.foldl (fun f x => biDefine f x.1 .default x.2) env n = some (.default, d) := by
  intro T
  have keep : ∀ (T : List (Str × Str)) (env : Str → Option (BiOrigin × Str)), n ∉ T.map (·.1) →
      T.foldl (fun f x => biDefine f x.1 .default x.2) env n = env n := by
    intro T
    induction T with
    | nil => intros; rfl
    | cons x T ih =>
      intro env h
      simp only [List.map_cons, List.mem_cons, not_or] at h
      rw [List.foldl_cons, ih _ h.2]
      simp [biDefine, h.1]
  induction T with
  | nil => intro _ _ h; cases h
  | cons x T ih =>
    intro env hn hm he
    rw [List.map_cons, List.nodup_cons] at hn
    rw [List.foldl_cons]
    rcases List.mem_cons.1 hm with rfl | hm
    · rw [keep T _ hn.1]
      simp [biDefine, he]
    · apply ih _ hn.2 hm
      have : n ≠ x.1 := by
        rintro rfl
        exact hn.1 (List.mem_map.2 ⟨_, hm, rfl⟩)
      simp [biDefine, this, he]

theorem bi_defaults_some (n v : Str) (o : BiOrigin) (ho : o ≠ .default) : ∀ (T : List (Str × Str)) (env : Str → Option (BiOrigin × Str)),
    env n = some (o, v) → T.foldl (fun f x => biDefine f x.1 .default x.2) env n = some (o, v) := by
  intro T
  induction T with
  | nil => intro env h; exact h
  | cons x T ih =>
    intro env h
    rw [List.foldl_cons]
    apply ih
    by_cases e : n = x.1
    · have hr : ¬ BiOrigin.default.rank ≥ o.rank := by cases o <;> simp [BiOrigin.rank] at *
      subst e
      simp only [biDefine, if_true, h, if_neg hr]
    · simp [biDefine, e, h]

theorem bi_read_unassigned (n : Str) : ∀ (ls : List BiLine) (s : BiSt), (∀ v, BiLine.assign n v ∉ ls) → (ls.foldl BiSt.read s).vars n = s.vars n := by
  intro ls
  induction ls with
  | nil => intros; rfl
  | cons l ls ih =>
    intro s h
    rw [List.foldl_cons, ih _ fun v hv => h v (by simp [hv])]
    cases l with
    | assign m v =>
      have : n ≠ m := by
        rintro rfl
        exact h v (by simp)
      simp [BiSt.read, biDefine, this]
    | _ => rfl

/-- The origin of a variable at most that of the makefile, or there is none. -/
theorem bi_read_weak (n : Str) : ∀ (ls : List BiLine) (s : BiSt), (∀ o v, s.vars n = some (o, v) → o.rank ≤ 2) →
    ∀ o v, (ls.foldl BiSt.read s).vars n = some (o, v) → o.rank ≤ 2 := by
  intro ls
  induction ls with
  | nil => intro s h; exact h
  | cons l ls ih =>
    intro s h
    rw [List.foldl_cons]
    apply ih
    cases l with
    | assign m v =>
      intro o w hw
      by_cases e : n = m
      · subst e
        simp only [BiSt.read, biDefine, if_true] at hw
        split at hw
        · rename_i o' v' e'
          split at hw
          · simp only [Option.some.injEq, Prod.mk.injEq] at hw
            rw [← hw.1]; decide
          · simp only [Option.some.injEq, Prod.mk.injEq] at hw
            rw [← hw.1]; exact h _ _ e'
        · simp only [Option.some.injEq, Prod.mk.injEq] at hw
          rw [← hw.1]; decide
      · simp only [BiSt.read, biDefine, e, if_false] at hw
        exact h _ _ hw
    | _ => exact h

theorem bi_read_strong (n w : Str) (o : BiOrigin) (ho : 2 < o.rank) : ∀ (ls : List BiLine) (s : BiSt), s.vars n = some (o, w) →
    (ls.foldl BiSt.read s).vars n = some (o, w) := by
  intro ls
  induction ls with
  | nil => intro s h; exact h
  | cons l ls ih =>
    intro s h
    rw [List.foldl_cons]
    apply ih
    cases l with
    | assign m v =>
      by_cases e : n = m
      · subst e
        have : ¬ BiOrigin.file.rank ≥ o.rank := by simp only [BiOrigin.rank] at ho ⊢; omega
        simp only [BiSt.read, biDefine, if_true, h, if_neg this]
      · simp [BiSt.read, biDefine, e, h]
    | _ => exact h

/-- **C147** Without `-R` (and whatever `-r` is), a variable that the makefile does not assign has the value from the environment or the command line if there is one,
else the built-in one. -/
theorem C147_builtin_value (T : BiTables) (posix r mr : Bool) (env : Str → Option (BiOrigin × Str)) (ls : List BiLine) (n : Str)
    (hls : ∀ v, BiLine.assign n v ∉ ls) :
    (∀ d, (T.vars.map (·.1)).Nodup → (n, d) ∈ T.vars → env n = none → (biRun T posix r false mr false env ls).vars n = some (.default, d)) ∧
    (∀ o v, o ≠ .default → env n = some (o, v) → (biRun T posix r false mr false env ls).vars n = some (o, v)) := by
  rw [bi_vars_run, bi_read_unassigned n ls _ hls]
  simp only [biStart, Bool.false_eq_true, if_false]
  exact ⟨fun d h1 h2 h3 => bi_defaults_none n d _ _ h1 h2 h3, fun o v ho h => bi_defaults_some n v o ho _ _ h⟩

/-- **C147** Without `-R`, an assignment in the makefile, the last one for its variable, replaces the built-in value and that of the environment; it does not replace one from the
command line, or from the environment with `-e`. -/
theorem C147_makefile_value (T : BiTables) (posix r mr : Bool) (env : Str → Option (BiOrigin × Str)) (a b : List BiLine) (n v : Str)
    (hb : ∀ v, BiLine.assign n v ∉ b) :
    ((∀ o w, env n = some (o, w) → o = .env) → (biRun T posix r false mr false env (a ++ .assign n v :: b)).vars n = some (.file, v)) ∧
    (∀ o w, o = .envOverride ∨ o = .command ∨ o = .override → env n = some (o, w) →
      (biRun T posix r false mr false env (a ++ .assign n v :: b)).vars n = some (o, w)) := by
  rw [bi_vars_run]
  constructor
  · intro henv
    rw [List.foldl_append, List.foldl_cons, bi_read_unassigned n b _ hb]
    have hw : ∀ o w, (biStart T r false env).vars n = some (o, w) → o.rank ≤ 2 := by
      intro o w
      simp only [biStart, Bool.false_eq_true, if_false]
      have key : ∀ (l : List (Str × Str)) (f : Str → Option (BiOrigin × Str)), (∀ o w, f n = some (o, w) → o.rank ≤ 2) →
          ∀ o w, l.foldl (fun f x => biDefine f x.1 .default x.2) f n = some (o, w) → o.rank ≤ 2 := by
        intro l
        induction l with
        | nil => intro f h; exact h
        | cons x l ih =>
          intro f h
          rw [List.foldl_cons]
          apply ih
          intro o w hw
          by_cases e : n = x.1
          · subst e
            simp only [biDefine, if_true] at hw
            split at hw
            · rename_i o' v' e'
              split at hw
              · simp only [Option.some.injEq, Prod.mk.injEq] at hw
                rw [← hw.1]; decide
              · simp only [Option.some.injEq, Prod.mk.injEq] at hw
                rw [← hw.1]; exact h _ _ e'
            · simp only [Option.some.injEq, Prod.mk.injEq] at hw
              rw [← hw.1]; decide
          · simp only [biDefine, e, if_false] at hw
            exact h _ _ hw
      apply key
      intro o w h
      rw [henv o w h]; decide
    have := bi_read_weak n a _ hw
    simp only [BiSt.read, biDefine, if_true]
    split
    · rename_i o' v' e'
      rw [if_pos]
      exact this _ _ e'
    · rfl
  · intro o w ho henv
    apply bi_read_strong n w o (by rcases ho with rfl | rfl | rfl <;> decide)
    simp only [biStart, Bool.false_eq_true, if_false]
    exact bi_defaults_some n w o (by rcases ho with rfl | rfl | rfl <;> decide) _ _ henv

example : (biRun biTables false true false false false (fun n => if n = "CC".toList then some (.env, "gcc".toList) else none)
      [.assign "CC".toList "tcc".toList]).vars "CC".toList = some (.file, "tcc".toList) ∧
    (biRun biTables false true false false false (fun n => if n = "CC".toList then some (.command, "gcc".toList) else none)
      [.assign "CC".toList "tcc".toList]).vars "CC".toList = some (.command, "gcc".toList) ∧
    (biRun biTables false true false false false (fun _ => none) []).vars "CC".toList = some (.default, "cc".toList) := by decide +kernel

/-- **C147** A line for a target without a recipe leaves the recipe that the target has, and lines for other targets leave it alone. -/
theorem C147_recipe_stays (T : BiTables) (posix r R mr mR : Bool) (env : Str → Option (BiOrigin × Str)) (ls : List BiLine) (t : Str) (f : SuffixTarget)
    (h : (biRun T posix r R mr mR env ls).file t = some f) :
    (∀ d, (biRun T posix r R mr mR env (ls ++ [.rule t d none])).file t = some ⟨f.hasDeps || d, f.cmds⟩) ∧
    (∀ u d c, u ≠ t → (biRun T posix r R mr mR env (ls ++ [.rule u d c])).file t = some f) := by
  have hfile : ∀ ls, (biRun T posix r R mr mR env ls).file = (ls.foldl BiSt.read (biStart T r R env)).file := by
    intro ls
    unfold biRun biEnd
    simp only
    split <;> split <;> rfl
  rw [hfile] at h
  constructor
  · intro d
    rw [hfile, List.foldl_append]
    simp [BiSt.read, h]
  · intro u d c hu
    rw [hfile, List.foldl_append]
    simp [BiSt.read, Ne.symm hu, h]

/-- **C147** The pattern rules of the makefile are put in one after the other, each in place of an equal one before it (C75), and with `-r` only the converted suffix rules
follow. -/
theorem C147_pattern_rules (T : BiTables) (posix R mr mR : Bool) (env : Str → Option (BiOrigin × Str)) (ls : List BiLine) :
    (biRun T posix true R mr mR env ls).rules =
      convertToPattern posix (biRun T posix true R mr mR env ls).file (biRun T posix true R mr mR env ls).suffixes
        ((ls.filterMap fun | .pattern p => some p | _ => none).foldl (newPatternRule true) []) := by
  have key : ∀ (ls : List BiLine) (s : BiSt), (ls.foldl BiSt.read s).rules =
      (ls.filterMap fun | .pattern p => some p | _ => none).foldl (newPatternRule true) s.rules := by
    intro ls
    induction ls with
    | nil => intro s; rfl
    | cons l ls ih =>
      intro s
      rw [List.foldl_cons, ih]
      cases l <;> rfl
  unfold biRun biEnd
  simp only [Bool.true_or, Bool.not_true, Bool.and_false, Bool.false_eq_true, if_false, if_true]
  have e : (biStart T true R env).rules = [] := rfl
  rw [← e, ← key]
  split <;> rfl

end Remake
