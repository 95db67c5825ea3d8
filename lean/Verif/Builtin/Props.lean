import Verif.Builtin.Model
set_option linter.unusedVariables false
set_option linter.unusedSimpArgs false
/-!
# C147: the options `-r` and `-R`

What "as if there were no built-in rules" means is said with the empty tables.
-/
namespace Remake
open Spec

/-- Tables like those of default.c, used in the examples. -/
def biTables : BiTables :=
  { suffixes := [".c".toList, ".o".toList]
    suffixRules := [(".c.o".toList, 7)]
    patterns := [{ targets := [⟨[], []⟩], deps := [{ name := "%,v".toList }], cmds := some 8, terminal := true }]
    vars := [("CC".toList, "cc".toList)] }

/-- What does not depend on the tables goes through the reading of a makefile. -/
theorem bi_read_rules {s t : BiSt} (ls : List BiLine) (h1 : s.suffixes = t.suffixes) (h2 : s.file = t.file) (h3 : s.rules = t.rules)
    (h4 : s.mark = t.mark) :
    (ls.foldl BiSt.read s).suffixes = (ls.foldl BiSt.read t).suffixes ∧ (ls.foldl BiSt.read s).file = (ls.foldl BiSt.read t).file ∧
      (ls.foldl BiSt.read s).rules = (ls.foldl BiSt.read t).rules ∧ (ls.foldl BiSt.read s).mark = (ls.foldl BiSt.read t).mark := by
  induction ls generalizing s t with
  | nil => exact ⟨h1, h2, h3, h4⟩
  | cons l ls ih =>
    rw [List.foldl_cons, List.foldl_cons]
    apply ih <;> cases l <;> simp [BiSt.read, h1, h2, h3, h4]

theorem bi_read_vars {s t : BiSt} (ls : List BiLine) (h : s.vars = t.vars) :
    (ls.foldl BiSt.read s).vars = (ls.foldl BiSt.read t).vars := by
  induction ls generalizing s t with
  | nil => exact h
  | cons l ls ih =>
    rw [List.foldl_cons, List.foldl_cons]
    apply ih
    cases l <;> simp [BiSt.read, h]

/-- **C147** With `-r` or `-R` on the command line or in the environment, the implicit rules are those there would be if make had no built-in
rules, whatever the makefile says. -/
theorem C147_rules (T : BiTables) (posix r R mr mR : Bool) (h : r = true ∨ R = true) (env : Str → Option (BiOrigin × Str)) (ls : List BiLine) :
    (biRun T posix r R mr mR env ls).rules = (biRun BiTables.empty posix false false false false env ls).rules := by
  have hor : (r || R) = true := by rcases h with h | h <;> simp [h]
  obtain ⟨a, b, c, d⟩ := bi_read_rules (s := biStart T r R env) (t := biStart BiTables.empty false false env) ls
    (by simp [biStart, hor, BiTables.empty]) (by simp [biStart, hor, BiTables.empty]) rfl rfl
  unfold biRun biEnd
  simp only [hor, Bool.not_true, Bool.and_false, Bool.false_eq_true, if_false, Bool.true_or, if_true]
  simp only [Bool.or_self, Bool.false_and, Bool.and_true, Bool.false_eq_true, if_false]
  split
  · simp only [a, b, c, BiTables.empty, List.foldl_nil]
  · simp only [a, b, c, BiTables.empty, List.foldl_nil]

/-- **C147** With `-R` on the command line or in the environment, the variables are those there would be if make had no built-in variables. -/
theorem C147_variables (T : BiTables) (posix r mr mR : Bool) (env : Str → Option (BiOrigin × Str)) (ls : List BiLine) :
    (biRun T posix r true mr mR env ls).vars = (biRun BiTables.empty posix false false false false env ls).vars := by
  have := bi_read_vars (s := biStart T r true env) (t := biStart BiTables.empty false false env) ls (by simp [biStart, BiTables.empty])
  unfold biRun biEnd
  simp [this]

theorem bi_mark (ls : List BiLine) (h : ∀ l, BiLine.suffixes l ∉ ls) (s : BiSt) :
    (ls.foldl BiSt.read s).mark = s.mark ∧ (ls.foldl BiSt.read s).suffixes = s.suffixes := by
  induction ls generalizing s with
  | nil => exact ⟨rfl, rfl⟩
  | cons l ls ih =>
    rw [List.foldl_cons]
    have := ih (fun x hx => h x (by simp [hx])) (s.read l)
    rw [this.1, this.2]
    cases l with
    | suffixes l => exact absurd (by simp) (h l)
    | rule t d c => exact ⟨rfl, rfl⟩
    | pattern p => exact ⟨rfl, rfl⟩
    | assign n v => exact ⟨rfl, rfl⟩

theorem bi_rules_only (ls : List BiLine) (s t : BiSt) (h : s.rules = t.rules) :
    (ls.foldl BiSt.read s).rules = (ls.foldl BiSt.read t).rules := by
  induction ls generalizing s t with
  | nil => exact h
  | cons l ls ih =>
    rw [List.foldl_cons, List.foldl_cons]
    apply ih
    cases l <;> simp [BiSt.read, h]

/-- **C147** The same if the makefile itself puts `-r` into `MAKEFLAGS`, provided it does not mention `.SUFFIXES`. -/
theorem C147_makefile_partial (T : BiTables) (posix mR : Bool) (env : Str → Option (BiOrigin × Str)) (ls : List BiLine)
    (h : ∀ l, BiLine.suffixes l ∉ ls) :
    (biRun T posix false false true mR env ls).rules = (biRun BiTables.empty posix false false false false env ls).rules := by
  have a := bi_mark ls h (biStart T false false env)
  have b := bi_mark ls h (biStart BiTables.empty false false env)
  have c := bi_rules_only ls (biStart T false false env) (biStart BiTables.empty false false env) rfl
  have e1 : (ls.foldl BiSt.read (biStart T false false env)).mark = true := by rw [a.1]; rfl
  have e2 : (ls.foldl BiSt.read (biStart BiTables.empty false false env)).suffixes = [] := by rw [b.2]; rfl
  have e3 : BiTables.empty.patterns = [] := rfl
  unfold biRun biEnd
  cases mR <;> simp [e1, e2, c, convertToPattern, e3]

example : (biRun biTables false false false true false (fun _ => none)
    [.pattern { targets := [⟨[], ".o".toList⟩], deps := [{ name := "%.x".toList }], cmds := some 1 }, .rule "all".toList true none]).rules =
    [{ targets := [⟨[], ".o".toList⟩], deps := [{ name := "%.x".toList }], cmds := some 1 }] := by decide +kernel

theorem bi_start_file (T : List (Str × Nat)) (f : Str → Option SuffixTarget) (n : Str) (c : Nat) (h : (n, c) ∈ T)
    (hu : ∀ d, (n, d) ∈ T → d = c) :
    T.foldl (fun f x => fun m => if m = x.1 then some ⟨false, some x.2⟩ else f m) f n = some ⟨false, some c⟩ := by
  have key : ∀ (T : List (Str × Nat)) f, (∀ d, (n, d) ∈ T → d = c) → ((n, c) ∈ T ∨ f n = some ⟨false, some c⟩) →
      T.foldl (fun f x => fun m => if m = x.1 then some (⟨false, some x.2⟩ : SuffixTarget) else f m) f n = some ⟨false, some c⟩ := by
    intro T
    induction T with
    | nil => intro f _ h; rcases h with h | h; · simp at h
             · exact h
    | cons x T ih =>
      intro f hu h
      rw [List.foldl_cons]
      refine ih _ (fun d hd => hu d (by simp [hd])) ?_
      by_cases e : n = x.1
      · right
        have : x.2 = c := hu x.2 (by rw [e]; simp)
        simp [e, this]
      · rcases h with h | h
        · left
          simp only [List.mem_cons] at h
          rcases h with h | h
          · exact absurd (by rw [← h]) e
          · exact h
        · right; simp [e, h]
  exact key T f hu (.inl h)

/-- **C147** Negation: if the makefile adds a suffix, or gives a list of its own, `-r` in `MAKEFLAGS` has no effect on the suffix rules: every built-in
one whose suffixes are in the list is used. -/
theorem C147_suffixes_kept (T : BiTables) (posix mR : Bool) (env : Str → Option (BiOrigin × Str)) (l : List Str) (clear : Bool) (s s2 : Str)
    (c : Nat) (hl : l ≠ []) (hs : s ∈ l ∨ (clear = false ∧ s ∈ T.suffixes)) (hs2 : s2 ∈ l ∨ (clear = false ∧ s2 ∈ T.suffixes)) (hne : s ≠ s2)
    (hr : (s ++ s2, c) ∈ T.suffixRules) (hu : ∀ d, (s ++ s2, d) ∈ T.suffixRules → d = c) :
    suffixRule (some s2) (some s) (some c) ∈
      (biRun T posix false false true mR env ((if clear then [.suffixes []] else []) ++ [.suffixes l])).rules := by
  have hf := bi_start_file T.suffixRules (fun _ => none) (s ++ s2) c hr hu
  have key : ∀ suf : List Str, s ∈ suf → s2 ∈ suf →
      suffixRule (some s2) (some s) (some c) ∈ convertToPattern posix (biStart T false false env).file suf [] := by
    intro suf h1 h2
    rcases C36_all posix (biStart T false false env).file suf [] _
      (FromSuffix.two s s2 ⟨false, some c⟩ c h1 h2 hne (by simpa [biStart] using hf) rfl (by simp)) with h | ⟨q, hq, _⟩
    · exact h
    · simp at hq
  unfold biRun biEnd
  cases clear with
  | true =>
    have h1 : s ∈ l := by simpa using hs
    have h2 : s2 ∈ l := by simpa using hs2
    cases mR <;> simpa [BiSt.read, hl, biStart] using key l h1 h2
  | false =>
    have h1 : s ∈ T.suffixes ++ l := by simp at hs ⊢; exact hs.symm
    have h2 : s2 ∈ T.suffixes ++ l := by simp at hs2 ⊢; exact hs2.symm
    cases mR <;> simpa [BiSt.read, hl, biStart] using key _ h1 h2

example : suffixRule (some ".o".toList) (some ".c".toList) (some 7) ∈
    (biRun biTables false false false true false (fun _ => none) [.suffixes [".foo".toList]]).rules :=
  C147_suffixes_kept biTables false false (fun _ => none) [".foo".toList] false ".c".toList ".o".toList 7 (by decide)
    (.inr ⟨rfl, by decide⟩) (.inr ⟨rfl, by decide⟩) (by decide) (by decide) (by
      intro d hd
      simp [biTables] at hd
      exact hd)

theorem bi_undefine (T : List (Str × Str)) (vars : Str → Option (BiOrigin × Str)) (n : Str) :
    (∀ o v, vars n = some (o, v) → o ≠ .default → T.foldl (fun f x => biUndefine f x.1) vars n = some (o, v)) ∧
    (∀ w, (n, w) ∈ T → ∀ v, vars n = some (.default, v) → T.foldl (fun f x => biUndefine f x.1) vars n = none) ∧
    (vars n = none → T.foldl (fun f x => biUndefine f x.1) vars n = none) := by
  induction T generalizing vars with
  | nil => exact ⟨fun _ _ h _ => h, fun _ h => by simp at h, fun h => h⟩
  | cons x T ih =>
    obtain ⟨i1, i2, i3⟩ := ih (biUndefine vars x.1)
    refine ⟨?_, ?_, ?_⟩
    · intro o v h ho
      refine i1 o v ?_ ho
      unfold biUndefine
      by_cases e : n = x.1
      · rw [← e, if_pos rfl, h]
        cases o <;> simp [BiOrigin.rank] at ho ⊢
      · rw [if_neg e, h]
    · intro w hw v h
      rw [List.foldl_cons]
      by_cases e : n = x.1
      · refine i3 ?_
        unfold biUndefine
        rw [← e, if_pos rfl, h]
        simp [BiOrigin.rank]
      · simp only [List.mem_cons] at hw
        rcases hw with hw | hw
        · exact absurd (by rw [← hw]) e
        · refine i2 w hw v ?_
          unfold biUndefine
          rw [if_neg e, h]
    · intro h
      refine i3 ?_
      unfold biUndefine
      by_cases e : n = x.1
      · rw [← e, if_pos rfl, h]
      · rw [if_neg e, h]

/-- **C147** If the makefile puts `-R` into `MAKEFLAGS`, the built-in variables that nobody has defined otherwise are gone when targets are made, and
all others have the values they had. -/
theorem C147_makefile_variables (T : BiTables) (posix mr : Bool) (env : Str → Option (BiOrigin × Str)) (ls : List BiLine) (n : Str) (o : BiOrigin)
    (v : Str) (h : (ls.foldl BiSt.read (biStart T false false env)).vars n = some (o, v)) :
    (o ≠ .default → (biRun T posix false false mr true env ls).vars n = some (o, v)) ∧
    (o = .default → (∃ w, (n, w) ∈ T.vars) → (biRun T posix false false mr true env ls).vars n = none) := by
  have e : (biRun T posix false false mr true env ls).vars =
      T.vars.foldl (fun f x => biUndefine f x.1) (ls.foldl BiSt.read (biStart T false false env)).vars := by
    unfold biRun biEnd
    cases mr <;> simp
  obtain ⟨a, b, _⟩ := bi_undefine T.vars (ls.foldl BiSt.read (biStart T false false env)).vars n
  rw [e]
  refine ⟨fun ho => a o v h ho, ?_⟩
  rintro rfl ⟨w, hw⟩
  exact b w hw v h

example : (biRun biTables false false false false true (fun _ => none) [.assign "X".toList "1".toList]).vars "CC".toList = none ∧
    (biRun biTables false false false false true (fun _ => none) [.assign "X".toList "1".toList]).vars "X".toList = some (.file, "1".toList) := by
  decide +kernel

/-- **C147** Negation: `-R` implies `-r`, but not in `MAKEFLAGS` of a makefile: all built-in rules stay, and the variables in their recipes are gone. -/
theorem C147_rules_stay (T : BiTables) (posix : Bool) (env : Str → Option (BiOrigin × Str)) (ls : List BiLine) :
    (biRun T posix false false false true env ls).rules = (biRun T posix false false false false env ls).rules := by
  unfold biRun biEnd
  simp

example : suffixRule (some ".o".toList) (some ".c".toList) (some 7) ∈ (biRun biTables false false false false true (fun _ => none) []).rules ∧
    (biRun biTables false false false false true (fun _ => none) []).vars "CC".toList = none := by decide +kernel

theorem newPattern_prefix (T rules : List PatRule) : ∃ added, T.foldl (newPatternRule false) rules = rules ++ added := by
  induction T generalizing rules with
  | nil => exact ⟨[], by simp⟩
  | cons x T ih =>
    rw [List.foldl_cons]
    obtain ⟨a, e⟩ := ih (newPatternRule false rules x)
    rw [e]
    unfold newPatternRule
    split
    · exact ⟨a, by simp⟩
    · exact ⟨x :: a, by simp⟩

/-- **C147** Without these options too, the makefile comes first: its pattern rules stand before all others, and a recipe that it gives for a suffix rule
replaces the built-in one. -/
theorem C147_makefile_first (T : BiTables) (posix r R mr mR : Bool) (env : Str → Option (BiOrigin × Str)) (ls : List BiLine) :
    (∃ added, (biRun T posix r R mr mR env ls).rules = (ls.foldl BiSt.read (biStart BiTables.empty false false env)).rules ++ added) ∧
    (∀ t d c, (biRun T posix r R mr mR env (ls ++ [.rule t d (some c)])).file t = some ⟨d || ((biRun T posix r R mr mR env ls).file t).any (·.hasDeps), some c⟩) := by
  have hfile : ∀ ls, (biRun T posix r R mr mR env ls).file = (ls.foldl BiSt.read (biStart T r R env)).file := by
    intro ls
    unfold biRun biEnd
    simp only
    split <;> split <;> rfl
  have hrules : ∃ added, (biRun T posix r R mr mR env ls).rules = (ls.foldl BiSt.read (biStart T r R env)).rules ++ added := by
    have conv : ∀ (f : Str → Option SuffixTarget) suf rules, ∃ added, convertToPattern posix f suf rules = rules ++ added := by
      intro f suf rules
      obtain ⟨ad, e, _⟩ := C36_only_partial posix f suf rules
      exact ⟨ad, e⟩
    have gen : ∀ (f : Str → Option SuffixTarget) suf rules (b : Bool), ∃ added,
        (if b then convertToPattern posix f suf rules else T.patterns.foldl (newPatternRule false) (convertToPattern posix f suf rules)) = rules ++ added := by
      intro f suf rules b
      obtain ⟨ad, e⟩ := conv f suf rules
      cases b with
      | true => exact ⟨ad, by simpa using e⟩
      | false =>
        obtain ⟨ad2, e2⟩ := newPattern_prefix T.patterns (convertToPattern posix f suf rules)
        exact ⟨ad ++ ad2, by rw [if_neg (by simp), e2, e, List.append_assoc]⟩
    unfold biRun biEnd
    cases mr <;> cases mR <;> cases r <;> cases R <;> first
      | exact gen _ _ _ true
      | exact gen _ _ _ false
  refine ⟨?_, ?_⟩
  · obtain ⟨ad, e⟩ := hrules
    exact ⟨ad, by rw [e, bi_rules_only ls (biStart T r R env) (biStart BiTables.empty false false env) rfl]⟩
  · intro t d c
    rw [hfile, hfile, List.foldl_append]
    simp only [List.foldl_cons, List.foldl_nil, BiSt.read, if_true]
    cases (ls.foldl BiSt.read (biStart T r R env)).file t with
    | none => simp
    | some f => simp [Bool.or_comm]

end Remake
