import Verif.Flags.Lemmas4
/-!
# Sizes, long options and values of options
-/
set_option linter.unusedVariables false
set_option linter.unusedSimpArgs false
namespace Remake
open Remake.Spec

variable {F : Type}

/-! ### Sizes -/

theorem quoteForEnv_length (a : Str) : (quoteForEnv a).length ≤ 2 * a.length := by
  induction a with
  | nil => simp [quoteForEnv]
  | cons c a ih =>
    simp only [quoteForEnv]
    split <;> (try split) <;> simp <;> omega

theorem flagText_length (f : Switch × Option Str) : (flagText f).length ≤ flagLen f := by
  obtain ⟨cs, o⟩ := f
  unfold flagText flagLen
  cases o with
  | none => cases cs.short <;> simp <;> omega
  | some a =>
    have := quoteForEnv_length a
    by_cases ha : a = []
    · subst ha; cases cs.short <;> simp <;> omega
    · cases cs.short <;> simp [ha] <;> omega

theorem letter_length (f : Switch × Option Str) : 1 ≤ flagLen f := by
  obtain ⟨cs, o⟩ := f
  unfold flagLen
  cases o <;> simp only <;> omega

theorem flagsBody_length (l : List (Switch × Option Str)) : (flagsBody l).length ≤ (l.map flagLen).sum := by
  have h1 : ∀ m : List (Switch × Option Str), m.length ≤ (m.map flagLen).sum := by
    intro m
    induction m with
    | nil => simp
    | cons f m ih => have := letter_length f; simp; omega
  have h2 : ∀ m : List (Switch × Option Str), (m.flatMap flagText).length ≤ (m.map flagLen).sum := by
    intro m
    induction m with
    | nil => simp
    | cons f m ih => have := flagText_length f; simp at *; omega
  have hl : (l.map flagLen).sum = ((l.takeWhile isSimple).map flagLen).sum + ((l.dropWhile isSimple).map flagLen).sum := by
    rw [← List.sum_append, ← List.map_append, List.takeWhile_append_dropWhile]
  rw [hl]
  unfold flagsBody
  have := h1 (l.takeWhile isSimple)
  have := h2 (l.dropWhile isSimple)
  simp only [List.length_append, List.length_map]
  omega

theorem splitEnvGo_size (acc s : Str) :
    ((splitEnvGo acc s).map (·.length + 1)).sum ≤ acc.length + s.length + 1 := by
  induction hn : s.length using Nat.strongRecOn generalizing acc s with
  | ind n ih =>
    subst hn
    rw [splitEnvGo.eq_def]
    split
    · simp
    · rename_i c cs
      split
      · split
        · have := ih 0 (by simp) (c :: acc) [] rfl
          simp at *; omega
        · rename_i d ds
          have := ih ds.length (by simp; omega) (d :: acc) ds rfl
          simp at *; omega
      · split
        · have h1 := dropWhile_length_le (p := isBlank) cs
          have := ih _ (by simp; omega) [] (cs.dropWhile isBlank) rfl
          simp at *; omega
        · have := ih cs.length (by simp) (c :: acc) cs rfl
          simp at *; omega

theorem length_le_size (l : List Str) : l.length ≤ (l.map (·.length + 1)).sum := by
  induction l with
  | nil => simp
  | cons w l ih => simp; omega

/-! ### Long options -/

theorem findLong_some (name : Str) (opts : List LongOpt) (q : LongOpt) (a : Bool) :
    findLong name opts (some q) a =
      match opts.find? (fun p => p.name = name) with
      | some p => .found p
      | none => if a = true ∨ opts.filter (fun p => name.isPrefixOf p.name) ≠ [] then .ambiguous else .found q := by
  induction opts generalizing a with
  | nil => cases a <;> simp [findLong]
  | cons p ps ih =>
    simp only [findLong]
    by_cases hp : name.isPrefixOf p.name = true
    · rw [if_pos hp]
      by_cases hl : name.length = p.name.length
      · rw [if_pos hl]
        have : p.name = name := by
          rw [List.isPrefixOf_iff_prefix] at hp
          exact (hp.eq_of_length hl).symm
        simp [this]
      · rw [if_neg hl, ih]
        have hne : p.name ≠ name := fun h => hl (by rw [h])
        simp only [List.find?_cons, hne, decide_false, List.filter_cons, hp, if_true]
        simp
    · rw [if_neg hp, ih]
      have hne : p.name ≠ name := by
        intro h; rw [h] at hp; exact hp (by simp)
      simp only [List.find?_cons, hne, decide_false, List.filter_cons, hp]
      simp

theorem findLong_none (name : Str) (opts : List LongOpt) : findLong name opts none false = longOptionFor name opts := by
  induction opts with
  | nil => rfl
  | cons p ps ih =>
    simp only [findLong, longOptionFor]
    by_cases hp : name.isPrefixOf p.name = true
    · rw [if_pos hp]
      by_cases hl : name.length = p.name.length
      · rw [if_pos hl]
        have : p.name = name := by
          rw [List.isPrefixOf_iff_prefix] at hp
          exact (hp.eq_of_length hl).symm
        simp [this]
      · rw [if_neg hl, findLong_some]
        have hne : p.name ≠ name := fun h => hl (by rw [h])
        simp only [List.find?_cons, hne, decide_false, List.filter_cons, hp, if_true]
        cases ps.find? fun p => decide (p.name = name) with
        | some q => rfl
        | none => cases ps.filter fun p => name.isPrefixOf p.name <;> simp
    · rw [if_neg hp, ih]
      have hne : p.name ≠ name := by
        intro h; rw [h] at hp; exact hp (by simp)
      simp only [longOptionFor, List.find?_cons, hne, decide_false, List.filter_cons, hp]
      simp

/-! ### Values of options -/

theorem init_valid (fl : Floats F) (rl : Bool) : ValidOptions (Opts.init fl rl) := by
  refine ⟨?_, ?_, ?_, ?_⟩
  · intro v hv
    left
    have : v ≠ .jobSlots ∧ v ≠ .useReadline := by
      revert v; decide
    simp [Opts.init, this]
  · simp [Opts.init]
  · intro v x h; simp [Opts.init] at h
  · intro v x h; simp [Opts.init] at h

theorem table_vars : ∀ cs ∈ switches, cs.type = .flag ∨ cs.type = .flagOff → cs.var ≠ .jobSlots := by decide +kernel
theorem table_jobs : ∀ cs ∈ switches, cs.type = .positiveInt → cs.var ∉ sentFlags := by decide +kernel
theorem table_noarg : ∀ cs ∈ switches, (cs.type = .string ∨ cs.type = .strlist ∨ cs.type = .filename) → cs.hasArg ≠ .required →
    ∃ a ∈ [some (.str "callgrind".toList), some (.str "target".toList), some (.str "normal".toList), some (.str "basic".toList),
      some (.str "preaction".toList)], cs.noarg = a := by decide +kernel
theorem table_alias : ∀ p ∈ longOptions, p.hasArg ≠ .required → ∀ cs ∈ switches, cs.c = p.val → cs.hasArg ≠ .required := by
  decide +kernel
theorem table_same : ∀ cs ∈ switches, ∀ cs' ∈ switches, cs.c = cs'.c → cs = cs' := by decide +kernel

theorem findLong_mem {name : Str} {opts : List LongOpt} {p : LongOpt} (h : findLong name opts none false = .found p) : p ∈ opts := by
  rw [findLong_none] at h
  unfold longOptionFor at h
  split at h
  · rename_i q hq
    cases h
    exact List.mem_of_find?_eq_some hq
  · split at h
    · cases h
    · rename_i q hq
      cases h
      have : p ∈ opts.filter (fun p => name.isPrefixOf p.name) := by rw [hq]; simp
      exact (List.mem_filter.1 this).1
    · cases h

/-- An option that needs an argument gets one. -/
theorem getoptLong_arg {e : Bool} {t : Str} {ws : List Str} {c : Nat} {cur : Str} {ws' : List Str}
    (h : getoptLong e t ws = (.opt c none, cur, ws')) : ∀ cs ∈ switches, cs.c = c → cs.hasArg ≠ .required := by
  unfold getoptLong at h
  simp only at h
  split at h
  · cases h
  · cases h
  · rename_i p hp
    have hm := findLong_mem hp
    have key : p.hasArg ≠ .required → c = p.val → ∀ cs ∈ switches, cs.c = c → cs.hasArg ≠ .required := by
      rintro h1 rfl cs h2 h3
      exact table_alias p hm h1 cs h2 h3
    split at h
    · split at h
      · rename_i hn
        split at h
        · cases h
        · cases h; exact key (by simp [hn]) rfl
      · cases h
    · split at h
      · split at h <;> cases h
      · rename_i hn; cases h; exact key hn rfl

theorem getoptShort_arg {i : Bool} {ch : Char} {r : Str} {ws : List Str} {c : Nat} {cur : Str} {ws' : List Str}
    (h : getoptShort i ch r ws = (.opt c none, cur, ws')) : ∀ cs ∈ switches, cs.c = c → cs.hasArg ≠ .required := by
  unfold getoptShort at h
  split at h
  · split at h
    · cases h
      have : ∀ cs ∈ switches, cs.c ≠ '-'.toNat := by decide +kernel
      exact fun cs h1 h2 => absurd h2 (this cs h1)
    · cases h
  · split at h
    · cases h
    · rename_i cs0 hf
      have hm := List.mem_of_find?_eq_some hf
      have key : cs0.hasArg ≠ .required → c = cs0.c → ∀ cs ∈ switches, cs.c = c → cs.hasArg ≠ .required := by
        rintro h1 rfl cs h2 h3
        rw [table_same cs h2 cs0 hm h3]; exact h1
      split at h
      · rename_i hn; cases h; exact key (by simp [hn]) rfl
      · rename_i hn
        split at h
        · cases h; exact key (by simp [hn]) rfl
        · cases h
      · split at h
        · cases h
        · split at h <;> cases h

theorem getopt_arg {e i : Bool} {cur0 : Str} {ws : List Str} {c : Nat} {cur : Str} {ws' : List Str}
    (h : getopt e i cur0 ws = (.opt c none, cur, ws')) : ∀ cs ∈ switches, cs.c = c → cs.hasArg ≠ .required := by
  unfold getopt at h
  split at h
  · exact getoptShort_arg h
  · split at h
    · cases h
    · split at h
      · cases h
      · exact getoptLong_arg h
      · exact getoptShort_arg h
      · cases h

theorem expandFile_ne (tilde : Str → Option Str) (x : Str) : expandFile tilde x ≠ [] := by
  unfold expandFile
  simp only
  generalize stripDotSlash _ = y
  intro h
  split at h
  · simp at h
  · rename_i hn; exact hn h

theorem setNum_valid {s : Opts F} (h : ValidOptions s) {v : OptVar} {n : Int} (h1 : v ∈ sentFlags → n = 0 ∨ n = 1)
    (h2 : v = .jobSlots → -1 ≤ n ∧ n < 2 ^ 31) : ValidOptions (s.setNum v n) := by
  refine ⟨?_, ?_, h.strings, h.lists⟩
  · intro w hw
    simp only [Opts.setNum]
    split
    · rename_i e; subst e; exact h1 hw
    · exact h.flags w hw
  · simp only [Opts.setNum]
    split
    · rename_i e; exact h2 e.symm
    · exact h.jobs

theorem setStr_valid {s : Opts F} (h : ValidOptions s) {v : OptVar} {x : Str} (hx : x ≠ []) : ValidOptions (s.setStr v x) := by
  refine ⟨h.flags, h.jobs, ?_, h.lists⟩
  intro w y hy
  simp only [Opts.setStr] at hy
  split at hy
  · cases hy; exact hx
  · exact h.strings w y hy

theorem addStr_valid {s : Opts F} (h : ValidOptions s) {v : OptVar} {x : Str} (hx : x ≠ []) : ValidOptions (s.addStr v x) := by
  refine ⟨h.flags, h.jobs, h.strings, ?_⟩
  intro w y hy
  simp only [Opts.addStr] at hy
  split at hy
  · rcases List.mem_append.1 hy with hy | hy
    · exact h.lists w y hy
    · simp at hy; subst hy; exact hx
  · exact h.lists w y hy

theorem atoi_lt (a : Str) : atoi a < 2 ^ 31 := by
  unfold atoi
  simp only
  have h : ∀ x : Int, Int.bmod x (2 ^ 32) < 2 ^ 31 := by
    intro x
    have := Int.bmod_lt (x := x) (m := 2 ^ 32) (by omega)
    omega
  exact h _

theorem storeString_valid (tilde : Str → Option Str) {cs : Switch} (hcs : cs ∈ switches)
    (ht : cs.type = .string ∨ cs.type = .strlist ∨ cs.type = .filename) {o : Option Str}
    (ho : o = none → cs.hasArg ≠ .required) {d : Decoded F} (h : ValidOptions d.opts) :
    ValidOptions (storeString tilde cs o d).opts := by
  unfold storeString
  simp only
  split
  · exact h
  · rename_i hne
    have ha : o.getD (match cs.noarg with
        | some (.str a) => a
        | _ => []) ≠ [] := by
      cases o with
      | some a => simpa using hne
      | none =>
        obtain ⟨a, ha, hb⟩ := table_noarg cs hcs ht (ho rfl)
        rw [hb]
        simp only [List.mem_cons, List.not_mem_nil, or_false] at ha
        rcases ha with rfl | rfl | rfl | rfl | rfl <;> simp
    split
    · exact setStr_valid h ha
    · split
      · exact addStr_valid h (expandFile_ne _ _)
      · exact addStr_valid h ha

theorem applyOpt_valid (fl : Floats F) (tilde : Str → Option Str) (env : Bool) {c : Nat} {o : Option Str} (ws : List Str)
    (ho : o = none → ∀ cs ∈ switches, cs.c = c → cs.hasArg ≠ .required) {d : Decoded F} (h : ValidOptions d.opts) :
    ValidOptions (applyOpt fl tilde env c o ws d).1.opts := by
  unfold applyOpt
  split
  · exact h
  · rename_i cs hf
    have hm := List.mem_of_find?_eq_some hf
    have hc : cs.c = c := by simpa using List.find?_some hf
    have ho' : o = none → cs.hasArg ≠ .required := fun hn => ho hn cs hm hc
    unfold applySwitch
    simp only
    split
    · exact h
    · rename_i ht
      simp only
      split
      · exact setNum_valid h (fun _ => Or.inr rfl) (fun e => absurd e (table_vars cs hm (Or.inl ht)))
      · exact h
    · rename_i ht
      simp only
      split
      · exact setNum_valid h (fun _ => Or.inl rfl) (fun e => absurd e (table_vars cs hm (Or.inr ht)))
      · exact h
    · rename_i ht
      simp only
      split
      · exact storeString_valid tilde hm (by simp [ht]) ho' h
      · exact h
    · rename_i ht
      simp only
      split
      · exact storeString_valid tilde hm (by simp [ht]) ho' h
      · exact h
    · rename_i ht
      simp only
      split
      · exact storeString_valid tilde hm (by simp [ht]) ho' h
      · exact h
    · rename_i ht
      simp only
      split
      · unfold storeNumber
        split
        · split
          · exact h
          · rename_i a _ hneg
            refine setNum_valid h (fun hx => absurd hx (table_jobs cs hm ht)) (fun _ => ⟨by omega, atoi_lt a⟩)
        · have := table_numbers cs hm ht
          rw [this.2.1]
          exact setNum_valid h (fun hx => absurd hx (table_jobs cs hm ht)) (fun _ => ⟨by omega, by omega⟩)
      · exact h
    · simp only
      split
      · exact ⟨h.flags, h.jobs, h.strings, h.lists⟩
      · exact h

theorem decodeLoop_valid (fl : Floats F) (tilde : Str → Option Str) (env i : Bool) (cur : Str) (ws : List Str) (d : Decoded F)
    (h : ValidOptions d.opts) : ValidOptions (decodeLoop fl tilde env i cur ws d).opts := by
  induction hn : wordsSize cur ws using Nat.strongRecOn generalizing i cur ws d with
  | ind n ih =>
    subst hn
    rw [decodeLoop.eq_def]
    split
    · exact h
    · rename_i h0
      have hlt := getopt_lt (!env) i cur ws h0
      split
      · exact h
      · rename_i hg
        rw [hg] at hlt
        exact ih _ hlt _ _ _ _ (by exact h) rfl
      · rename_i hg
        rw [hg] at hlt
        exact ih _ hlt _ _ _ _ (by exact h) rfl
      · rename_i c a cur' ws' hg
        rw [hg] at hlt
        refine ih _ ?_ _ _ _ _ (applyOpt_valid fl tilde env ws' ?_ h) rfl
        · have := wordsSize_suffix (applyOpt_ws fl tilde env c a ws' d)
          simp only [wordsSize] at *; omega
        · rintro rfl
          exact getopt_arg hg

/-! ### Definitions -/

theorem plain_nameText {n : Str} (h : ∀ c ∈ n, c ≠ '$' ∧ c ≠ '#' ∧ c ≠ ':' ∧ c ≠ '=' ∧ c ≠ '+' ∧ c ≠ '?' ∧ c ≠ '!' ∧ isSpace c = false)
    (rest : Str) : NameText n rest := by
  induction n with
  | nil => exact .nil
  | cons c n ih =>
    obtain ⟨h1, h2, h3, h4, h5, h6, h7, h8⟩ := h c (by simp)
    refine .char h1 h2 h3 ?_ ?_ (ih (fun x hx => h x (by simp [hx])))
    · cases hb : isBlank c with
      | false => rfl
      | true =>
        exfalso
        have : isSpace c = true := by
          simp only [isBlank, Bool.or_eq_true, beq_iff_eq, decide_eq_true_eq] at hb
          rcases hb with rfl | rfl <;> decide
        rw [this] at h8; cases h8
    · rintro ⟨op, f, r, ho, he⟩
      cases ho <;> simp at he <;> simp_all

end Remake
