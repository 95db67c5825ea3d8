import Verif.Flags.Lemmas3
/-!
# The options the child has at the end
-/
set_option linter.unusedVariables false
set_option linter.unusedSimpArgs false
namespace Remake
open Remake.Spec

variable {F : Type}

/-- The same values for an option. -/
def Agree (v : OptVar) (a b : Opts F) : Prop :=
  a.num v = b.num v ∧ a.str v = b.str v ∧ a.lst v = b.lst v ∧ (v = .maxLoad → a.load = b.load)

theorem Agree.refl (v : OptVar) (a : Opts F) : Agree v a a := ⟨rfl, rfl, rfl, fun _ => rfl⟩

theorem table_load : ∀ cs ∈ switches, cs.type = .floating → cs.var = .maxLoad := by decide +kernel

theorem sendOne_other (fl : Floats F) (tilde : Str → Option Str) {v : OptVar} (o : Opts F) {f : Switch × Option Str}
    (hf : f.1 ∈ switches) (h : f.1.var ≠ v) : Agree v (sendOne fl tilde o f) o := by
  have hl := table_load f.1 hf
  unfold sendOne
  split <;> (try split) <;> (try split) <;> refine ⟨?_, ?_, ?_, ?_⟩ <;>
    simp_all [Opts.setNum, Opts.setStr, Opts.addStr, Ne.symm h]
  all_goals (intro hv; exact absurd hv.symm h)

theorem sendOne_congr (fl : Floats F) (tilde : Str → Option Str) {v : OptVar} {o o' : Opts F} (f : Switch × Option Str)
    (h : Agree v o o') : Agree v (sendOne fl tilde o f) (sendOne fl tilde o' f) := by
  obtain ⟨h1, h2, h3, h4⟩ := h
  unfold sendOne
  split <;> (try split) <;> (try split) <;> refine ⟨?_, ?_, ?_, ?_⟩ <;>
    (try simp only [Opts.setNum, Opts.setStr, Opts.addStr, h1, h2, h3]) <;> (try exact h4) <;> (try split) <;> simp_all

theorem Agree.trans {v : OptVar} {a b c : Opts F} (h1 : Agree v a b) (h2 : Agree v b c) : Agree v a c :=
  ⟨h1.1.trans h2.1, h1.2.1.trans h2.2.1, h1.2.2.1.trans h2.2.2.1, fun h => (h1.2.2.2 h).trans (h2.2.2.2 h)⟩

theorem foldl_filter (fl : Floats F) (tilde : Str → Option Str) (v : OptVar) (l : List (Switch × Option Str))
    (hl : ∀ f ∈ l, f.1 ∈ switches) {o o' : Opts F} (h : Agree v o o') :
    Agree v (l.foldl (sendOne fl tilde) o) ((l.filter fun f => decide (f.1.var = v)).foldl (sendOne fl tilde) o') := by
  induction l generalizing o o' with
  | nil => exact h
  | cons f l ih =>
    simp only [List.foldl_cons, List.filter_cons]
    by_cases hv : f.1.var = v
    · rw [if_pos (by simp [hv])]
      exact ih (fun g hg => hl g (by simp [hg])) (sendOne_congr fl tilde f h)
    · rw [if_neg (by simp [hv])]
      exact ih (fun g hg => hl g (by simp [hg])) ((sendOne_other fl tilde o (hl f (by simp)) hv).trans h)

theorem filter_flatMap' {α β : Type} (l : List α) (g : α → List β) (p : β → Bool) (q : α → Bool) (h : ∀ a ∈ l, ∀ b ∈ g a, p b = q a) :
    (l.flatMap g).filter p = (l.filter q).flatMap g := by
  induction l with
  | nil => rfl
  | cons a l ih =>
    simp only [List.flatMap_cons, List.filter_append, List.filter_cons]
    rw [ih (fun b hb => h b (by simp [hb]))]
    cases hq : q a with
    | true =>
      simp only [if_true, List.flatMap_cons]
      rw [List.filter_eq_self.2 (fun b hb => by rw [h a (by simp) b hb, hq])]
    | false =>
      simp only [Bool.false_eq_true, if_false]
      rw [List.filter_eq_nil_iff.2 (fun b hb => by rw [h a (by simp) b hb, hq]; simp)]
      rfl

/-- The switches of an option variable that are sent. -/
def sentFor (v : OptVar) : List Switch := switches.filter fun cs => cs.toenv && decide (cs.var = v)

theorem flagList_for (fl : Floats F) (s : Opts F) (v : OptVar) :
    (flagList fl s true false).filter (fun f => decide (f.1.var = v)) =
      (sentFor v).flatMap fun cs => (flagArgs fl s true cs).map fun a => (cs, a) := by
  unfold flagList
  rw [filter_flatMap' _ _ _ (fun cs => decide (cs.var = v)) (by
    intro cs _ f hf
    obtain ⟨a, _, rfl⟩ := List.mem_map.1 hf
    rfl), List.filter_filter]
  simp only [Bool.not_false, Bool.true_or, Bool.and_true]
  unfold sentFor
  congr 2
  funext cs
  rw [Bool.and_comm]

theorem flagList_mem (fl : Floats F) (s : Opts F) (mk : Bool) : ∀ f ∈ flagList fl s true mk,
    f.1 ∈ switches ∧ f.1.toenv = true ∧ f.2 ∈ flagArgs fl s true f.1 := by
  intro f hf
  unfold flagList at hf
  obtain ⟨cs, hcs, hf⟩ := List.mem_flatMap.1 hf
  obtain ⟨a, ha, rfl⟩ := List.mem_map.1 hf
  have := List.mem_filter.1 hcs
  simp only [Bool.and_eq_true] at this
  exact ⟨this.1, this.2.1, ha⟩

theorem final_for (fl : Floats F) (tilde : Str → Option Str) (s o : Opts F) (v : OptVar) :
    Agree v ((flagList fl s true false).foldl (sendOne fl tilde) o)
      (((sentFor v).flatMap fun cs => (flagArgs fl s true cs).map fun a => (cs, a)).foldl (sendOne fl tilde) o) := by
  rw [← flagList_for]
  exact foldl_filter fl tilde v _ (fun f hf => (flagList_mem fl s false f hf).1) (Agree.refl v o)

/-! ### Flags -/

theorem sent_flags : ∀ v ∈ sentFlags, ∃ a ∈ switches, (a.type = .flag ∧ a.var = v ∧ a.c ≠ 'X'.toNat ∧ (a.dflt = none ∨ a.dflt = some (.num 0))) ∧
    (sentFor v = [a] ∨ ∃ b ∈ switches, sentFor v = [a, b] ∧ b.type = .flagOff ∧ b.dflt = some (.num 0)) := by decide +kernel

theorem final_flag (fl : Floats F) (tilde : Str → Option Str) (s o : Opts F) {v : OptVar} (hv : v ∈ sentFlags)
    (hs : s.num v = 0 ∨ s.num v = 1) (ho : o.num v = 0) :
    ((flagList fl s true false).foldl (sendOne fl tilde) o).num v = s.num v := by
  rw [(final_for fl tilde s o v).1]
  obtain ⟨a, ha, ⟨h1, h2, h3, h4⟩, h5⟩ := sent_flags v hv
  have hb : ∀ b ∈ sentFor v, b.var = v := by
    intro b hb
    have := (List.mem_filter.1 hb).2
    simp only [Bool.and_eq_true, decide_eq_true_eq] at this
    exact this.2
  rcases hs with hs | hs
  · have e1 : flagArgs fl s true a = [] := by simp [flagArgs, h1, h2, hs]
    rcases h5 with h5 | ⟨b, _, h5, h6, h7⟩
    · rw [h5]; simp [e1, ho, hs]
    · have e2 : flagArgs fl s true b = [] := by
        have := hb b (by rw [h5]; simp)
        simp [flagArgs, h6, h7, this, hs]
      rw [h5]; simp [e1, e2, ho, hs]
  · have e1 : flagArgs fl s true a = [none] := by
      have : a.dflt = none ∨ a.dflt ≠ some (.num 1) := by
        rcases h4 with h4 | h4 <;> simp [h4]
      unfold flagArgs
      simp only [h1, h2, hs]
      rw [if_pos ⟨by decide, this⟩, if_pos h3]
    rcases h5 with h5 | ⟨b, _, h5, h6, h7⟩
    · rw [h5]; simp [e1, sendOne, h1, h2, Opts.setNum, hs]
    · have e2 : flagArgs fl s true b = [] := by
        have := hb b (by rw [h5]; simp)
        simp [flagArgs, h6, h7, this, hs]
      rw [h5]; simp [e1, e2, sendOne, h1, h2, Opts.setNum, hs]

/-! ### The number of jobs -/

theorem fmtU_pos {n : Int} (h1 : 1 ≤ n) (h2 : n < 2 ^ 31) :
    fmtU n ≠ [] ∧ (fmtU n).all isDigitC = true ∧ atoi (fmtU n) = n := by
  have hn : (n % 2 ^ 32).toNat = n.toNat := by
    rw [Int.emod_eq_of_lt (by omega) (by omega)]
  have hnum : IsNumeral (fmtU n) n.toNat := by
    refine ⟨[], 0, [], ?_, rfl, rfl⟩
    rw [fmtU, hn, numeral_eq]; simp
  obtain ⟨a, ds, b, e, ha, hb, hne, hd, _⟩ := isNumeral_digits hnum
  refine ⟨?_, ?_, ?_⟩
  · rw [e]; simp [hne]
  · rw [fmtU]
    rw [List.all_eq_true]
    intro c hc
    have := Nat.isDigit_of_mem_toDigits (by decide) (by decide) hc
    simp only [Char.isDigit, Bool.and_eq_true, decide_eq_true_eq] at this
    simp only [isDigitC, Bool.and_eq_true, decide_eq_true_eq]
    exact ⟨this.1, this.2⟩
  · rw [atoi_numeral hnum (by omega)]; omega

theorem sent_jobs : sentFor .jobSlots = [⟨'j'.toNat, .positiveInt, .jobSlots, true, true, false, some (.num 0), some (.num (-1)), "jobs".toList⟩] := by
  decide +kernel

theorem final_jobs (fl : Floats F) (tilde : Str → Option Str) (s o : Opts F)
    (hs : -1 ≤ s.num .jobSlots ∧ s.num .jobSlots < 2 ^ 31) (ho : o.num .jobSlots = -1) :
    ((flagList fl s true false).foldl (sendOne fl tilde) o).num .jobSlots = s.num .jobSlots := by
  rw [(final_for fl tilde s o .jobSlots).1, sent_jobs]
  by_cases h1 : s.num .jobSlots = -1
  · simp [flagArgs, h1, ho]
  · by_cases h0 : s.num .jobSlots = 0
    · simp [flagArgs, h0, sendOne, Opts.setNum]
    · obtain ⟨ha, hb, hc⟩ := fmtU_pos (n := s.num .jobSlots) (by omega) hs.2
      simp [flagArgs, Ne.symm h0, Ne.symm h1, sendOne, Opts.setNum, ha, hc]

/-! ### The load average -/

theorem sent_load : sentFor .maxLoad = [⟨'l'.toNat, .floating, .maxLoad, true, true, false, some .load, some .load, "load-average".toList⟩] := by
  decide +kernel

theorem final_load (fl : Floats F) (tilde : Str → Option Str) (s o : Opts F) (hp : Portable fl tilde s) (ho : o.load = fl.dflt) :
    ((flagList fl s true false).foldl (sendOne fl tilde) o).load = s.load := by
  rw [(final_for fl tilde s o .maxLoad).2.2.2 rfl, sent_load]
  rcases hp.load with ⟨h1, h2⟩ | ⟨h1, h2, h3, h4⟩
  · simp [flagArgs, h1, ho]; exact h2.symm
  · simp [flagArgs, h1, sendOne, h4]

/-! ### Strings and lists -/

theorem sent_strings : ∀ v ∈ sentStrings, ∃ a ∈ switches, sentFor v = [a] ∧ a.type = .string ∧ a.var = v := by decide +kernel

theorem final_string (fl : Floats F) (tilde : Str → Option Str) (s o : Opts F) {v : OptVar} (hv : v ∈ sentStrings)
    (ho : o.str v = none) : ((flagList fl s true false).foldl (sendOne fl tilde) o).str v = s.str v := by
  rw [(final_for fl tilde s o v).2.1]
  obtain ⟨a, _, h1, h2, h3⟩ := sent_strings v hv
  rw [h1]
  cases hs : s.str v with
  | none => simp [flagArgs, h2, h3, hs, ho]
  | some x => simp [flagArgs, h2, h3, hs, sendOne, Opts.setStr]

theorem sent_lists : ∀ v ∈ sentLists ++ sentFiles, ∃ a ∈ switches, sentFor v = [a] ∧ a.var = v ∧
    (a.type = .strlist ∨ a.type = .filename ∧ v ∈ sentFiles) := by decide +kernel

theorem final_list (fl : Floats F) (tilde : Str → Option Str) (s o : Opts F) {v : OptVar} (hv : v ∈ sentLists ++ sentFiles)
    (hp : Portable fl tilde s) (ho : o.lst v = []) :
    ((flagList fl s true false).foldl (sendOne fl tilde) o).lst v = s.lst v := by
  rw [(final_for fl tilde s o v).2.2.1]
  obtain ⟨a, _, h1, h3, h2⟩ := sent_lists v hv
  rw [h1]
  have harg : flagArgs fl s true a = (s.lst v).map some := by
    rcases h2 with h2 | h2
    · simp [flagArgs, h2, h3]
    · simp [flagArgs, h2.1, h3]
  simp only [List.flatMap_cons, List.flatMap_nil, List.append_nil, harg, List.map_map]
  have hx : ∀ x ∈ s.lst v, ∀ o : Opts F, (sendOne fl tilde o (a, some x)).lst v = o.lst v ++ [x] := by
    intro x hx o
    rcases h2 with h2 | ⟨h2, h4⟩
    · simp [sendOne, h2, h3, Opts.addStr]
    · simp [sendOne, h2, h3, Opts.addStr, hp.files v h4 x hx]
  generalize s.lst v = L at hx
  have : ∀ o : Opts F, ((L.map (fun x => (a, some x))).foldl (sendOne fl tilde) o).lst v = o.lst v ++ L := by
    induction L with
    | nil => simp
    | cons x L ih =>
      intro o
      simp only [List.map_cons, List.foldl_cons]
      rw [ih (fun y hy => hx y (by simp [hy])), hx x (by simp)]
      simp
  have := this o
  rw [ho, List.nil_append] at this
  exact this

/-! ### All flags are well formed -/

theorem table_numbers : ∀ cs ∈ switches, cs.type = .positiveInt → cs.var = .jobSlots ∧ cs.noarg = some (.num 0) ∧ cs.dflt = some (.num (-1)) := by
  decide +kernel
theorem table_loads : ∀ cs ∈ switches, cs.type = .floating → cs.dflt.isSome = true := by decide +kernel

theorem flagArgs_ok (fl : Floats F) (tilde : Str → Option Str) {s : Opts F} (hv : ValidOptions s) (hp : Portable fl tilde s) {f : Switch × Option Str}
    (h1 : f.1 ∈ switches) (h2 : f.1.toenv = true) (h3 : f.2 ∈ flagArgs fl s true f.1) : FlagOk f := by
  obtain ⟨cs, o⟩ := f
  simp only at h1 h2 h3
  refine ⟨h1, table_env cs h1 h2, ?_⟩
  unfold flagArgs at h3
  cases ht : cs.type <;> simp only [ht, Bool.not_true, Bool.false_eq_true, if_false] at h3
  · split at h3
    · split at h3
      · simp at h3; subst h3; exact Or.inl rfl
      · simp at h3
    · simp at h3
  · split at h3
    · split at h3
      · simp at h3; subst h3; exact Or.inr rfl
      · simp at h3
    · simp at h3
  · split at h3
    · simp at h3
    · rename_i p hp
      simp at h3; subst h3
      exact Or.inl ⟨hv.strings _ _ hp, Or.inl rfl⟩
  · obtain ⟨x, hx, rfl⟩ := List.mem_map.1 h3
    exact Or.inl ⟨hv.lists _ _ hx, Or.inr (Or.inl rfl)⟩
  · obtain ⟨x, hx, rfl⟩ := List.mem_map.1 h3
    exact Or.inl ⟨hv.lists _ _ hx, Or.inr (Or.inr (Or.inl rfl))⟩
  · obtain ⟨e1, e2, e3⟩ := table_numbers cs h1 ht
    rw [e1, e2, e3] at h3
    split at h3
    · simp at h3
    · rename_i hd
      split at h3
      · simp at h3; subst h3
        exact Or.inr (Or.inr ⟨rfl, rfl, 0, e2⟩)
      · rename_i hn
        simp at h3; subst h3
        have hd' : s.num .jobSlots ≠ -1 := fun h => hd (by rw [h])
        have hn' : s.num .jobSlots ≠ 0 := fun h => hn (by rw [h])
        obtain ⟨a, b, c⟩ := fmtU_pos (n := s.num .jobSlots) (by have := hv.jobs; omega) hv.jobs.2
        exact Or.inr (Or.inl ⟨a, rfl, by rw [c]; have := hv.jobs; omega, b⟩)
  · rw [table_loads cs h1 ht] at h3
    rcases hp.load with ⟨e1, e2⟩ | ⟨e1, e2, e3, e4⟩
    · simp [e1] at h3
    · simp [e1] at h3; subst h3
      exact Or.inl ⟨e2, Or.inr (Or.inr (Or.inr rfl))⟩
  · simp at h3

theorem table_strings : ∀ cs ∈ switches, cs.toenv = true → (cs.type = .string → cs.var ∈ sentStrings) ∧
    (cs.type = .strlist ∨ cs.type = .filename → cs.var ∈ sentLists ++ sentFiles) := by decide +kernel

theorem digits_dollar {a : Str} (h : a.all isDigitC = true) : '$' ∉ a := by
  intro hm
  have := List.all_eq_true.1 h _ hm
  simp [isDigitC] at this

theorem flagArgs_dollar (fl : Floats F) (tilde : Str → Option Str) {s : Opts F} (hv : ValidOptions s) (hp : Portable fl tilde s) {f : Switch × Option Str}
    (h1 : f.1 ∈ switches) (h2 : f.1.toenv = true) (h3 : f.2 ∈ flagArgs fl s true f.1) : ∀ a, f.2 = some a → '$' ∉ a := by
  have hok := flagArgs_ok fl tilde hv hp h1 h2 h3
  obtain ⟨cs, o⟩ := f
  simp only at h1 h2 h3
  rintro a ⟨⟩
  obtain ⟨hs, hl⟩ := table_strings cs h1 h2
  have h5 := hok.2.2
  simp only at h5
  rcases h5 with ⟨ha, h5 | h5 | h5 | h5⟩ | ⟨_, _, _, h5⟩ | ⟨rfl, _⟩
  · simp only [flagArgs, h5, Bool.not_true, Bool.false_eq_true, if_false] at h3
    split at h3
    · simp at h3
    · rename_i p hp'
      simp at h3; subst h3
      exact hp.strings _ (hs h5) _ hp'
  · simp only [flagArgs, h5, Bool.not_true, Bool.false_eq_true, if_false] at h3
    simp only [List.mem_map, Option.some.injEq, exists_eq_right] at h3
    exact hp.lists _ (hl (Or.inl h5)) _ h3
  · simp only [flagArgs, h5, Bool.not_true, Bool.false_eq_true, if_false] at h3
    simp only [List.mem_map, Option.some.injEq, exists_eq_right] at h3
    exact hp.lists _ (hl (Or.inr h5)) _ h3
  · simp only [flagArgs, h5, Bool.not_true, Bool.false_eq_true, if_false] at h3
    rw [table_loads cs h1 h5] at h3
    rcases hp.load with ⟨e1, e2⟩ | ⟨e1, e2, e3, e4⟩
    · simp [e1] at h3
    · simp [e1] at h3; subst h3
      exact e3
  · exact digits_dollar h5
  · simp

theorem quote_dollar {a : Str} (h : '$' ∉ a) : '$' ∉ quoteForEnv a := by
  rw [quoteForEnv_eq h]
  induction a with
  | nil => simp [escapeBlanks]
  | cons c a ih =>
    simp only [List.mem_cons, not_or] at h
    simp only [escapeBlanks]
    split <;> simp [h.1, ih h.2]

theorem body_dollar {l : List (Switch × Option Str)} (hl : ∀ f ∈ l, f.1 ∈ switches) (hd : ∀ f ∈ l, ∀ a, f.2 = some a → '$' ∉ a) :
    '$' ∉ flagsBody l := by
  unfold flagsBody
  rw [List.mem_append, not_or]
  constructor
  · intro hm
    obtain ⟨f, hf, he⟩ := List.mem_map.1 hm
    have h1 := mem_takeWhile_imp hf
    simp only [isSimple, Bool.and_eq_true] at h1
    exact (table_letters _ (hl f ((List.takeWhile_sublist _).subset hf)) h1.2).1.1 he
  · intro hm
    obtain ⟨f, hf, he⟩ := List.mem_flatMap.1 hm
    have hf' := (List.dropWhile_sublist _).subset hf
    have h1 := hl f hf'
    have h2 := hd f hf'
    unfold flagText at he
    simp only [List.cons_append, List.mem_cons, List.mem_append] at he
    rcases he with he | he | he | he
    · exact absurd he (by decide)
    · exact absurd he (by decide)
    · split at he
      · rename_i hs
        exact (table_letters _ h1 hs).1.1 (List.mem_singleton.1 he).symm
      · rcases List.mem_cons.1 he with he | he
        · exact absurd he (by decide)
        · exact (table_names _ h1 _ he).1 rfl
    · split at he
      · simp at he
      · rename_i a ha
        split at he
        · simp at he
        · rcases List.mem_append.1 he with he | he
          · split at he <;> simp at he
          · exact quote_dollar (h2 a ha) he

end Remake
