import Verif.Load.Lemmas2
import Verif.Expand.Lemmas
/-!
# Properties of `load` (C131)
-/
set_option linter.unusedVariables false
set_option linter.unusedSimpArgs false
namespace Remake
open Spec

/-! ## Helpers -/

/-- The functions a setup function adds, newest first. -/
def Spec.regFns (o : Option Nat) (as : List LdAct) : List (Str × Option Nat) :=
  (as.filterMap fun a => match a with
    | .reg nm _ _ => some (nm, o)
    | .load _ _ => none).reverse

/-- All it does is to add functions, with names and numbers that are allowed. -/
def Spec.OnlyAdds (as : List LdAct) : Prop := ∀ a ∈ as, ∃ name min max, a = .reg name min max ∧
  name ≠ [] ∧ name.length ≤ 255 ∧ (∀ c ∈ name, isAlnumC c = true ∨ c = '.' ∨ c = '-' ∨ c = '_') ∧ name.head? ≠ some '.' ∧
  min ≤ 255 ∧ max ≤ 255 ∧ (max = 0 ∨ min ≤ max)

theorem fnAllowed_iff {name : Str} {min max : Nat} : fnAllowed name min max = true ↔
    name ≠ [] ∧ name.length ≤ 255 ∧ (∀ c ∈ name, isAlnumC c = true ∨ c = '.' ∨ c = '-' ∨ c = '_') ∧ name.head? ≠ some '.' ∧
    min ≤ 255 ∧ max ≤ 255 ∧ (max = 0 ∨ min ≤ max) := by
  simp only [fnAllowed, Bool.and_eq_true, List.all_eq_true, isUserFunc, Bool.or_eq_true, beq_iff_eq, bne_iff_ne, decide_eq_true_eq]
  grind

theorem runActs_adds {load : LdSt → Bool → Str → LdOut LdSt} {o : Option Nat} : ∀ {as : List LdAct} {st : LdSt}, OnlyAdds as →
    runActs load o st as = .ok { st with fns := regFns o as ++ st.fns }
  | [], st, _ => rfl
  | a :: as, st, h => by
    obtain ⟨nm, mi, ma, rfl, h1⟩ := h a (by simp)
    unfold runActs
    rw [if_pos (fnAllowed_iff.2 h1), runActs_adds fun a ha => h a (by simp [ha])]
    simp [regFns]

theorem globalSym_none {env : DlEnv} {st : LdSt} {sym : Str} (h : SymFree env st sym) : globalSym env st sym = none := by
  unfold globalSym
  rw [if_neg (by simp [h.1])]
  have : (st.opened.find? fun o => env.syms o sym) = none := by
    rw [List.find?_eq_none]; intro o ho; simp [h.2 o ho]
  rw [this]; rfl

theorem openObj_eq {env : DlEnv} {obj : Str} {o : Nat} : openObj env obj = some o ↔ LdOpens env obj o := by
  unfold openObj LdOpens
  have e : "./".toList ++ obj = '.' :: '/' :: obj := rfl
  rw [e]
  by_cases h : '/' ∈ obj
  · rw [if_pos h]; simp [h]
  · rw [if_neg h]
    cases hf : env.find ('.' :: '/' :: obj) with
    | none => simp [h]
    | some x => simp [h]

theorem not_loaded {l : List Str} {obj : Str} (hl : ∀ b ∈ l, ' ' ∉ b) (hs : ' ' ∉ obj) (hne : obj ≠ []) (hm : obj ∉ l) :
    isLoaded (ldList l) obj = false := by
  rw [Bool.eq_false_iff]
  intro h
  obtain ⟨l1, l2, rfl, _⟩ := (isLoaded_iff hs hne hl).1 h
  exact hm (by simp)

theorem addLoaded_words {l : List Str} {obj : Str} (hl : ∀ b ∈ l, b ≠ []) : addLoaded (ldList l) obj = ldList (l ++ [obj]) := by
  apply addLoaded_ldList
  intro h
  cases l with
  | nil => rfl
  | cons a l =>
    have := hl a (by simp)
    cases l with
    | nil => exact absurd h this
    | cons b l => simp [ldList] at h

/-! ## Names -/

/-- A name on a `load` line either has an empty symbol, which is fatal, or it stands for exactly one object and one setup
function. -/
theorem C131_names (env : DlEnv) (n : Nat) (st : LdSt) (ne : Bool) (name : Str) :
    ((∃ obj, '(' ∉ obj ∧ name = obj ++ ['(', ')']) ∧ loadName env (n + 1) st ne name = .fatal (.emptySymbol name)) ∨
    ∃ obj sym, LoadName name obj sym ∧ ∀ obj' sym', LoadName name obj' sym' → obj' = obj ∧ sym' = sym := by
  cases h : splitLoad name with
  | none =>
    refine .inl ⟨splitLoad_none.1 h, ?_⟩
    simp [loadName, loadFile, h]
  | some p =>
    refine .inr ⟨p.1, p.2.getD (madeSym p.1), split_loadName h, fun obj' sym' h' => ?_⟩
    obtain ⟨s, h1, h2⟩ := loadName_split h'
    rw [h] at h1
    simp at h1
    subst h1
    exact ⟨rfl, h2.symm⟩

example : LoadName "lib/foo.so".toList "lib/foo.so".toList "foo_gmk_setup".toList :=
  .made ['l', 'i', 'b', '/'] ['f', 'o', 'o'] ['.', 's', 'o'] (by
    rintro ⟨obj, sym, _, _, h⟩
    have : '(' ∈ obj ++ '(' :: (sym ++ [')']) := by simp
    rw [← h] at this
    exact absurd this (by decide)) (by decide) (by decide) (by decide) (by decide) (by decide)

example : LoadName "lib/foo.so(start)".toList "lib/foo.so".toList "start".toList :=
  .given ['l', 'i', 'b', '/', 'f', 'o', 'o', '.', 's', 'o'] ['s', 't', 'a', 'r', 't'] (by decide) (by decide) (by decide)

/-- The buffer for the names is large enough for every name. -/
theorem C131_room (name : Str) (h : splitLoad name ≠ none) : newUsed name ≤ newSize name := by
  have hb : (madeSym name).length ≤ name.length + symExt.length := by
    unfold madeSym baseOf
    have h1 := (List.takeWhile_sublist isSymChar (l := (name.reverse.takeWhile (· != '/')).reverse)).length_le
    have h2 := (List.takeWhile_sublist (· != '/') (l := name.reverse)).length_le
    simp at h1 h2 ⊢
    omega
  have he : symExt.length = 10 := by decide
  unfold newUsed newSize
  split
  · rename_i obj sym hs
    have := split_loadName hs
    cases this with
    | given _ _ h1 h2 h3 => simp [he]; omega
    | made dir stem rest h1 h2 h3 h4 h5 h6 =>
      rw [splitLoad_plain h1] at hs
      simp at hs
  · omega

example : splitLoad "foo.so(x)".toList ≠ none ∧ newUsed "foo.so".toList = newSize "foo.so".toList - 3 := by decide

/-! ## What a load does -/

/-- What is done once the function is known. -/
theorem loadName_found {env : DlEnv} {n : Nat} {st st1 : LdSt} {ne : Bool} {name obj sym : Str} {o : Option Nat}
    (h : LoadName name obj sym) (hl : isLoaded st.value obj = false) (ho : loadObject env ne st obj sym = .ok (st1, some o))
    (ha : OnlyAdds (env.setup st1.calls o sym).1) :
    loadName env (n + 1) st ne name =
      let r := (env.setup st1.calls o sym).2
      let st2 : LdSt := { st1 with
        calls := st1.calls ++ [(o, sym)]
        fns := regFns o (env.setup st1.calls o sym).1 ++ st1.fns
        value := if r > 0 ∧ st1.pinned = false then addLoaded st.value obj else st1.value }
      if r = 0 ∧ ne = false then .fatal (.failed obj)
      else if r = -1 then .ok st2
      else .ok { st2 with todo := obj :: st2.todo } := by
  obtain ⟨s, h1, h2⟩ := loadName_split h
  unfold loadName loadFile
  rw [h1]
  simp only []
  rw [if_neg (by simp [hl]), h2, ho]
  simp only []
  unfold callSetup
  rw [runActs_adds ha]
  simp only []
  by_cases hr : (env.setup st1.calls o sym).2 > 0 ∧ st1.pinned = false
  · rw [if_pos hr, if_pos hr]
  · rw [if_neg hr, if_neg hr]

/-- An object that is not listed yet, whose setup function is not known under that name, is opened, its setup function called
once, and it is listed if the result is positive; a result of 0 is an error of `load`, and ignored by `-load`.  It is put on the
list of makefiles to remake unless the result is -1. -/
theorem C131_called_partial (env : DlEnv) (n : Nat) (st : LdSt) (ne : Bool) (name obj sym : Str) (l : List Str) (o : Nat)
    (h : LoadName name obj sym) (hobj : ' ' ∉ obj ∧ obj ≠ []) (hl : ∀ b ∈ l, ' ' ∉ b ∧ b ≠ []) (hv : st.value = ldList l)
    (hp : st.pinned = false) (hnew : obj ∉ l) (hfree : SymFree env st sym) (hopen : LdOpens env obj o)
    (hgpl : env.syms o "plugin_is_GPL_compatible".toList = true) (hsym : env.syms o sym = true)
    (ha : OnlyAdds (env.setup st.calls (some o) sym).1) (r : Int) (hr : r = (env.setup st.calls (some o) sym).2) :
    loadName env (n + 1) st ne name =
      if r = 0 ∧ ne = false then .fatal (.failed obj)
      else .ok { st with
        opened := st.opened ++ [o]
        table := (obj, some o) :: st.table
        calls := st.calls ++ [(some o, sym)]
        fns := regFns (some o) (env.setup st.calls (some o) sym).1 ++ st.fns
        value := if r > 0 then ldList (l ++ [obj]) else ldList l
        todo := if r = -1 then st.todo else obj :: st.todo } := by
  have hnl : isLoaded st.value obj = false := by
    rw [hv]; exact not_loaded (fun b hb => (hl b hb).1) hobj.1 hobj.2 hnew
  have ho : loadObject env ne st obj sym = .ok ({ st with
      opened := st.opened ++ [o]
      table := (obj, some o) :: st.table }, some (some o)) := by
    unfold loadObject
    rw [globalSym_none hfree, openObj_eq.2 hopen]
    simp only []
    rw [if_neg (by unfold gplSym; rw [hgpl]; decide), if_neg (by simp [hsym])]
  rw [loadName_found h hnl ho ha]
  simp only []
  rw [← hr]
  have hadd : addLoaded st.value obj = ldList (l ++ [obj]) := by
    rw [hv]; exact addLoaded_words fun b hb => (hl b hb).2
  by_cases h0 : r = 0 ∧ ne = false
  · rw [if_pos h0, if_pos h0]
  · rw [if_neg h0, if_neg h0]
    by_cases h1 : r = -1
    · subst h1
      simp [hv]
    · rw [if_neg h1]
      by_cases h2 : r > 0
      · simp [h1, h2, hp, hadd]
      · simp [h1, h2, hp, hv]

/-- A world with one object, `foo.so`. -/
def ldSample : DlEnv where
  find p := if p = "./foo.so".toList then some 7 else none
  syms o s := o == 7 && (s == "plugin_is_GPL_compatible".toList || s == "foo_gmk_setup".toList)
  own s := false
  setup _ _ _ := ([.reg "hello".toList 1 2], 1)

example : loadName ldSample 1 ldStart false "foo.so".toList =
    .ok ⟨"foo.so".toList, false, [7], [("foo.so".toList, some 7)], [(some 7, "foo_gmk_setup".toList)],
      [("hello".toList, some 7)], ["foo.so".toList], []⟩ := by decide

example : SymFree ldSample ldStart "foo_gmk_setup".toList ∧ LdOpens ldSample "foo.so".toList 7 ∧
    OnlyAdds (ldSample.setup [] (some 7) "foo_gmk_setup".toList).1 := by
  refine ⟨⟨rfl, by simp [ldStart]⟩, .inl ⟨by decide, rfl⟩, ?_⟩
  intro a ha
  have : a = .reg "hello".toList 1 2 := List.mem_singleton.1 ha
  subst this
  exact ⟨_, _, _, rfl, by decide, by decide, by decide, by decide, by decide, by decide, by decide⟩

/-- After every history of loads (and of remakes of objects) the calls of setup functions were made for names on the lines, in
order, and `.LOADED` names exactly the objects of the calls with a positive result, in that order.  Partial: setup functions do
not load objects themselves. -/
theorem C131_listed_partial (env : DlEnv) (hn : NoNesting env) (n : Nat) (es : List LdEv) (st : LdSt)
    (h : ldRun env n ldStart es = .ok st) :
    ∃ log : List LdCall, LogOk env [] log ∧ log.map (·.call) = st.calls ∧ (∀ c ∈ log, c.word ∈ lineNames es) ∧
      st.value = ldList ((log.filter fun c => decide (c.result > 0)).map (·.obj)) := by
  obtain ⟨log, hl⟩ := ldRun_log hn es [] ldStart st [] h ⟨trivial, rfl, rfl, rfl, fun _ => rfl, by simp⟩
  exact ⟨log, hl.ok, hl.calls, by simpa using hl.words, hl.value⟩

example : NoNesting ldSample ∧ ∃ st, ldRun ldSample 1 ldStart [.line false ["foo.so".toList], .line true ["bar.so".toList]] = .ok st ∧
    st.value = "foo.so".toList := by
  refine ⟨?_, _, rfl, by decide⟩
  intro h o s a ha
  exact ⟨_, _, _, List.mem_singleton.1 ha⟩

/-- An object that is listed is not loaded again, whatever symbol is given.  Partial: no name listed before it contains its
name. -/
theorem C131_once_partial (env : DlEnv) (n : Nat) (st : LdSt) (ne : Bool) (name obj sym : Str) (l1 l2 : List Str)
    (h : LoadName name obj sym) (hobj : ' ' ∉ obj ∧ obj ≠ []) (hl : ∀ b ∈ l1 ++ obj :: l2, ' ' ∉ b)
    (hv : st.value = ldList (l1 ++ obj :: l2)) (hin : ∀ b ∈ l1, ¬ obj <:+: b) :
    loadName env (n + 1) st ne name = .ok { st with todo := obj :: st.todo } := by
  obtain ⟨s, h1, h2⟩ := loadName_split h
  unfold loadName loadFile
  rw [h1]
  simp only []
  rw [if_pos (by rw [hv]; exact (isLoaded_iff hobj.1 hobj.2 hl).2 ⟨l1, l2, rfl, hin⟩)]
  simp

example : ∃ l1 l2 : List Str, "b.so a.so".toList = ldList (l1 ++ "a.so".toList :: l2) ∧ ∀ b ∈ l1, ¬ "a.so".toList <:+: b :=
  ⟨["b.so".toList], [], by decide, by decide⟩

/-- If a name listed before it contains its name, a listed object is taken for new: its setup function is called again and it is
listed twice.  (load.c 169-170 look at the first occurrence only.) -/
theorem C131_again (env : DlEnv) (n : Nat) (st : LdSt) (ne : Bool) (name obj sym : Str) (l1 l2 : List Str) (b : Str) (o : Nat)
    (h : LoadName name obj sym) (hobj : ' ' ∉ obj ∧ obj ≠ []) (hl : ∀ b ∈ l1 ++ obj :: l2, ' ' ∉ b ∧ b ≠ [])
    (hv : st.value = ldList (l1 ++ obj :: l2)) (hp : st.pinned = false) (hb : b ∈ l1) (hin : obj <:+: b) (hno : obj ∉ l1)
    (hown : env.own sym = false) (hopen : st.opened.find? (fun o => env.syms o sym) = some o)
    (ha : OnlyAdds (env.setup st.calls (some o) sym).1) (hr : (env.setup st.calls (some o) sym).2 > 0) :
    ∃ st', loadName env (n + 1) st ne name = .ok st' ∧ st'.calls = st.calls ++ [(some o, sym)] ∧
      st'.value = ldList (l1 ++ obj :: l2 ++ [obj]) := by
  have hnl : isLoaded st.value obj = false := by
    rw [hv, Bool.eq_false_iff]
    intro hi
    obtain ⟨m1, m2, e, hm⟩ := (isLoaded_iff hobj.1 hobj.2 fun b hb => (hl b hb).1).1 hi
    have hlen : l1 <+: m1 := by
      have p1 : l1 <+: m1 ++ obj :: m2 := by rw [← e]; exact List.prefix_append _ _
      by_cases hle : l1.length ≤ m1.length
      · exact List.prefix_of_prefix_length_le p1 (List.prefix_append _ _) hle
      · exfalso
        have p2 : m1 ++ [obj] <+: m1 ++ obj :: m2 := ⟨m2, by simp⟩
        have p3 := List.prefix_of_prefix_length_le p2 p1 (by simp; omega)
        exact hno (p3.subset (by simp))
    exact hm b (hlen.subset hb) hin
  have ho : loadObject env ne st obj sym = .ok (st, some (some o)) := by
    unfold loadObject globalSym
    rw [if_neg (by simp [hown]), hopen]
    rfl
  rw [loadName_found h hnl ho ha]
  simp only []
  rw [if_neg (by omega), if_neg (by omega)]
  refine ⟨_, rfl, rfl, ?_⟩
  simp only [hr, hp, and_self, if_true]
  rw [hv]
  exact addLoaded_words fun b hb => (hl b hb).2

/-- A world with `xa.so` and `a.so`. -/
def ldSample2 : DlEnv where
  find p := if p = "./xa.so".toList then some 1 else if p = "./a.so".toList then some 2 else none
  syms o s := s == "plugin_is_GPL_compatible".toList || (o == 1 && s == "xa_gmk_setup".toList) || (o == 2 && s == "a_gmk_setup".toList)
  own s := false
  setup _ _ _ := ([], 1)

example : ∃ st, ldRun ldSample2 1 ldStart [.line false ["xa.so".toList, "a.so".toList], .line false ["a.so".toList]] = .ok st ∧
    st.value = "xa.so a.so a.so".toList ∧
    st.calls = [(some 1, "xa_gmk_setup".toList), (some 2, "a_gmk_setup".toList), (some 2, "a_gmk_setup".toList)] :=
  ⟨_, rfl, by decide, by decide⟩

/-- If an object that is open, or make itself, defines the symbol, then the object on the line is not opened: the other's
function is called, and the object is listed all the same. -/
theorem C131_other (env : DlEnv) (n : Nat) (st : LdSt) (ne : Bool) (name obj sym : Str) (l : List Str) (o : Option Nat)
    (h : LoadName name obj sym) (hobj : ' ' ∉ obj ∧ obj ≠ []) (hl : ∀ b ∈ l, ' ' ∉ b ∧ b ≠ []) (hv : st.value = ldList l)
    (hp : st.pinned = false) (hnew : obj ∉ l)
    (ho : (env.own sym = true ∧ o = none) ∨ (env.own sym = false ∧ ∃ x, o = some x ∧ st.opened.find? (fun o => env.syms o sym) = some x))
    (ha : OnlyAdds (env.setup st.calls o sym).1) (hr : (env.setup st.calls o sym).2 > 0) :
    ∃ st', loadName env (n + 1) st ne name = .ok st' ∧ st'.opened = st.opened ∧ st'.table = st.table ∧
      st'.calls = st.calls ++ [(o, sym)] ∧ st'.value = ldList (l ++ [obj]) := by
  have hnl : isLoaded st.value obj = false := by
    rw [hv]; exact not_loaded (fun b hb => (hl b hb).1) hobj.1 hobj.2 hnew
  have ho : loadObject env ne st obj sym = .ok (st, some o) := by
    unfold loadObject globalSym
    rcases ho with ⟨h1, rfl⟩ | ⟨h1, x, rfl, h2⟩
    · rw [if_pos h1]
    · rw [if_neg (by simp [h1]), h2]; rfl
  rw [loadName_found h hnl ho ha]
  simp only []
  rw [if_neg (by omega), if_neg (by omega)]
  refine ⟨_, rfl, rfl, rfl, rfl, ?_⟩
  simp only [hr, hp, and_self, if_true]
  rw [hv]
  exact addLoaded_words fun b hb => (hl b hb).2

/-- A world with two objects of the same name in two directories. -/
def ldSample3 : DlEnv where
  find p := if p = "d/foo.so".toList then some 1 else if p = "e/foo.so".toList then some 2 else none
  syms o s := s == "plugin_is_GPL_compatible".toList || s == "foo_gmk_setup".toList
  own s := false
  setup _ _ _ := ([], 1)

example : ∃ st, ldRun ldSample3 1 ldStart [.line false ["d/foo.so".toList, "e/foo.so".toList]] = .ok st ∧
    st.value = "d/foo.so e/foo.so".toList ∧ st.opened = [1] ∧
    st.calls = [(some 1, "foo_gmk_setup".toList), (some 1, "foo_gmk_setup".toList)] :=
  ⟨_, rfl, by decide, by decide, by decide⟩

/-- An object that cannot be opened: an error of `load`; `-load` leaves everything as it was and puts the object on the list of
makefiles to remake. -/
theorem C131_missing (env : DlEnv) (n : Nat) (st : LdSt) (ne : Bool) (name obj sym : Str) (l : List Str)
    (h : LoadName name obj sym) (hobj : ' ' ∉ obj ∧ obj ≠ []) (hl : ∀ b ∈ l, ' ' ∉ b) (hv : st.value = ldList l)
    (hnew : obj ∉ l) (hfree : SymFree env st sym) (hopen : ∀ o, ¬ LdOpens env obj o) :
    loadName env (n + 1) st ne name = if ne then .ok { st with todo := obj :: st.todo } else .fatal (.failed obj) := by
  have hnl : isLoaded st.value obj = false := by
    rw [hv]; exact not_loaded hl hobj.1 hobj.2 hnew
  have hoo : openObj env obj = none := by
    cases ho : openObj env obj with
    | none => rfl
    | some o => exact absurd (openObj_eq.1 ho) (hopen o)
  obtain ⟨s, h1, h2⟩ := loadName_split h
  unfold loadName loadFile
  rw [h1]
  simp only []
  rw [if_neg (by simp [hnl]), h2]
  unfold loadObject
  rw [globalSym_none hfree, hoo]
  simp only []
  cases ne <;> simp

example : ∀ o, ¬ LdOpens ldSample "bar.so".toList o := by
  intro o h
  have h1 : ldSample.find "./bar.so".toList = none := by decide
  have h2 : ldSample.find "bar.so".toList = none := by decide
  rcases h with ⟨_, h⟩ | ⟨_, h⟩
  · have : ldSample.find "./bar.so".toList = some o := h
    rw [h1] at this; simp at this
  · rw [h2] at h; simp at h

/-- An object without the mark of a compatible licence, or without its setup function, stops make, even with `-load`. -/
theorem C131_refused (env : DlEnv) (n : Nat) (st : LdSt) (ne : Bool) (name obj sym : Str) (l : List Str) (o : Nat)
    (h : LoadName name obj sym) (hobj : ' ' ∉ obj ∧ obj ≠ []) (hl : ∀ b ∈ l, ' ' ∉ b) (hv : st.value = ldList l)
    (hnew : obj ∉ l) (hfree : SymFree env st sym) (hopen : LdOpens env obj o) :
    (env.syms o "plugin_is_GPL_compatible".toList = false → loadName env (n + 1) st ne name = .fatal (.notGpl obj)) ∧
    (env.syms o "plugin_is_GPL_compatible".toList = true → env.syms o sym = false →
      loadName env (n + 1) st ne name = .fatal (.noSymbol obj sym)) := by
  have hnl : isLoaded st.value obj = false := by
    rw [hv]; exact not_loaded hl hobj.1 hobj.2 hnew
  obtain ⟨s, h1, h2⟩ := loadName_split h
  unfold loadName loadFile
  rw [h1]
  simp only []
  rw [if_neg (by simp [hnl]), h2]
  unfold loadObject
  rw [globalSym_none hfree, openObj_eq.2 hopen]
  simp only []
  refine ⟨fun hg => ?_, fun hg hs => ?_⟩
  · rw [if_pos (by unfold gplSym; exact hg)]
  · rw [if_neg (by unfold gplSym; rw [hg]; decide), if_pos hs]

example : loadName ldSample 1 ldStart true "foo.so(start)".toList = .fatal (.noSymbol "foo.so".toList "start".toList) := by decide

/-- Whatever a setup function does, `.LOADED` afterwards is what it was before the call with the object added: objects the
function loaded itself are not in it. -/
theorem C131_nested (env : DlEnv) (n : Nat) (st st1 st' : LdSt) (ne : Bool) (name obj sym : Str) (o : Option Nat) (l : List Str)
    (h : LoadName name obj sym) (hobj : ' ' ∉ obj ∧ obj ≠ []) (hl : ∀ b ∈ l, ' ' ∉ b ∧ b ≠ []) (hv : st.value = ldList l)
    (hp : st.pinned = false) (hnew : obj ∉ l) (ho : loadObject env ne st obj sym = .ok (st1, some o))
    (hr : (env.setup st.calls o sym).2 > 0) (hrun : loadName env (n + 1) st ne name = .ok st') :
    st'.value = ldList (l ++ [obj]) := by
  have hnl : isLoaded st.value obj = false := by
    rw [hv]; exact not_loaded (fun b hb => (hl b hb).1) hobj.1 hobj.2 hnew
  obtain ⟨s, h1, h2⟩ := loadName_split h
  have hk := loadObject_sub ho
  unfold loadName loadFile at hrun
  rw [h1] at hrun
  simp only [] at hrun
  rw [if_neg (by simp [hnl]), h2, ho] at hrun
  simp only [] at hrun
  unfold callSetup at hrun
  cases hra : runActs (loadName env n) o { st1 with calls := st1.calls ++ [(o, sym)] } (env.setup st1.calls o sym).1 with
  | ok s2 =>
    rw [hra] at hrun
    simp only [] at hrun
    have hpin : s2.pinned = false := by
      have hacts : ∀ (as : List LdAct) (a b : LdSt), runActs (loadName env n) o a as = .ok b → b.pinned = a.pinned := by
        intro as
        induction as with
        | nil => intro a b h; simp [runActs] at h; rw [h]
        | cons x as ih =>
          intro a b h
          cases x with
          | reg nm mi ma =>
            unfold runActs at h
            split at h
            · have := ih _ _ h; exact this
            · simp at h
          | load ne ns =>
            unfold runActs at h
            split at h
            · rename_i s1 hs1
              rw [ih _ _ h]
              exact loadNames_rel (R := fun a b => b.pinned = a.pinned) (fun _ => rfl) (fun a b c h1 h2 => h2.trans h1)
                (fun st ne nm st' h => (loadName_pinned h).1) _ _ _ _ hs1
            · simp at h
            · simp at h
      rw [hacts _ _ _ hra]
      show st1.pinned = false
      rw [hk.2.2.1]; exact hp
    have hr1 : (env.setup st1.calls o sym).2 > 0 := by rw [hk.2.2.2.1]; exact hr
    rw [if_pos ⟨hr1, hpin⟩] at hrun
    simp only [] at hrun
    rw [if_neg (by omega), if_neg (by omega)] at hrun
    simp at hrun
    rw [← hrun]
    show addLoaded st.value obj = _
    rw [hv]; exact addLoaded_words fun b hb => (hl b hb).2
  | fatal w => rw [hra] at hrun; simp at hrun
  | deep => rw [hra] at hrun; simp at hrun

/-- A world where the setup function of `a.so` loads `xa.so`. -/
def ldSample4 : DlEnv := { ldSample2 with setup := fun _ o _ => (if o = some 2 then [.load false ["xa.so".toList]] else [], 1) }

example : ∃ st, ldRun ldSample4 2 ldStart [.line false ["a.so".toList], .line false ["xa.so".toList]] = .ok st ∧
    st.value = "a.so xa.so".toList ∧ st.opened = [2, 1] ∧
    st.calls = [(some 2, "a_gmk_setup".toList), (some 1, "xa_gmk_setup".toList), (some 1, "xa_gmk_setup".toList)] :=
  ⟨_, rfl, by decide, by decide, by decide⟩

/-- If the user gave `.LOADED` a value, loads never change it. -/
theorem C131_pinned (env : DlEnv) (n : Nat) (st st' : LdSt) (es : List LdEv) (hp : st.pinned = true)
    (h : ldRun env n st es = .ok st') : st'.value = st.value := by
  have := ldRun_inv (env := env) (n := n) (P := fun s => s.pinned = true ∧ s.value = st.value) ?_ es st st' h ⟨hp, rfl⟩
  · exact this.2
  · intro a b e he hP
    cases e with
    | remake nm =>
      simp [ldStep] at he
      have := unloadFile_same a nm
      rw [he] at this
      exact ⟨this.2.2.1.trans hP.1, this.1.trans hP.2⟩
    | line ne ns =>
      exact loadNames_rel (R := fun a b => (a.pinned = true ∧ a.value = st.value) → (b.pinned = true ∧ b.value = st.value))
        (fun _ h => h) (fun _ _ _ h1 h2 h => h2 (h1 h))
        (fun s ne nm s' hs hq => ⟨(loadName_pinned hs).1.trans hq.1, ((loadName_pinned hs).2 hq.1).trans hq.2⟩) _ _ _ _ he hP

example : ∃ st', ldRun ldSample 1 { ldStart with pinned := true } [.line false ["foo.so".toList, "foo.so".toList]] = .ok st' ∧
    st'.value = [] ∧ st'.calls = [(some 7, "foo_gmk_setup".toList), (some 7, "foo_gmk_setup".toList)] :=
  ⟨_, rfl, by decide, by decide⟩

/-- In every history the objects open are the ones remembered under their names, as often as they were opened; starting the
recipe of an object closes at most one, opened under that name. -/
theorem C131_handles (env : DlEnv) (n : Nat) (es : List LdEv) (st : LdSt) (h : ldRun env n ldStart es = .ok st) :
    (∀ o, st.opened.count o = (st.table.filterMap (·.2)).count o) ∧
    ∀ name, unloadFile st name = st ∨
      ∃ o, (name, some o) ∈ st.table ∧ (unloadFile st name).opened = (st.opened.reverse.erase o).reverse ∧ o ∈ st.opened := by
  have hh : HandlesOk st := ldRun_inv (P := HandlesOk) (fun a b e he hp => ldStep_handles he hp) es ldStart st h (by
    intro o; simp [ldStart])
  refine ⟨hh, fun name => ?_⟩
  rcases unloadFile_spec st name with ⟨_, e⟩ | ⟨o, t1, t2, e1, _, e2⟩
  · exact .inl e
  · refine .inr ⟨o, by rw [e1]; simp, by rw [e2], ?_⟩
    have := hh o
    rw [e1] at this
    simp only [List.filterMap_append, List.filterMap_cons, List.count_append, List.count_cons_self] at this
    exact List.count_pos_iff.1 (by omega)

example : ∃ st, ldRun ldSample 1 ldStart [.line false ["foo.so".toList], .remake "foo.so".toList] = .ok st ∧ st.opened = [] :=
  ⟨_, rfl, by decide⟩

/-! ## Functions -/

/-- A setup function that adds a function is stopped exactly when the name is empty, longer than 255 characters, contains a
character that is no letter, digit, `.`, `-` or `_`, starts with a `.`, or the numbers of arguments are not allowed. -/
theorem C131_function_names (load : LdSt → Bool → Str → LdOut LdSt) (st : LdSt) (o : Option Nat) (name : Str) (min max : Nat) :
    (OnlyAdds [.reg name min max] → runActs load o st [.reg name min max] = .ok { st with fns := (name, o) :: st.fns }) ∧
    (¬ OnlyAdds [.reg name min max] → runActs load o st [.reg name min max] = .fatal (.badFunction name)) := by
  refine ⟨fun h => ?_, fun h => ?_⟩
  · rw [runActs_adds h]; simp [regFns]
  · unfold runActs
    rw [if_neg]
    intro ha
    apply h
    intro a hm
    simp at hm
    exact ⟨name, min, max, hm, fnAllowed_iff.1 ha⟩

/-- A text is taken for such a function only where a blank or the end follows the name: `$(name:a=b)` and `$(name,x)` are
references to variables. -/
theorem C131_function_not (st : LdSt) (name rest : Str) (c : Char) (hn : ∀ d ∈ name, isUserFunc d = true)
    (hu : isUserFunc c = false) (hc : isSpace c = false) :
    useFn st (name ++ c :: rest) = .other := by
  have hd : (name ++ c :: rest).dropWhile isUserFunc = c :: rest := by
    rw [ld_dropWhile_all hn, List.dropWhile_cons, if_neg (by simp [hu])]
  unfold useFn
  simp only [hd]
  rw [if_pos (Or.inr (by simp [hc]))]

example : useFn ⟨[], false, [4], [], [], [("f".toList, some 4)], [], []⟩ "f:a=b".toList = .other := by rfl

/-- A function an object added, the newest of that name, is called where its name follows `$(` and a blank or the end follows
the name, while the object is open. -/
theorem C131_function_called (st : LdSt) (name rest : Str) (o : Nat) (old : List (Str × Option Nat)) (min max : Nat)
    (h : OnlyAdds [.reg name min max]) (hf : st.fns = (name, some o) :: old) (ho : o ∈ st.opened)
    (hr : rest = [] ∨ ∃ c t, rest = c :: t ∧ isSpace c = true) :
    useFn st (name ++ rest) = .called (some o) := by
  obtain ⟨nm, mi, ma, e, h1, h2, h3, _⟩ := h (.reg name min max) (by simp)
  simp at e
  obtain ⟨rfl, rfl, rfl⟩ := e
  have hu : ∀ c ∈ name, isUserFunc c = true := by
    intro c hc
    rcases h3 c hc with h | h | h | h <;> simp [isUserFunc, h]
  have hspace : ∀ c, isSpace c = true → isUserFunc c = false := fun c hc => space_userFunc hc
  have ht : (name ++ rest).takeWhile isUserFunc = name := by
    rw [ld_takeWhile_all hu, ld_takeWhile_stop, List.append_nil]
    intro c hc
    rcases hr with rfl | ⟨d, t, rfl, hd⟩
    · simp at hc
    · simp at hc; subst hc; exact hspace _ hd
  have hd : (name ++ rest).dropWhile isUserFunc = rest := by
    rw [ld_dropWhile_all hu]
    rcases hr with rfl | ⟨d, t, rfl, hd⟩
    · rfl
    · rw [List.dropWhile_cons, if_neg (by simp [hspace _ hd])]
  unfold useFn
  simp only [ht, hd]
  have hlen : name.take (name.length % 256) = name := by
    rw [Nat.mod_eq_of_lt (by omega), List.take_length]
  have hh : rest.head?.all isSpace = true := by
    rcases hr with rfl | ⟨d, t, rfl, hd'⟩
    · rfl
    · exact hd'
  rw [if_neg (by simp [h1, hh]), hlen, hf]
  simp [ho]

example : useFn { ldStart with
    opened := [7]
    fns := [("hello".toList, some 7)] } "hello a,b".toList = .called (some 7) := by decide

/-- As long as no recipe of a loaded object was started, no use of a function calls into an object that is not there. -/
theorem C131_functions_partial (env : DlEnv) (n : Nat) (es : List LdEv) (st : LdSt) (text : Str)
    (hes : ∀ e ∈ es, ∃ ne ns, e = .line ne ns) (h : ldRun env n ldStart es = .ok st) : useFn st text ≠ .ub := by
  have hf : FnsOk st := by
    have hall : ∀ (es : List LdEv) (a b : LdSt), (∀ e ∈ es, ∃ ne ns, e = .line ne ns) → ldRun env n a es = .ok b → FnsOk a → FnsOk b := by
      intro es
      induction es with
      | nil => intro a b _ h hp; simp [ldRun] at h; rw [← h]; exact hp
      | cons e es ih =>
        intro a b he h hp
        obtain ⟨ne, ns, rfl⟩ := he e (by simp)
        unfold ldRun at h
        split at h
        · rename_i s1 h1
          refine ih _ _ (fun e h => he e (by simp [h])) h ?_
          exact loadNames_rel (R := fun a b => FnsOk a → FnsOk b) (fun _ h => h) (fun _ _ _ h1 h2 h => h2 (h1 h))
            (fun s ne nm s' hs hq => loadName_fns hs hq) _ _ _ _ h1 hp
        · simp at h
        · simp at h
    exact hall es ldStart st hes h (by intro e he; simp [ldStart] at he)
  unfold useFn
  simp only []
  split
  · simp
  · split
    · simp
    · simp
    · rename_i x o hx
      have := hf _ (List.mem_of_find?_eq_some hx) o rfl
      rw [if_pos this]
      simp

/-- Once the recipe of a loaded object starts, a function the object added calls into an object that is not there, in the recipe
itself and later (commands.c 573-574 close the object; its functions stay in the table). -/
theorem C131_function_gone (st : LdSt) (name fn rest : Str) (o : Nat) (t1 t2 : List (Str × Option Nat)) (old : List (Str × Option Nat))
    (min max : Nat) (h : OnlyAdds [.reg fn min max]) (hf : st.fns = (fn, some o) :: old)
    (ht : st.table = t1 ++ (name, some o) :: t2) (ht1 : ∀ x, (name, some x) ∉ t1) (hc : st.opened.count o = 1)
    (hr : rest = [] ∨ ∃ c t, rest = c :: t ∧ isSpace c = true) :
    useFn st (fn ++ rest) = .called (some o) ∧ useFn (unloadFile st name) (fn ++ rest) = .ub := by
  have ho : o ∈ st.opened := List.count_pos_iff.1 (by omega)
  have hcall := C131_function_called st fn rest o old min max h hf ho hr
  refine ⟨hcall, ?_⟩
  rcases unloadFile_spec st name with ⟨hno, _⟩ | ⟨o', s1, s2, e1, hs1, e2⟩
  · exact absurd (by rw [ht]; simp) (hno o)
  · have hoo : o' = o := by
      have hfind : ∀ (a b : List (Str × Option Nat)) (x : Nat), (∀ y, (name, some y) ∉ a) →
          (a ++ (name, some x) :: b).find? (fun e => e.1 == name && e.2.isSome) = some (name, some x) := by
        intro a b x ha
        rw [List.find?_append]
        have : a.find? (fun e => e.1 == name && e.2.isSome) = none := by
          rw [List.find?_eq_none]
          rintro ⟨e1, e2⟩ he
          cases e2 with
          | none => simp
          | some y =>
            simp
            rintro rfl
            exact ha y he
        rw [this]; simp
      have a1 := hfind t1 t2 o ht1
      have a2 := hfind s1 s2 o' hs1
      rw [← ht] at a1
      rw [← e1, a1] at a2
      simp at a2
      exact a2.symm
    subst hoo
    have hnot : o' ∉ (unloadFile st name).opened := by
      rw [e2]
      show o' ∉ (st.opened.reverse.erase o').reverse
      intro hm
      have : 0 < (st.opened.reverse.erase o').reverse.count o' := List.count_pos_iff.2 hm
      simp [List.count_erase_self] at this
      omega
    have hfns : (unloadFile st name).fns = st.fns := (unloadFile_same st name).2.2.2
    -- the same search as before, with the object closed
    unfold useFn at hcall ⊢
    simp only [hfns] at hcall ⊢
    split at hcall
    · simp at hcall
    · rename_i hc1
      rw [if_neg hc1]
      split at hcall
      · simp at hcall
      · simp at hcall
      · rename_i x o2 hx
        by_cases h2 : o2 ∈ st.opened
        · rw [if_pos h2] at hcall
          simp at hcall
          subst hcall
          rw [if_neg hnot]
        · rw [if_neg h2] at hcall
          simp at hcall

example : ∃ st, ldRun ldSample 1 ldStart [.line false ["foo.so".toList], .remake "foo.so".toList] = .ok st ∧
    useFn st "hello x".toList = .ub := ⟨_, rfl, by decide⟩

end Remake
