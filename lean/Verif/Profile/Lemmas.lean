import Verif.Profile.Spec
import Verif.Misc.Props
import Verif.Text.Lemmas
import Verif.Output.Message

set_option linter.unusedVariables false
set_option linter.unusedSimpArgs false
namespace Remake
open Remake.Spec

/-! ## Strings and numbers -/

theorem strText_of_decode : ∀ (b s : Str), jsonDecode b = some s → StrText s b
  | [], s, h => by
    simp only [jsonDecode, Option.some.injEq] at h
    subst h; exact .nil
  | [c], s, h => by
    simp only [jsonDecode] at h
    split at h
    · simp at h
    · rename_i hc
      simp only [not_or] at hc
      simp only [Option.some.injEq] at h
      subst h
      exact .char hc.1 hc.2.1 hc.2.2 .nil
  | c :: d :: cs, s, h => by
    have named : ∀ (x y : Char), (x, y) ∈ [('b', '\x08'), ('f', '\x0c'), ('n', '\n'), ('r', '\r'), ('t', '\t')] →
        (jsonDecode cs).map (y :: ·) = some s → StrText s ('\\' :: x :: cs) := by
      intro x y hxy hm
      rw [Option.map_eq_some_iff] at hm
      obtain ⟨s', hm, rfl⟩ := hm
      exact .named hxy (strText_of_decode cs s' hm)
    rw [jsonDecode] at h
    split at h
    · rename_i hc
      subst hc
      split at h
      · rename_i hd
        rw [Option.map_eq_some_iff] at h
        obtain ⟨s', h, rfl⟩ := h
        exact .same hd (strText_of_decode cs s' h)
      · split at h
        · rename_i hd; subst hd; exact named _ _ (by simp) h
        · split at h
          · rename_i hd; subst hd; exact named _ _ (by simp) h
          · split at h
            · rename_i hd; subst hd; exact named _ _ (by simp) h
            · split at h
              · rename_i hd; subst hd; exact named _ _ (by simp) h
              · split at h
                · rename_i hd; subst hd; exact named _ _ (by simp) h
                · simp at h
    · rename_i hc
      split at h
      · simp at h
      · rename_i hq
        simp only [not_or] at hq
        rw [Option.map_eq_some_iff] at h
        obtain ⟨s', h, rfl⟩ := h
        exact .char hq.1 hc hq.2 (strText_of_decode (d :: cs) s' h)

theorem strText_plain (s : Str) (h : PlainJson s) : StrText s s := by
  induction s with
  | nil => exact .nil
  | cons c cs ih =>
    obtain ⟨h1, h2, h3⟩ := h c (List.mem_cons_self ..)
    exact .char h1 h2 h3 (ih fun d hd => h d (List.mem_cons_of_mem _ hd))

theorem jRaw_text (s : Str) (h : PlainJson s) : JText (.val (.str s)) (jRaw s) := .str (strText_plain s h)

theorem jEscaped_text (s : Str) (h : SoftJson s) : JText (.val (shownText s)) (jEscaped s) :=
  .str (strText_of_decode _ _ (C60_decodes_partial s h))

theorem decValue_eq (ds : Str) : decValue ds = digitsVal ds := by
  unfold decValue digitsVal
  congr 1

theorem toDigits_isDigit (n : Nat) : ∀ c ∈ Nat.toDigits 10 n, c.isDigit = true := fun c hc =>
  Nat.isDigit_of_mem_toDigits (b := 10) (n := n) (c := c) (by decide) (by decide) hc

theorem toDigits_head (n : Nat) : (Nat.toDigits 10 n).head? = some '0' → Nat.toDigits 10 n = ['0'] := by
  induction n using Nat.strongRecOn with
  | _ n ih =>
    by_cases h : n < 10
    · rw [Nat.toDigits_of_lt_base h]
      simp
    · intro h0
      rw [Nat.toDigits_of_base_le (by omega) (by omega)] at h0
      have hne := toDigits_ne_nil (n / 10)
      have h1 : (Nat.toDigits 10 (n / 10)).head? = some '0' := by
        cases hd : Nat.toDigits 10 (n / 10) with
        | nil => exact absurd hd hne
        | cons a l => rw [hd] at h0; simpa using h0
      have h2 := ih (n / 10) (by omega) h1
      have h3 := digitsVal_toDigits (n / 10)
      rw [h2] at h3
      have : digitsVal ['0'] = 0 := by decide
      omega

theorem jInt_text (i : Int) : JText (.val (shownInt i)) (jInt i) := by
  refine .num ?_
  unfold jInt
  split
  · rename_i h
    refine ⟨true, Nat.toDigits 10 (-i).toNat, [], [], 0, toDigits_ne_nil _, ?_, toDigits_head _, .inl ⟨rfl, rfl⟩, by simp, by simp, ?_⟩
    · simpa using toDigits_isDigit _
    · rw [if_pos rfl, List.append_nil, decValue_eq, digitsVal_toDigits]
      omega
  · rename_i h
    refine ⟨false, Nat.toDigits 10 i.toNat, [], [], 0, toDigits_ne_nil _, ?_, toDigits_head _, .inl ⟨rfl, rfl⟩, by simp, by simp, ?_⟩
    · simpa using toDigits_isDigit _
    · rw [if_neg (by simp), List.append_nil, decValue_eq, digitsVal_toDigits]
      omega

theorem pad9_len (n : Nat) (h : n < 10 ^ 9) : (pad9 n).length = 9 := by
  have := toDigits_len 8 n h
  unfold pad9
  rw [List.length_append, List.length_replicate]
  omega

theorem digitsVal_app (a b : Str) : digitsVal (a ++ b) = digitsVal a * 10 ^ b.length + digitsVal b := by
  have key : ∀ (b : Str) (v : Nat), b.foldl (fun v c => v * 10 + (c.toNat - '0'.toNat)) v =
      v * 10 ^ b.length + b.foldl (fun v c => v * 10 + (c.toNat - '0'.toNat)) 0 := by
    intro b
    induction b with
    | nil => simp
    | cons c cs ih =>
      intro v
      rw [List.foldl_cons, List.foldl_cons, ih, ih (0 * 10 + (c.toNat - '0'.toNat)), List.length_cons, Nat.pow_succ]
      simp only [Nat.zero_mul, Nat.zero_add, Nat.add_mul, Nat.mul_assoc, Nat.mul_comm 10]
      omega
  have e : ∀ l, digitsVal l = l.foldl (fun v c => v * 10 + (c.toNat - '0'.toNat)) 0 := by
    intro l
    rw [← decValue_eq]
    unfold decValue
    congr 1
    funext v c
    omega
  rw [e, e, e, List.foldl_append]
  exact key _ _

/-- The seconds and nanoseconds of a stamp. -/
theorem stamp_parts (a : Time) (h : a.inRange) :
    timestampCons a.sec a.ns = a.sec.toNat * 2 ^ 30 + 3 + a.ns ∧ stampSec (timestampCons a.sec a.ns) = a.sec.toNat ∧
      stampNs (timestampCons a.sec a.ns) = a.ns := by
  have h1 := C48_round_trip a h
  obtain ⟨as, an, hn⟩ := a
  obtain ⟨h2, h3⟩ := h
  simp only at *
  obtain ⟨s, rfl⟩ := Int.eq_ofNat_of_zero_le h2
  refine ⟨?_, by omega, h1.2⟩
  rw [timestampCons_ok (by omega) hn]
  rfl

theorem jStamp_text (ts : Nat) (h : IsStamp ts) : JText (.val (shownTime ts)) (jStamp ts) := by
  unfold shownTime jStamp
  by_cases h0 : ts = 0
  · rw [if_pos h0, if_pos h0]; exact .null
  · rw [if_neg h0, if_neg h0]
    rcases h with h | ⟨a, ha, rfl⟩
    · exact absurd h h0
    obtain ⟨h1, h2, h3⟩ := stamp_parts a ha
    rw [h2, h3, h1]
    have hn := a.ok
    have e1 : (a.sec.toNat * 2 ^ 30 + 3 + a.ns - 3) / 2 ^ 30 = a.sec.toNat := by omega
    have e2 : (a.sec.toNat * 2 ^ 30 + 3 + a.ns - 3) % 2 ^ 30 = a.ns := by omega
    rw [e1, e2]
    have hp := pad9_len _ hn
    have hne : pad9 a.ns ≠ [] := by intro h; rw [h] at hp; simp at hp
    refine .num ⟨false, Nat.toDigits 10 a.sec.toNat, pad9 a.ns, [], 0, toDigits_ne_nil _, ?_, toDigits_head _, .inl ⟨rfl, rfl⟩, ?_, ?_, ?_⟩
    · intro c hc
      rcases List.mem_append.1 hc with hc | hc
      · exact toDigits_isDigit _ c hc
      · unfold pad9 at hc
        rcases List.mem_append.1 hc with hc | hc
        · rw [List.eq_of_mem_replicate hc]; decide
        · exact toDigits_isDigit _ c hc
    · rw [hp]; rfl
    · rw [if_neg hne]; simp
    · rw [if_neg (by simp), decValue_eq, digitsVal_app, digitsVal_toDigits, hp]
      unfold pad9
      rw [digitsVal_zeros, digitsVal_toDigits]

/-! ## Lists of things -/

theorem jWhite_nil : JWhite [] := by intro c hc; cases hc

theorem jWhite_lvl (n : Nat) : JWhite (lvl n) := by
  intro c hc
  exact .inr (.inl (List.eq_of_mem_replicate hc))

theorem jWhite_nl {w : Str} (h : JWhite w) : JWhite ('\n' :: w) := by
  intro c hc
  rcases List.mem_cons.1 hc with rfl | hc
  · simp
  · exact h c hc

theorem jWhite_app {a b : Str} (ha : JWhite a) (hb : JWhite b) : JWhite (a ++ b) := by
  intro c hc
  rcases List.mem_append.1 hc with hc | hc
  · exact ha c hc
  · exact hb c hc

/-- The next member of an object. -/
theorem jField_text {n : Nat} {key value r : Str} {v : Json} {l : List (Str × Json)} (hk : PlainJson key) (hv : JText (.val v) value)
    (hr : JText (.members l) ('\n' :: r)) : JText (.members ((key, v) :: l)) ('\n' :: (jField n key value ++ r)) := by
  have := JText.member (jWhite_nl (jWhite_lvl n)) (strText_plain key hk) jWhite_nil jWhite_nil hv jWhite_nil hr
  simpa [jField, jKey] using this

/-- The lines of strings. -/
theorem jLines_text (n : Nat) {w : Str} (hw : JWhite w) : ∀ (s : Str) (ss : List Str), (∀ x ∈ s :: ss, SoftJson x) →
    JText (.elems ((s :: ss).map shownText)) ('\n' :: (jLines n (s :: ss) ++ w))
  | s, [], h => by
    have := JText.one (jWhite_nl (jWhite_lvl n)) (jEscaped_text s (h s (by simp))) (jWhite_nl hw)
    simpa [jLines] using this
  | s, t :: ts, h => by
    have := JText.more (jWhite_nl (jWhite_lvl n)) (jEscaped_text s (h s (by simp))) jWhite_nil
      (jLines_text n hw t ts fun x hx => h x (List.mem_cons_of_mem _ hx))
    simpa [jLines] using this

/-- An array of strings, one on a line. -/
theorem jLines_arr (n : Nat) {w : Str} (hw : JWhite w) (ss : List Str) (h : ∀ x ∈ ss, SoftJson x) :
    JText (.val (.arr (ss.map shownText))) ('[' :: '\n' :: (jLines n ss ++ w) ++ [']']) := by
  cases ss with
  | nil => exact .empty (jWhite_nl hw)
  | cons s ss => exact .arr (jLines_text n hw s ss h)

theorem jArgv_text {w : Str} (hw : JWhite w) : ∀ (s : Str) (ss : List Str), (∀ x ∈ s :: ss, SoftJson x) →
    JText (.elems ((s :: ss).map shownText)) ('\n' :: (lvl 2 ++ jEscaped s ++ jArgv false ss ++ w))
  | s, [], h => by
    have := JText.one (jWhite_nl (jWhite_lvl 2)) (jEscaped_text s (h s (by simp))) hw
    simpa [jArgv] using this
  | s, t :: ts, h => by
    have := JText.more (jWhite_nl (jWhite_lvl 2)) (jEscaped_text s (h s (by simp))) jWhite_nil
      (jArgv_text hw t ts fun x hx => h x (List.mem_cons_of_mem _ hx))
    simpa [jArgv] using this

theorem jArgv_arr {w : Str} (hw : JWhite w) (ss : List Str) (h : ∀ x ∈ ss, SoftJson x) :
    JText (.val (.arr (ss.map shownText))) ('[' :: (jArgv true ss ++ w) ++ [']']) := by
  cases ss with
  | nil => exact .empty hw
  | cons s ss =>
    have := JText.arr (jArgv_text hw s ss h)
    simpa [jArgv] using this

/-- What makes an entry fit for printing. -/
structure GoodEntry (e : PEntry) : Prop where
  name : SoftJson e.name
  file : ∀ f, e.file = some f → PlainJson f
  line : e.line < 2 ^ 32
  start : IsStamp e.start
  deps : IsStamp e.deps
  recipe : IsStamp e.recipe
  stop : IsStamp e.stop
  calls : ∀ n ∈ e.calls, SoftJson n

theorem plain_of_all {s : Str} (h : s.all (fun c => decide (c ≠ '"' ∧ c ≠ '\\' ∧ ¬ c.toNat < 0x20)) = true) : PlainJson s := by
  intro c hc
  have := List.all_eq_true.1 h c hc
  simpa using this

theorem jTarget_text (e : PEntry) (h : GoodEntry e) : ∃ t, jTarget e = lvl 2 ++ t ∧ JText (.val (shownTarget e)) t := by
  refine ⟨_, by unfold jTarget; simp only [List.append_assoc]; rfl, ?_⟩
  have hl : JText (.members [("depends".toList, .arr (e.calls.map shownText))])
      ('\n' :: (jKey 3 "depends".toList ++ ['[', '\n'] ++ jLines 4 e.calls ++ lvl 3 ++ [']', '\n'] ++ lvl 2)) := by
    have := JText.last (jWhite_nl (jWhite_lvl 3)) (strText_plain "depends".toList (plain_of_all (by decide))) jWhite_nil jWhite_nil
      (jLines_arr 4 (jWhite_lvl 3) e.calls h.calls) (jWhite_nl (jWhite_lvl 2))
    simpa only [jKey, List.append_assoc, List.cons_append, List.nil_append, List.append_nil] using this
  have hf : JText (.val (shownFile e.file)) (jOptFile e.file) := by
    cases hf : e.file with
    | none => exact .null
    | some f => exact jRaw_text f (h.file f hf)
  have hln : e.line % 2 ^ 32 = e.line := Nat.mod_eq_of_lt h.line
  have := JText.obj (jField_text (n := 3) (key := "name".toList) (plain_of_all (by decide)) (jEscaped_text _ h.name)
    (jField_text (n := 3) (key := "file".toList) (plain_of_all (by decide)) hf
    (jField_text (n := 3) (key := "line".toList) (plain_of_all (by decide)) (jInt_text e.line)
    (jField_text (n := 3) (key := "start".toList) (plain_of_all (by decide)) (jStamp_text _ h.start)
    (jField_text (n := 3) (key := "deps".toList) (plain_of_all (by decide)) (jStamp_text _ h.deps)
    (jField_text (n := 3) (key := "recipe".toList) (plain_of_all (by decide)) (jStamp_text _ h.recipe)
    (jField_text (n := 3) (key := "end".toList) (plain_of_all (by decide)) (jStamp_text _ h.stop) hl)))))))
  unfold shownTarget
  rw [hln]
  refine Eq.mp ?_ this
  congr 1
  simp only [jKey, List.append_assoc, List.cons_append, List.nil_append, List.append_nil]

theorem jTargets_text {w : Str} (hw : JWhite w) : ∀ (e : PEntry) (es : List PEntry), (∀ x ∈ e :: es, GoodEntry x) →
    JText (.elems ((e :: es).map shownTarget)) ('\n' :: (jTarget e ++ jTargets false es ++ w))
  | e, [], h => by
    obtain ⟨t, ht, h1⟩ := jTarget_text e (h e (by simp))
    have := JText.one (jWhite_nl (jWhite_lvl 2)) h1 hw
    simpa [jTargets, ht] using this
  | e, f :: fs, h => by
    obtain ⟨t, ht, h1⟩ := jTarget_text e (h e (by simp))
    have := JText.more (jWhite_nl (jWhite_lvl 2)) h1 jWhite_nil (jTargets_text hw f fs fun x hx => h x (List.mem_cons_of_mem _ hx))
    simpa [jTargets, ht] using this

theorem jTargets_arr {w : Str} (hw : JWhite w) (es : List PEntry) (h : ∀ x ∈ es, GoodEntry x) :
    JText (.val (.arr (es.map shownTarget))) ('[' :: (jTargets true es ++ w) ++ [']']) := by
  cases es with
  | nil => exact .empty hw
  | cons e es =>
    have := JText.arr (jTargets_text hw e es h)
    simpa [jTargets] using this

/-- What makes a context fit for printing. -/
structure GoodContext (c : PContext) : Prop where
  creator : PlainJson c.creator
  status : PlainJson c.status
  directory : PlainJson c.directory
  argv : ∀ s ∈ c.argv, SoftJson s
  goals : ∀ s ∈ c.goals, SoftJson s
  parent : c.parentPid ≠ 0 → ∃ t, c.parentTarget = some t ∧ SoftJson t
  start : IsStamp c.start
  stop : IsStamp c.stop

theorem jFile_text (c : PContext) (es : List PEntry) (hc : GoodContext c) (he : ∀ e ∈ es, GoodEntry e) :
    ∃ t, jFile c es = some t ∧ IsJson (shownRun c es) t := by
  have h1 : JText (.members [("targets".toList, .arr (es.map shownTarget))])
      ('\n' :: (jKey 1 "targets".toList ++ ['['] ++ jTargets true es ++ '\n' :: lvl 1 ++ [']', '\n'])) := by
    have := JText.last (jWhite_nl (jWhite_lvl 1)) (strText_plain "targets".toList (plain_of_all (by decide))) jWhite_nil jWhite_nil
      (jTargets_arr (jWhite_nl (jWhite_lvl 1)) es he) (jWhite_nl jWhite_nil)
    simpa only [jKey, List.append_assoc, List.cons_append, List.nil_append, List.append_nil] using this
  have h2 : JText (.members [("entry".toList, .arr (c.goals.map shownText)), ("targets".toList, .arr (es.map shownTarget))])
      ('\n' :: ((jKey 1 "entry".toList ++ ['[', '\n'] ++ jLines 2 c.goals ++ lvl 1 ++ [']', ',', '\n']) ++
        (jKey 1 "targets".toList ++ ['['] ++ jTargets true es ++ '\n' :: lvl 1 ++ [']', '\n']))) := by
    have := JText.member (jWhite_nl (jWhite_lvl 1)) (strText_plain "entry".toList (plain_of_all (by decide))) jWhite_nil jWhite_nil
      (jLines_arr 2 (jWhite_lvl 1) c.goals hc.goals) jWhite_nil h1
    simpa only [jKey, List.append_assoc, List.cons_append, List.nil_append, List.append_nil] using this
  have hb : JText (.val (.bool c.jobserver)) (if c.jobserver then "true".toList else "false".toList) := by
    cases c.jobserver
    · exact .false
    · exact .true
  have h3 := jField_text (n := 1) (key := "jobs".toList) (plain_of_all (by decide)) (jInt_text c.jobs)
    (jField_text (n := 1) (key := "server".toList) (plain_of_all (by decide)) hb
    (jField_text (n := 1) (key := "status".toList) (plain_of_all (by decide)) (jRaw_text _ hc.status)
    (jField_text (n := 1) (key := "start".toList) (plain_of_all (by decide)) (jStamp_text _ hc.start)
    (jField_text (n := 1) (key := "end".toList) (plain_of_all (by decide)) (jStamp_text _ hc.stop)
    (jField_text (n := 1) (key := "directory".toList) (plain_of_all (by decide)) (jRaw_text _ hc.directory) h2)))))
  have h4 := JText.member (jWhite_nl (jWhite_lvl 1)) (strText_plain "argv".toList (plain_of_all (by decide))) jWhite_nil
    (c := [' ']) (by intro c hc; simp at hc; simp [hc]) (jArgv_arr (jWhite_nl (jWhite_lvl 1)) c.argv hc.argv) jWhite_nil h3
  have h5 := jField_text (n := 1) (key := "creator".toList) (r := (jKey 1 "argv".toList ++ [' ', '['] ++ jArgv true c.argv ++ '\n' :: lvl 1 ++ [']', ',', '\n']) ++
      jField 1 "jobs".toList (jInt c.jobs) ++
      jField 1 "server".toList (if c.jobserver then "true".toList else "false".toList) ++
      jField 1 "status".toList (jRaw c.status) ++
      jField 1 "start".toList (jStamp c.start) ++
      jField 1 "end".toList (jStamp c.stop) ++
      jField 1 "directory".toList (jRaw c.directory) ++
      (jKey 1 "entry".toList ++ ['[', '\n'] ++ jLines 2 c.goals ++ lvl 1 ++ [']', ',', '\n']) ++
      (jKey 1 "targets".toList ++ ['['] ++ jTargets true es ++ '\n' :: lvl 1 ++ [']', '\n']))
    (plain_of_all (by decide)) (jRaw_text _ hc.creator) (by
      refine Eq.mp ?_ h4
      congr 1
      simp only [jKey, List.append_assoc, List.cons_append, List.nil_append, List.append_nil])
  have hp : ∃ p, jParent c = some p ∧ ∀ (l : List (Str × Json)) (r : Str), JText (.members l) ('\n' :: r) →
      JText (.members (shownParent c.parentPid c.parentTarget ++ l)) ('\n' :: (p ++ r)) := by
    unfold jParent
    by_cases h0 : c.parentPid = 0
    · rw [if_pos h0]
      refine ⟨[], rfl, fun l r hr => ?_⟩
      unfold shownParent
      cases c.parentTarget <;> simpa [h0] using hr
    · obtain ⟨t, ht, hs⟩ := hc.parent h0
      rw [if_neg h0, ht]
      refine ⟨_, rfl, fun l r hr => ?_⟩
      have i1 := JText.last (jWhite_nl (jWhite_lvl 2)) (strText_plain "target".toList (plain_of_all (by decide))) jWhite_nil jWhite_nil
        (jEscaped_text t hs) (jWhite_nl (jWhite_lvl 1))
      have i2 := jField_text (n := 2) (key := "pid".toList) (r := jKey 2 "target".toList ++ jEscaped t ++ ['\n'] ++ lvl 1)
        (plain_of_all (by decide)) (jInt_text c.parentPid) (by simpa only [jKey, List.append_assoc, List.cons_append, List.nil_append, List.append_nil] using i1)
      have i3 := JText.member (jWhite_nl (jWhite_lvl 1)) (strText_plain "parent".toList (plain_of_all (by decide))) jWhite_nil jWhite_nil
        (JText.obj i2) jWhite_nil hr
      simp only [shownParent, h0, if_false, List.cons_append, List.nil_append]
      refine Eq.mp ?_ i3
      congr 1
      simp only [jKey, List.append_assoc, List.cons_append, List.nil_append, List.append_nil]
  obtain ⟨p, hp1, hp2⟩ := hp
  have h6 := JText.obj (jField_text (n := 1) (key := "version".toList) (plain_of_all (by decide)) (jRaw_text "1.0.0".toList (plain_of_all (by decide)))
    (jField_text (n := 1) (key := "pid".toList) (plain_of_all (by decide)) (jInt_text c.pid) (hp2 _ _ h5)))
  refine ⟨_, ?_, [], _, [], jWhite_nil, h6, jWhite_nil, rfl⟩
  rw [jFile, hp1]
  simp only [jKey, jField, List.append_assoc, List.cons_append, List.nil_append, List.append_nil]

end Remake
