import Verif.Profile.Lemmas

set_option linter.unusedVariables false
set_option linter.unusedSimpArgs false
namespace Remake
open Remake.Spec

/-! ## Quotes -/

theorem count_zero {l : Str} (h : ∀ c ∈ l, c ≠ '"') : l.count '"' = 0 :=
  List.count_eq_zero.2 fun hm => h _ hm rfl

theorem count_white {w : Str} (h : JWhite w) : w.count '"' = 0 := by
  refine count_zero fun c hc => ?_
  rcases h c hc with rfl | rfl | rfl | rfl <;> decide

theorem isDigit_ne_quote {c : Char} (h : c.isDigit = true) : c ≠ '"' := by
  rintro rfl; revert h; decide

theorem count_num {m k : Int} {t : Str} (h : NumText m k t) : t.count '"' = 0 := by
  obtain ⟨neg, ip, fp, ex, e, hne, hd, h0, hex, hk, rfl, hm⟩ := h
  have h1 : ip.count '"' = 0 := count_zero fun c hc => isDigit_ne_quote (hd c (List.mem_append_left _ hc))
  have h2 : fp.count '"' = 0 := count_zero fun c hc => isDigit_ne_quote (hd c (List.mem_append_right _ hc))
  have h3 : ex.count '"' = 0 := by
    rcases hex with ⟨-, rfl⟩ | ⟨c, sign, ds, hc, -, hds, rfl, hs⟩
    · rfl
    · have h4 : ds.count '"' = 0 := count_zero fun c hc => isDigit_ne_quote (hds c hc)
      have h5 : sign.count '"' = 0 := by
        rcases hs with ⟨h | h, -⟩ | ⟨h, -⟩ <;> rw [h] <;> decide
      rcases hc with rfl | rfl <;> simp [h4, h5]
  have h6 : (if neg = true then ['-'] else []).count '"' = 0 := by cases neg <;> decide
  have h7 : (if fp = [] then [] else '.' :: fp).count '"' = 0 := by
    split
    · rfl
    · simp [h2]
  simp only [List.count_append, h1, h3, h6, h7]

theorem count_str {s b : Str} (h : StrText s b) (hb : '\\' ∉ b) : b.count '"' = 0 := by
  induction h with
  | nil => rfl
  | char h1 h2 h3 h4 ih =>
    rw [List.count_cons, ih fun h => hb (List.mem_cons_of_mem _ h)]
    simp [h1]
  | same => simp at hb
  | named => simp at hb
  | hex => simp at hb

theorem quotes_even {k : JKind} {t : Str} (h : JText k t) (ht : '\\' ∉ t) : t.count '"' % 2 = 0 := by
  induction h with
  | null => decide
  | true => decide
  | false => decide
  | num h => rw [count_num h]
  | str h =>
    simp only [List.mem_cons, List.mem_append, List.mem_singleton, List.not_mem_nil, or_false, not_or] at ht
    have := count_str h ht.1.2
    simp [this]
  | empty h => simp [count_white h]
  | arr h ih =>
    simp only [List.mem_cons, List.mem_append, List.mem_singleton, List.not_mem_nil, or_false, not_or] at ht
    have := ih ht.1.2
    simp [List.count_cons, this]
  | nothing h => simp [count_white h]
  | obj h ih =>
    simp only [List.mem_cons, List.mem_append, List.mem_singleton, List.not_mem_nil, or_false, not_or] at ht
    have := ih ht.1.2
    simp [List.count_cons, this]
  | one h1 h2 h3 ih =>
    simp only [List.mem_cons, List.mem_append, List.mem_singleton, List.not_mem_nil, or_false, not_or] at ht
    have := ih ht.1.2
    simp [count_white h1, count_white h3, this]
  | more h1 h2 h3 h4 ih1 ih2 =>
    simp only [List.mem_cons, List.mem_append, List.mem_singleton, List.not_mem_nil, or_false, not_or] at ht
    have i1 := ih1 ht.1.1.2
    have i2 := ih2 ht.2.2
    simp [List.count_cons, count_white h1, count_white h3]
    omega
  | last h1 h2 h3 h4 h5 h6 ih =>
    simp only [List.mem_cons, List.mem_append, List.mem_singleton, List.not_mem_nil, or_false, not_or] at ht
    have i1 := count_str h2 (by grind)
    have i2 := ih (by grind)
    simp [List.count_cons, count_white h1, count_white h3, count_white h4, count_white h6, i1]
    omega
  | member h1 h2 h3 h4 h5 h6 h7 ih1 ih2 =>
    simp only [List.mem_cons, List.mem_append, List.mem_singleton, List.not_mem_nil, or_false, not_or] at ht
    have i1 := count_str h2 (by grind)
    have i2 := ih1 (by grind)
    have i3 := ih2 (by grind)
    simp [List.count_cons, count_white h1, count_white h3, count_white h4, count_white h6, i1]
    omega

theorem quotes_even_json {v : Json} {t : Str} (h : IsJson v t) (ht : '\\' ∉ t) : t.count '"' % 2 = 0 := by
  obtain ⟨a, s, b, ha, hs, hb, rfl⟩ := h
  simp only [List.mem_append, not_or] at ht
  have := quotes_even hs ht.1.2
  simp [count_white ha, count_white hb, this]

/-- The directory is in the file as it is. -/
theorem jFile_directory (c : PContext) (es : List PEntry) {t : Str} (h : jFile c es = some t) :
    ∃ p s, t = p ++ c.directory ++ s ∧ ∀ d, jFile { c with directory := d } es = some (p ++ d ++ s) := by
  unfold jFile at h
  cases hp : jParent c with
  | none => rw [hp] at h; simp at h
  | some parent =>
    rw [hp] at h
    simp only [Option.some.injEq] at h
    refine ⟨['{', '\n'] ++
      jField 1 "version".toList (jRaw "1.0.0".toList) ++
      jField 1 "pid".toList (jInt c.pid) ++
      parent ++
      jField 1 "creator".toList (jRaw c.creator) ++
      (jKey 1 "argv".toList ++ [' ', '['] ++ jArgv true c.argv ++ '\n' :: lvl 1 ++ [']', ',', '\n']) ++
      jField 1 "jobs".toList (jInt c.jobs) ++
      jField 1 "server".toList (if c.jobserver then "true".toList else "false".toList) ++
      jField 1 "status".toList (jRaw c.status) ++
      jField 1 "start".toList (jStamp c.start) ++
      jField 1 "end".toList (jStamp c.stop) ++ jKey 1 "directory".toList ++ ['"'],
      ['"', ',', '\n'] ++ (jKey 1 "entry".toList ++ ['[', '\n'] ++ jLines 2 c.goals ++ lvl 1 ++ [']', ',', '\n']) ++
      (jKey 1 "targets".toList ++ ['['] ++ jTargets true es ++ '\n' :: lvl 1 ++ [']', '\n']) ++
      ['}'], ?_, ?_⟩
    · rw [← h]
      simp only [jField, jRaw, List.append_assoc, List.cons_append, List.nil_append, List.append_nil]
    · intro d
      have : jParent { c with directory := d } = some parent := hp
      unfold jFile
      rw [this]
      simp only [jField, jRaw, List.append_assoc, List.cons_append, List.nil_append, List.append_nil]

/-! ## The table -/

theorem addEntry_names (tab : List PEntry) (t : PTarget) (h : (tab.map (·.name)).Nodup) :
    ((addEntry tab t).map (·.name)).Nodup ∧ ∀ n, n ∈ (addEntry tab t).map (·.name) ↔ n ∈ tab.map (·.name) ∨ n = t.name := by
  unfold addEntry
  by_cases ha : tab.any (·.name = t.name) = true
  · rw [if_pos ha]
    refine ⟨h, fun n => ⟨.inl, ?_⟩⟩
    rintro (hn | rfl)
    · exact hn
    · rw [List.any_eq_true] at ha
      obtain ⟨e, he, hn⟩ := ha
      exact List.mem_map.2 ⟨e, he, by simpa using hn⟩
  · rw [if_neg ha]
    have hn : t.name ∉ tab.map (·.name) := by
      intro hm
      obtain ⟨e, he, hn⟩ := List.mem_map.1 hm
      exact ha (List.any_eq_true.2 ⟨e, he, by simpa using hn⟩)
    rw [List.map_append]
    refine ⟨?_, fun n => by simp⟩
    rw [List.nodup_append]
    refine ⟨h, by simp, ?_⟩
    intro a hma b hmb
    simp only [List.map_cons, List.map_nil, List.mem_singleton] at hmb
    subst hmb
    rintro rfl
    exact hn hma

theorem atEntry_names (n : Str) (f : PEntry → PEntry) (hf : ∀ e, (f e).name = e.name) (tab : List PEntry) :
    (atEntry n f tab).map (·.name) = tab.map (·.name) := by
  unfold atEntry
  rw [List.map_map]
  refine List.map_congr_left fun e he => ?_
  simp only [Function.comp]
  split
  · exact hf e
  · rfl

theorem putStamp_same (now : Nat) (u : Bool) (st : CmdState) (e e' : PEntry) (h : putStamp now u st e = some e') :
    e'.name = e.name ∧ e'.calls = e.calls ∧ e'.file = e.file ∧ e'.line = e.line := by
  unfold putStamp at h
  repeat' split at h
  all_goals simp only [Option.some.injEq, reduceCtorEq] at h
  all_goals subst h; exact ⟨rfl, rfl, rfl, rfl⟩

theorem setElapsed_same (e : PEntry) : (setElapsed e).name = e.name ∧ (setElapsed e).calls = e.calls ∧ (setElapsed e).file = e.file ∧
    (setElapsed e).line = e.line ∧ (setElapsed e).start = e.start ∧ (setElapsed e).deps = e.deps ∧ (setElapsed e).recipe = e.recipe ∧
    (setElapsed e).stop = e.stop := by
  unfold setElapsed
  by_cases h1 : e.start > 0 ∧ e.stop > 0 
  · rw [if_pos h1]
    by_cases h2 : e.recipe > 0 ∧ e.stop > 0
    · simp only [if_pos h2]; simp
    · simp only [if_neg h2]; simp
  · rw [if_neg h1]
    by_cases h2 : e.recipe > 0 ∧ e.stop > 0
    · simp only [if_pos h2]; simp
    · simp only [if_neg h2]; simp

theorem addStamp_same (now : Nat) (u : Bool) (st : CmdState) (e : PEntry) :
    (addStamp now u st e).name = e.name ∧ (addStamp now u st e).calls = e.calls ∧ (addStamp now u st e).file = e.file ∧
      (addStamp now u st e).line = e.line := by
  unfold addStamp
  cases h : putStamp now u st e with
  | none => exact ⟨rfl, rfl, rfl, rfl⟩
  | some e' =>
    have h1 := putStamp_same now u st e e' h
    have h2 := setElapsed_same e'
    simp only
    grind

theorem pStep_names (tab : List PEntry) (ev : PEvent) (h : (tab.map (·.name)).Nodup) :
    ((pStep tab ev).map (·.name)).Nodup ∧ ∀ n, n ∈ (pStep tab ev).map (·.name) ↔ n ∈ tab.map (·.name) ∨ n ∈ ev.names := by
  cases ev with
  | push t parent now =>
    have h1 := addEntry_names tab t h
    have h2 := atEntry_names t.name (addStamp now t.updated t.state) (fun e => (addStamp_same ..).1) (addEntry tab t)
    cases parent with
    | none =>
      simp only [pStep, h2]
      refine ⟨h1.1, fun n => ?_⟩
      rw [h1.2]
      simp [PEvent.names, PEvent.target]
    | some p =>
      simp only [pStep]
      rw [atEntry_names _ _ (fun e => by rfl)]
      rw [← h2] at h1
      have h3 := addEntry_names _ p h1.1
      refine ⟨h3.1, fun n => ?_⟩
      rw [h3.2, h1.2]
      simp [PEvent.names, or_assoc]
  | pop t now =>
    have h1 := addEntry_names tab t h
    simp only [pStep]
    rw [atEntry_names _ (relocate t ∘ addStamp now t.updated t.state) (fun e => (addStamp_same now t.updated t.state e).1)]
    refine ⟨h1.1, fun n => ?_⟩
    rw [h1.2]
    simp [PEvent.names, PEvent.target]
  | stamp t now =>
    have h1 := addEntry_names tab t h
    simp only [pStep]
    rw [atEntry_names _ _ (fun e => (addStamp_same ..).1)]
    refine ⟨h1.1, fun n => ?_⟩
    rw [h1.2]
    simp [PEvent.names, PEvent.target]

theorem pRun_append (evs : List PEvent) (ev : PEvent) : pRun (evs ++ [ev]) = pStep (pRun evs) ev := by
  unfold pRun
  rw [List.foldl_append]
  rfl

theorem list_snoc_induction {α : Type} {P : List α → Prop} (h0 : P []) (hs : ∀ l a, P l → P (l ++ [a])) (l : List α) : P l := by
  have : ∀ l : List α, P l.reverse := by
    intro l
    induction l with
    | nil => exact h0
    | cons a l ih => rw [List.reverse_cons]; exact hs _ _ ih
  have := this l.reverse
  rwa [List.reverse_reverse] at this

theorem pRun_names (evs : List PEvent) :
    ((pRun evs).map (·.name)).Nodup ∧ ∀ n, n ∈ (pRun evs).map (·.name) ↔ ∃ ev ∈ evs, n ∈ ev.names := by
  induction evs using list_snoc_induction with
  | h0 => simp [pRun]
  | hs evs ev ih =>
    rw [pRun_append]
    have := pStep_names _ ev ih.1
    refine ⟨this.1, fun n => ?_⟩
    rw [this.2, ih.2]
    simp only [List.mem_append, List.mem_singleton]
    constructor
    · rintro (⟨x, hx, hn⟩ | hn)
      · exact ⟨x, .inl hx, hn⟩
      · exact ⟨ev, .inr rfl, hn⟩
    · rintro ⟨x, hx | rfl, hn⟩
      · exact .inl ⟨x, hx, hn⟩
      · exact .inr hn

/-! ## One entry -/

/-- What an event does to the entry of the name `n`, which may not be there yet. -/
def fresh (t : PTarget) : PEntry := { name := t.name, file := t.file, line := t.line }

/-- The entry of a name after an event. -/
def stepAt (n : Str) (o : Option PEntry) : PEvent → Option PEntry
  | .push t none now => if t.name = n then some (addStamp now t.updated t.state (o.getD (fresh t))) else o
  | .push t (some p) now =>
    let o := if t.name = n then some (addStamp now t.updated t.state (o.getD (fresh t))) else o
    if p.name = n then
      let e := o.getD (fresh p)
      some { e with calls := t.name :: e.calls }
    else o
  | .pop t now =>
    if t.name = n then some (relocate t (addStamp now t.updated t.state (o.getD (fresh t)))) else o
  | .stamp t now => if t.name = n then some (addStamp now t.updated t.state (o.getD (fresh t))) else o

theorem find_addEntry (tab : List PEntry) (t : PTarget) (n : Str) :
    (addEntry tab t).find? (·.name = n) = if t.name = n then some ((tab.find? (·.name = n)).getD (fresh t)) else tab.find? (·.name = n) := by
  unfold addEntry
  by_cases ha : tab.any (·.name = t.name) = true
  · rw [if_pos ha]
    split
    · rename_i hn
      subst hn
      cases hf : tab.find? (·.name = t.name) with
      | none =>
        rw [List.find?_eq_none] at hf
        rw [List.any_eq_true] at ha
        obtain ⟨e, he, hn⟩ := ha
        exact absurd hn (hf e he)
      | some e => rfl
    · rfl
  · rw [if_neg ha, List.find?_append]
    split
    · rename_i hn
      subst hn
      have : tab.find? (·.name = t.name) = none := by
        rw [List.find?_eq_none]
        intro e he hn
        exact ha (List.any_eq_true.2 ⟨e, he, hn⟩)
      rw [this]
      simp [fresh]
    · rename_i hn
      cases tab.find? (·.name = n) with
      | none => simp [hn]
      | some e => rfl

theorem find_atEntry (tab : List PEntry) (m : Str) (f : PEntry → PEntry) (hf : ∀ e, (f e).name = e.name) (n : Str) :
    (atEntry m f tab).find? (·.name = n) = if m = n then (tab.find? (·.name = n)).map f else tab.find? (·.name = n) := by
  induction tab with
  | nil => simp [atEntry]
  | cons e es ih =>
    have : atEntry m f (e :: es) = (if e.name = m then f e else e) :: atEntry m f es := rfl
    rw [this, List.find?_cons, List.find?_cons]
    by_cases he : e.name = n
    · have h1 : decide ((if e.name = m then f e else e).name = n) = true := by
        split
        · rw [hf]; simpa using he
        · simpa using he
      rw [h1]
      have h2 : decide (e.name = n) = true := by simpa using he
      rw [h2]
      simp only [Option.map_some]
      by_cases hm : m = n
      · rw [if_pos hm, if_pos (by rw [hm]; exact he)]
      · rw [if_neg hm, if_neg (by rw [he]; exact fun h => hm h.symm)]
    · have h1 : decide ((if e.name = m then f e else e).name = n) = false := by
        split
        · rw [hf]; simpa using he
        · simpa using he
      rw [h1]
      have h2 : decide (e.name = n) = false := by simpa using he
      rw [h2]
      exact ih

theorem find_pStep (tab : List PEntry) (ev : PEvent) (n : Str) :
    (pStep tab ev).find? (·.name = n) = stepAt n (tab.find? (·.name = n)) ev := by
  have hs : ∀ now u st e, (addStamp now u st e).name = e.name := fun now u st e => (addStamp_same now u st e).1
  cases ev with
  | push t parent now =>
    cases parent with
    | none =>
      simp only [pStep, stepAt]
      rw [find_atEntry _ _ (addStamp now t.updated t.state) (hs _ _ _), find_addEntry]
      split <;> simp_all
    | some p =>
      simp only [pStep, stepAt]
      rw [find_atEntry _ p.name _ (fun e => by rfl), find_addEntry, find_atEntry _ t.name (addStamp now t.updated t.state) (hs _ _ _), find_addEntry]
      by_cases h1 : t.name = n <;> by_cases h2 : p.name = n <;> simp [h1, h2]
  | pop t now =>
    simp only [pStep, stepAt]
    rw [find_atEntry _ t.name (relocate t ∘ addStamp now t.updated t.state) (fun e => hs _ _ _ e), find_addEntry]
    split <;> simp_all
  | stamp t now =>
    simp only [pStep, stepAt]
    rw [find_atEntry _ _ (addStamp now t.updated t.state) (hs _ _ _), find_addEntry]
    split <;> simp_all

/-- The entry of a name. -/
theorem find_pRun (evs : List PEvent) (n : Str) : (pRun evs).find? (·.name = n) = evs.foldl (stepAt n) none := by
  induction evs using list_snoc_induction with
  | h0 => rfl
  | hs evs ev ih =>
    rw [pRun_append, find_pStep, ih, List.foldl_append]
    rfl

theorem find_of_mem {tab : List PEntry} {e : PEntry} (h : (tab.map (·.name)).Nodup) (he : e ∈ tab) :
    tab.find? (·.name = e.name) = some e := by
  induction tab with
  | nil => cases he
  | cons x xs ih =>
    rw [List.map_cons, List.nodup_cons] at h
    rw [List.find?_cons]
    rcases List.mem_cons.1 he with rfl | hm
    · simp
    · have : x.name ≠ e.name := fun hn => h.1 (by rw [hn]; exact List.mem_map_of_mem hm)
      simp only [this, decide_false]
      exact ih h.2 hm

theorem entry_run {evs : List PEvent} {e : PEntry} (he : e ∈ pRun evs) : evs.foldl (stepAt e.name) none = some e := by
  rw [← find_pRun]
  exact find_of_mem (pRun_names evs).1 he

end Remake
