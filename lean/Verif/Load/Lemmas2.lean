import Verif.Load.Lemmas
/-!
# Loading objects: what holds for every history
-/
set_option linter.unusedVariables false
set_option linter.unusedSimpArgs false
namespace Remake
open Spec

/-- Where the function that is called comes from. -/
theorem loadObject_open {env : DlEnv} {ne : Bool} {st st' : LdSt} {obj sym : Str} {o : Nat}
    (h : loadObject env ne st obj sym = .ok (st', some (some o))) : o ∈ st'.opened := by
  unfold loadObject at h
  split at h
  · rename_i x hx
    simp at h
    obtain ⟨rfl, rfl⟩ := h
    unfold globalSym at hx
    split at hx
    · simp at hx
    · simp at hx
      exact List.mem_of_find?_eq_some hx
  · split at h
    · simp at h
    · split at h
      · simp at h
      · split at h
        · simp at h
        · simp at h
          obtain ⟨rfl, rfl⟩ := h
          simp

/-- A relation between states that each part of a load keeps holds for the whole. -/
theorem loadName_rel {env : DlEnv} {R : LdSt → LdSt → Prop} (hrefl : ∀ s, R s s) (htrans : ∀ a b c, R a b → R b c → R a c)
    (hsub : ∀ a b, R a b → ∀ o ∈ a.opened, o ∈ b.opened)
    (hobj : ∀ ne st obj sym st' r, loadObject env ne st obj sym = .ok (st', r) → R st st')
    (hcalls : ∀ st c, R st { st with calls := st.calls ++ [c] })
    (hfn : ∀ (st : LdSt) (o : Option Nat) (nm : Str), (∀ x, o = some x → x ∈ st.opened) → R st { st with fns := (nm, o) :: st.fns })
    (hval : ∀ st v, st.pinned = false → R st { st with value := v })
    (htodo : ∀ st nm, R st { st with todo := nm :: st.todo }) :
    ∀ n st ne nm st', loadName env n st ne nm = .ok st' → R st st' := by
  intro n
  induction n with
  | zero => intro st ne nm st' h; simp [loadName] at h
  | succ n ih =>
    have hnames : ∀ (ns : List Str) st ne st', loadNames (loadName env n) ne st ns = .ok st' → R st st' := by
      intro ns
      induction ns with
      | nil => intro st ne st' h; simp [loadNames] at h; subst h; exact hrefl _
      | cons a ns ihn =>
        intro st ne st' h
        unfold loadNames at h
        split at h
        · rename_i s1 h1
          exact htrans _ _ _ (ih _ _ _ _ h1) (ihn _ _ _ h)
        · simp at h
        · simp at h
    have hacts : ∀ (as : List LdAct) st o st', (∀ x, o = some x → x ∈ st.opened) →
        runActs (loadName env n) o st as = .ok st' → R st st' := by
      intro as
      induction as with
      | nil => intro st o st' _ h; simp [runActs] at h; subst h; exact hrefl _
      | cons a as iha =>
        intro st o st' ho h
        cases a with
        | reg nm mi ma =>
          unfold runActs at h
          split at h
          · exact htrans _ _ _ (hfn st o nm ho) (iha _ _ _ (fun x hx => ho x hx) h)
          · simp at h
        | load ne ns =>
          unfold runActs at h
          split at h
          · rename_i s1 h1
            have r1 := hnames _ _ _ _ h1
            exact htrans _ _ _ r1 (iha _ _ _ (fun x hx => hsub _ _ r1 x (ho x hx)) h)
          · simp at h
          · simp at h
    have hcall : ∀ v obj sym st o st' r, (∀ x, o = some x → x ∈ st.opened) →
        callSetup env (loadName env n) v obj sym st o = .ok (st', r) → R st st' := by
      intro v obj sym st o st' r ho h
      unfold callSetup at h
      split at h
      · rename_i s1 h1
        have r1 := htrans _ _ _ (hcalls st (o, sym)) (hacts _ _ _ _ (fun x hx => ho x hx) h1)
        split at h
        · rename_i hc
          simp at h
          rw [← h.1]
          exact htrans _ _ _ r1 (hval _ _ hc.2)
        · simp at h
          rw [← h.1]; exact r1
      · simp at h
      · simp at h
    have hfile : ∀ st ne nm st' r obj, loadFile env (loadName env n) st ne nm = .ok (st', r, obj) → R st st' := by
      intro st ne nm st' r obj h
      unfold loadFile at h
      split at h
      · simp at h
      · split at h
        · simp at h; rw [← h.1]; exact hrefl _
        · split at h
          · simp at h
          · simp at h
          · rename_i h1
            simp at h
            rw [← h.1]; exact hobj _ _ _ _ _ _ h1
          · rename_i s1 o h1
            have r1 := hobj _ _ _ _ _ _ h1
            split at h
            · rename_i h2
              simp at h
              rw [← h.1]
              refine htrans _ _ _ r1 (hcall _ _ _ _ _ _ _ ?_ h2)
              rintro x rfl
              exact loadObject_open h1
            · simp at h
            · simp at h
    intro st ne nm st' h
    unfold loadName at h
    split at h
    · simp at h
    · simp at h
    · rename_i s1 r obj h1
      have r1 := hfile _ _ _ _ _ _ h1
      split at h
      · simp at h
      · split at h
        · simp at h; rw [← h]; exact r1
        · simp at h; rw [← h]; exact htrans _ _ _ r1 (htodo _ _)

theorem loadNames_rel {load : LdSt → Bool → Str → LdOut LdSt} {R : LdSt → LdSt → Prop} (hrefl : ∀ s, R s s)
    (htrans : ∀ a b c, R a b → R b c → R a c) (h1 : ∀ st ne nm st', load st ne nm = .ok st' → R st st') :
    ∀ (ns : List Str) st ne st', loadNames load ne st ns = .ok st' → R st st' := by
  intro ns
  induction ns with
  | nil => intro st ne st' h; simp [loadNames] at h; subst h; exact hrefl _
  | cons a ns ihn =>
    intro st ne st' h
    unfold loadNames at h
    split at h
    · rename_i s1 h2
      exact htrans _ _ _ (h1 _ _ _ _ h2) (ihn _ _ _ h)
    · simp at h
    · simp at h

/-- The objects open are the ones in the table, as often. -/
def HandlesOk (st : LdSt) : Prop := ∀ o, st.opened.count o = (st.table.filterMap (·.2)).count o

theorem loadObject_handles {env : DlEnv} {ne st obj sym st' r} (h : loadObject env ne st obj sym = .ok (st', r))
    (hi : HandlesOk st) : HandlesOk st' := by
  unfold loadObject at h
  split at h
  · simp at h; rw [← h.1]; exact hi
  · split at h
    · simp at h; rw [← h.1]; exact hi
    · rename_i x hx
      split at h
      · simp at h
      · split at h
        · simp at h
        · simp at h
          rw [← h.1]
          intro o
          have := hi o
          simp only [List.count_append, List.filterMap_cons, List.count_cons, List.count_nil, this]
          omega

theorem loadObject_sub {env : DlEnv} {ne st obj sym st' r} (h : loadObject env ne st obj sym = .ok (st', r)) :
    (∀ o ∈ st.opened, o ∈ st'.opened) ∧ st'.value = st.value ∧ st'.pinned = st.pinned ∧ st'.calls = st.calls ∧
    st'.fns = st.fns ∧ st'.todo = st.todo := by
  unfold loadObject at h
  split at h
  · simp at h; rw [← h.1]; simp
  · split at h
    · simp at h; rw [← h.1]; simp
    · split at h
      · simp at h
      · split at h
        · simp at h
        · simp at h
          rw [← h.1]
          simp
          intro o ho; exact .inl ho

theorem loadName_handles {env : DlEnv} {n st ne nm st'} (h : loadName env n st ne nm = .ok st') :
    (∀ o ∈ st.opened, o ∈ st'.opened) ∧ (HandlesOk st → HandlesOk st') := by
  refine loadName_rel (R := fun a b => (∀ o ∈ a.opened, o ∈ b.opened) ∧ (HandlesOk a → HandlesOk b)) (env := env)
    ?_ ?_ ?_ ?_ ?_ ?_ ?_ ?_ n st ne nm st' h
  · exact fun s => ⟨fun o h => h, fun h => h⟩
  · exact fun a b c h1 h2 => ⟨fun o h => h2.1 o (h1.1 o h), fun h => h2.2 (h1.2 h)⟩
  · exact fun a b h => h.1
  · exact fun ne st obj sym st' r h => ⟨(loadObject_sub h).1, loadObject_handles h⟩
  · exact fun st c => ⟨fun o h => h, fun h => h⟩
  · exact fun st o nm _ => ⟨fun o h => h, fun h => h⟩
  · exact fun st v _ => ⟨fun o h => h, fun h => h⟩
  · exact fun st nm => ⟨fun o h => h, fun h => h⟩

/-- Functions of objects that are open, or of make itself. -/
def FnsOk (st : LdSt) : Prop := ∀ e ∈ st.fns, ∀ o, e.2 = some o → o ∈ st.opened

theorem loadName_fns {env : DlEnv} {n st ne nm st'} (h : loadName env n st ne nm = .ok st') (hf : FnsOk st) : FnsOk st' := by
  refine (loadName_rel (R := fun a b => (∀ o ∈ a.opened, o ∈ b.opened) ∧ (FnsOk a → FnsOk b)) (env := env)
    ?_ ?_ ?_ ?_ ?_ ?_ ?_ ?_ n st ne nm st' h).2 hf
  · exact fun s => ⟨fun o h => h, fun h => h⟩
  · exact fun a b c h1 h2 => ⟨fun o h => h2.1 o (h1.1 o h), fun h => h2.2 (h1.2 h)⟩
  · exact fun a b h => h.1
  · intro ne st obj sym st' r h
    have h1 := loadObject_sub h
    refine ⟨h1.1, fun hf e he o ho => h1.1 o (hf e ?_ o ho)⟩
    rw [← h1.2.2.2.2.1]; exact he
  · exact fun st c => ⟨fun o h => h, fun h => h⟩
  · intro st o nm ho
    refine ⟨fun o h => h, fun hf e he x hx => ?_⟩
    rcases List.mem_cons.1 he with rfl | he
    · exact ho x hx
    · exact hf e he x hx
  · exact fun st v _ => ⟨fun o h => h, fun h => h⟩
  · exact fun st nm => ⟨fun o h => h, fun h => h⟩

/-- A value the user gave stays. -/
theorem loadName_pinned {env : DlEnv} {n st ne nm st'} (h : loadName env n st ne nm = .ok st') :
    st'.pinned = st.pinned ∧ (st.pinned = true → st'.value = st.value) := by
  have := loadName_rel (R := fun a b => (∀ o ∈ a.opened, o ∈ b.opened) ∧ b.pinned = a.pinned ∧ (a.pinned = true → b.value = a.value))
    (env := env) ?_ ?_ ?_ ?_ ?_ ?_ ?_ ?_ n st ne nm st' h
  · exact this.2
  · exact fun s => ⟨fun o h => h, rfl, fun _ => rfl⟩
  · exact fun a b c h1 h2 => ⟨fun o h => h2.1 o (h1.1 o h), h2.2.1.trans h1.2.1,
      fun h => (h2.2.2 (h1.2.1.trans h)).trans (h1.2.2 h)⟩
  · exact fun a b h => h.1
  · intro ne st obj sym st' r h
    have h1 := loadObject_sub h
    exact ⟨h1.1, h1.2.2.1, fun _ => h1.2.1⟩
  · exact fun st c => ⟨fun o h => h, rfl, fun _ => rfl⟩
  · exact fun st o nm _ => ⟨fun o h => h, rfl, fun _ => rfl⟩
  · exact fun st v hp => ⟨fun o h => h, rfl, fun h => by rw [hp] at h; simp at h⟩
  · exact fun st nm => ⟨fun o h => h, rfl, fun _ => rfl⟩

theorem closeFirst_spec (name : Str) : ∀ t : List (Str × Option Nat),
    match (closeFirst name t).2 with
    | none => (closeFirst name t).1 = t ∧ ∀ o, (name, some o) ∉ t
    | some o => ∃ t1 t2, t = t1 ++ (name, some o) :: t2 ∧ (closeFirst name t).1 = t1 ++ (name, none) :: t2 ∧
        ∀ x, (name, some x) ∉ t1
  | [] => by simp [closeFirst]
  | (nm, some o) :: t => by
    unfold closeFirst
    by_cases h : nm = name
    · rw [if_pos h]
      subst h
      exact ⟨[], t, rfl, rfl, by simp⟩
    · rw [if_neg h]
      have ih := closeFirst_spec name t
      simp only []
      split
      · rename_i h1
        rw [h1] at ih
        refine ⟨by rw [ih.1], fun x hx => ?_⟩
        rcases List.mem_cons.1 hx with hx | hx
        · simp at hx; exact h hx.1.symm
        · exact ih.2 x hx
      · rename_i x h1
        rw [h1] at ih
        obtain ⟨t1, t2, e1, e2, e3⟩ := ih
        refine ⟨(nm, some o) :: t1, t2, by rw [e1]; rfl, by rw [e2]; rfl, fun y hy => ?_⟩
        rcases List.mem_cons.1 hy with hy | hy
        · simp at hy; exact h hy.1.symm
        · exact e3 y hy
  | (nm, none) :: t => by
    unfold closeFirst
    have ih := closeFirst_spec name t
    simp only []
    split
    · rename_i h1
      rw [h1] at ih
      refine ⟨by rw [ih.1], fun x hx => ?_⟩
      rcases List.mem_cons.1 hx with hx | hx
      · simp at hx
      · exact ih.2 x hx
    · rename_i x h1
      rw [h1] at ih
      obtain ⟨t1, t2, e1, e2, e3⟩ := ih
      refine ⟨(nm, none) :: t1, t2, by rw [e1]; rfl, by rw [e2]; rfl, fun y hy => ?_⟩
      rcases List.mem_cons.1 hy with hy | hy
      · simp at hy
      · exact e3 y hy

theorem unloadFile_spec (st : LdSt) (name : Str) :
    ((∀ o, (name, some o) ∉ st.table) ∧ unloadFile st name = st) ∨
    ∃ o t1 t2, st.table = t1 ++ (name, some o) :: t2 ∧ (∀ x, (name, some x) ∉ t1) ∧
      unloadFile st name = { st with
        table := t1 ++ (name, none) :: t2
        opened := (st.opened.reverse.erase o).reverse } := by
  have := closeFirst_spec name st.table
  unfold unloadFile
  split at this
  · rename_i h
    rw [h]
    exact .inl ⟨this.2, rfl⟩
  · rename_i o h
    obtain ⟨t1, t2, e1, e2, e3⟩ := this
    rw [h, e2]
    exact .inr ⟨o, t1, t2, e1, e3, rfl⟩

theorem unloadFile_handles {st : LdSt} (name : Str) (h : HandlesOk st) : HandlesOk (unloadFile st name) := by
  rcases unloadFile_spec st name with ⟨_, e⟩ | ⟨o, t1, t2, e1, _, e2⟩
  · rw [e]; exact h
  · rw [e2]
    intro x
    have hx := h x
    rw [e1] at hx
    simp only [List.filterMap_append, List.filterMap_cons, List.count_append, List.count_cons] at hx
    simp only [List.filterMap_append, List.filterMap_cons, List.count_append, List.count_reverse, List.count_erase, hx]
    by_cases hxo : o == x <;> simp [hxo]

theorem ldStep_handles {env : DlEnv} {n st st'} {e : LdEv} (h : ldStep env n st e = .ok st') (hi : HandlesOk st) :
    HandlesOk st' := by
  cases e with
  | remake name => simp [ldStep] at h; rw [← h]; exact unloadFile_handles name hi
  | line ne ns =>
    exact loadNames_rel (R := fun a b => HandlesOk a → HandlesOk b) (fun _ h => h) (fun a b c h1 h2 h => h2 (h1 h))
      (fun st ne nm st' h => (loadName_handles h).2) _ _ _ _ h hi

theorem ldRun_inv {env : DlEnv} {n : Nat} {P : LdSt → Prop}
    (hstep : ∀ st st' (e : LdEv), ldStep env n st e = .ok st' → P st → P st') :
    ∀ (es : List LdEv) st st', ldRun env n st es = .ok st' → P st → P st' := by
  intro es
  induction es with
  | nil => intro st st' h hp; simp [ldRun] at h; rw [← h]; exact hp
  | cons e es ih =>
    intro st st' h hp
    unfold ldRun at h
    split at h
    · rename_i s1 h1
      exact ih _ _ h (hstep _ _ _ h1 hp)
    · simp at h
    · simp at h

/-! ## The record of calls -/

theorem LogOk_snoc {env : DlEnv} {c : LdCall} : ∀ {log : List LdCall} {before : List (Option Nat × Str)}, LogOk env before log →
    LoadName c.word c.obj c.call.2 → c.result = (env.setup (before ++ log.map (·.call)) c.call.1 c.call.2).2 →
    LogOk env before (log ++ [c])
  | [], before, _, h1, h2 => ⟨h1, by simpa using h2, trivial⟩
  | d :: log, before, h, h1, h2 => ⟨h.1, h.2.1, LogOk_snoc h.2.2 h1 (by simpa using h2)⟩

/-- The state and a record of calls belong together. -/
structure LogFor (env : DlEnv) (names : List Str) (st : LdSt) (log : List LdCall) : Prop where
  ok : LogOk env [] log
  calls : log.map (·.call) = st.calls
  pinned : st.pinned = false
  value : st.value = ldList ((log.filter fun c => decide (c.result > 0)).map (·.obj))
  empty : st.value = [] → (log.filter fun c => decide (c.result > 0)) = []
  words : ∀ c ∈ log, c.word ∈ names

theorem runActs_reg {load : LdSt → Bool → Str → LdOut LdSt} {o : Option Nat} : ∀ {as : List LdAct} {st st' : LdSt},
    (∀ a ∈ as, ∃ name min max, a = .reg name min max) → runActs load o st as = .ok st' →
    ∃ f, st' = { st with fns := f }
  | [], st, st', _, h => by simp [runActs] at h; exact ⟨st.fns, by rw [← h]⟩
  | a :: as, st, st', ha, h => by
    obtain ⟨nm, mi, ma, rfl⟩ := ha a (by simp)
    unfold runActs at h
    split at h
    · obtain ⟨f, hf⟩ := runActs_reg (fun a h => ha a (by simp [h])) h
      exact ⟨f, hf⟩
    · simp at h

theorem isLoaded_nil_nil : isLoaded [] [] = true := by decide

theorem loadName_log {env : DlEnv} (hn : NoNesting env) {names : List Str} {n st ne nm st'} {log : List LdCall}
    (h : loadName env n st ne nm = .ok st') (hl : LogFor env names st log) :
    ∃ log', LogFor env (names ++ [nm]) st' log' := by
  have hw : ∀ c ∈ log, c.word ∈ names ++ [nm] := fun c hc => by simp [hl.words c hc]
  cases n with
  | zero => simp [loadName] at h
  | succ n =>
    unfold loadName at h
    have main : ∀ s1 r obj, loadFile env (loadName env n) st ne nm = .ok (s1, r, obj) → ∃ log', LogFor env (names ++ [nm]) s1 log' := by
      intro s1 r obj h
      unfold loadFile at h
      split at h
      · simp at h
      · rename_i obj' sym hs
        split at h
        · simp at h
          rw [← h.1]
          exact ⟨log, hl.ok, hl.calls, hl.pinned, hl.value, hl.empty, hw⟩
        · rename_i hload
          split at h
          · simp at h
          · simp at h
          · rename_i s2 h2
            have hk := loadObject_sub h2
            simp at h
            rw [← h.1]
            exact ⟨log, hl.ok, by rw [hk.2.2.2.1]; exact hl.calls, by rw [hk.2.2.1]; exact hl.pinned,
              by rw [hk.2.1]; exact hl.value, by rw [hk.2.1]; exact hl.empty, hw⟩
          · rename_i s2 o h2
            have hk := loadObject_sub h2
            split at h
            · rename_i s3 r3 h3
              simp at h
              obtain ⟨rfl, rfl, rfl⟩ := h
              unfold callSetup at h3
              split at h3
              · rename_i s4 h4
                obtain ⟨f, hf⟩ := runActs_reg (hn _ _ _) h4
                have hcalls : s2.calls = log.map (·.call) := by rw [hk.2.2.2.1, hl.calls]
                have hok : LogOk env [] (log ++ [⟨nm, obj', (o, sym.getD (madeSym obj')), r3⟩]) := by
                  refine LogOk_snoc hl.ok (split_loadName hs) ?_
                  simp only [List.nil_append]
                  rw [← hcalls]
                  split at h3 <;> (simp at h3; exact h3.2.symm)
                have hwd : ∀ c ∈ log ++ [(⟨nm, obj', (o, sym.getD (madeSym obj')), r3⟩ : LdCall)], c.word ∈ names ++ [nm] := by
                  intro c hc
                  rcases List.mem_append.1 hc with hc | hc
                  · exact hw c hc
                  · simp at hc; rw [hc]; simp
                by_cases hr : r3 > 0
                · have hc : (env.setup s2.calls o (sym.getD (madeSym obj'))).2 > 0 ∧ s4.pinned = false := by
                    constructor
                    · split at h3 <;> (simp at h3; rw [h3.2]; exact hr)
                    · rw [hf]; show s2.pinned = false; rw [hk.2.2.1]; exact hl.pinned
                  rw [if_pos hc] at h3
                  simp at h3
                  rw [← h3.1, hf]
                  have hv : addLoaded st.value obj' =
                      ldList ((log.filter fun c => decide (c.result > 0)).map (·.obj) ++ [obj']) := by
                    rw [hl.value]
                    apply addLoaded_ldList
                    intro he
                    rw [← hl.value] at he
                    rw [hl.empty he]; rfl
                  refine ⟨_, hok, ?_, ?_, ?_, ?_, hwd⟩
                  · simp [hcalls]
                  · show s2.pinned = false; rw [hk.2.2.1]; exact hl.pinned
                  · show addLoaded st.value obj' = _
                    rw [hv, List.filter_append]
                    simp [hr]
                  · intro he
                    exfalso
                    change addLoaded st.value obj' = [] at he
                    unfold addLoaded at he
                    split at he
                    · rename_i hv0
                      rw [he, hv0] at hload
                      exact hload isLoaded_nil_nil
                    · simp at he
                · have hc : ¬ ((env.setup s2.calls o (sym.getD (madeSym obj'))).2 > 0 ∧ s4.pinned = false) := by
                    rintro ⟨h1, h2⟩
                    rw [if_pos ⟨h1, h2⟩] at h3
                    simp at h3
                    omega
                  rw [if_neg hc] at h3
                  simp at h3
                  rw [← h3.1, hf]
                  have hfil : (log ++ [(⟨nm, obj', (o, sym.getD (madeSym obj')), r3⟩ : LdCall)]).filter (fun c => decide (c.result > 0)) =
                      log.filter fun c => decide (c.result > 0) := by
                    rw [List.filter_append]; simp [hr]
                  refine ⟨_, hok, ?_, ?_, ?_, ?_, hwd⟩
                  · simp [hcalls]
                  · show s2.pinned = false; rw [hk.2.2.1]; exact hl.pinned
                  · rw [hfil]; show s2.value = _; rw [hk.2.1]; exact hl.value
                  · rw [hfil]; intro he; apply hl.empty; rw [← hk.2.1]; exact he
              · simp at h3
              · simp at h3
            · simp at h
            · simp at h
    split at h
    · simp at h
    · simp at h
    · rename_i s1 r obj h1
      obtain ⟨log', hl'⟩ := main _ _ _ h1
      split at h
      · simp at h
      · split at h
        · simp at h; rw [← h]; exact ⟨log', hl'⟩
        · simp at h; rw [← h]
          exact ⟨log', hl'.ok, hl'.calls, hl'.pinned, hl'.value, hl'.empty, hl'.words⟩

theorem loadNames_log {env : DlEnv} (hn : NoNesting env) {n ne} : ∀ (ns names : List Str) st st' log,
    loadNames (loadName env n) ne st ns = .ok st' → LogFor env names st log → ∃ log', LogFor env (names ++ ns) st' log' := by
  intro ns
  induction ns with
  | nil => intro names st st' log h hl; simp [loadNames] at h; rw [← h, List.append_nil]; exact ⟨log, hl⟩
  | cons a ns ih =>
    intro names st st' log h hl
    unfold loadNames at h
    split at h
    · rename_i s1 h1
      obtain ⟨l1, hl1⟩ := loadName_log hn h1 hl
      obtain ⟨l2, hl2⟩ := ih _ _ _ _ h hl1
      exact ⟨l2, by simpa using hl2⟩
    · simp at h
    · simp at h

theorem unloadFile_same (st : LdSt) (name : Str) : (unloadFile st name).value = st.value ∧
    (unloadFile st name).calls = st.calls ∧ (unloadFile st name).pinned = st.pinned ∧ (unloadFile st name).fns = st.fns := by
  rcases unloadFile_spec st name with ⟨_, e⟩ | ⟨o, t1, t2, e1, _, e2⟩
  · rw [e]; simp
  · rw [e2]; simp

theorem ldRun_log {env : DlEnv} (hn : NoNesting env) {n} : ∀ (es : List LdEv) names st st' log,
    ldRun env n st es = .ok st' → LogFor env names st log → ∃ log', LogFor env (names ++ lineNames es) st' log' := by
  intro es
  induction es with
  | nil => intro names st st' log h hl; simp [ldRun] at h; rw [← h]; exact ⟨log, by simpa [lineNames] using hl⟩
  | cons e es ih =>
    intro names st st' log h hl
    unfold ldRun at h
    split at h
    · rename_i s1 h1
      cases e with
      | line ne ns =>
        obtain ⟨l1, hl1⟩ := loadNames_log hn _ _ _ _ _ h1 hl
        obtain ⟨l2, hl2⟩ := ih _ _ _ _ h hl1
        exact ⟨l2, by simpa [lineNames] using hl2⟩
      | remake nm =>
        simp [ldStep] at h1
        have hs := unloadFile_same st nm
        rw [h1] at hs
        obtain ⟨l2, hl2⟩ := ih names _ _ log h ⟨hl.ok, by rw [hs.2.1]; exact hl.calls, by rw [hs.2.2.1]; exact hl.pinned,
          by rw [hs.1]; exact hl.value, by rw [hs.1]; exact hl.empty, hl.words⟩
        exact ⟨l2, hl2⟩
    · simp at h
    · simp at h

end Remake
