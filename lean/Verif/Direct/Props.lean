import Verif.Direct.Lemmas
/-!
# What `export`, `unexport` and `vpath` lines do (C116)
-/
namespace Remake

set_option linter.unusedVariables false
set_option linter.unusedSimpArgs false

open Spec

/-! ## Marks -/

theorem marks_refl (mark : Export) (st : DefState) : MarksDone mark [] st st :=
  ⟨rfl, fun _ _ => rfl, fun _ _ => rfl, fun n h => by simp at h⟩

theorem exportOne_done (e on : Bool) {st : DefState} (hch : st.chain = [(0, false)]) (name tail : Str) :
    MarksDone (exportMark on) [name] st (exportOne e on st name tail) := by
  unfold exportOne
  rw [locate_global hch]
  cases ho : st.sets 0 name with
  | none =>
    simp only [Option.isSome_none, Bool.false_eq_true, if_false]
    refine ⟨rfl, fun j hj => by simp [hj], fun n hn => ?_, fun n hn => ?_⟩
    · simp only [List.mem_singleton] at hn
      simp only [if_true, put_other _ _ hn]
    · simp only [List.mem_singleton] at hn
      subst hn
      refine ⟨fun v h => (by rw [ho] at h; cases h), fun _ => ⟨exportableName (n ++ tail), ?_⟩⟩
      simp only [if_true, VarSet.put, defineVar]
      cases e <;> simp [promote]
  | some v =>
    simp only [Option.isSome_some, if_true]
    refine ⟨rfl, fun j hj => by simp [hj], fun n hn => ?_, fun n hn => ?_⟩
    · simp only [List.mem_singleton] at hn
      simp only [if_true, put_other _ _ hn]
    · simp only [List.mem_singleton] at hn
      subst hn
      refine ⟨fun v' h => ?_, fun h => by rw [ho] at h; cases h⟩
      rw [ho] at h; cases h
      simp [VarSet.put, ho]

theorem marks_cons {mark : Export} {n : Str} {ns : List Str} {a b c : DefState} (h1 : MarksDone mark [n] a b)
    (h2 : MarksDone mark ns b c) : MarksDone mark (n :: ns) a c := by
  obtain ⟨c1, s1, o1, m1⟩ := h1
  obtain ⟨c2, s2, o2, m2⟩ := h2
  refine ⟨c2.trans c1, fun j hj => (s2 j hj).trans (s1 j hj), fun k hk => ?_, fun k hk => ?_⟩
  · simp only [List.mem_cons, not_or] at hk
    rw [o2 k hk.2, o1 k (by simpa using hk.1)]
  · by_cases hkn : k = n
    · subst hkn
      obtain ⟨x1, x2⟩ := m1 k (by simp)
      by_cases hns : k ∈ ns
      · obtain ⟨y1, y2⟩ := m2 k hns
        refine ⟨fun v hv => ?_, fun hv => ?_⟩
        · rw [y1 _ (x1 v hv)]
        · obtain ⟨x, hx⟩ := x2 hv
          exact ⟨x, by rw [y1 _ hx]⟩
      · rw [o2 k hns]; exact ⟨x1, x2⟩
    · have hns : k ∈ ns := by simpa [hkn] using hk
      have := o1 k (by simpa using hkn)
      rw [← this]; exact m2 k hns

theorem exportNames_done (e on : Bool) (text : Str) : ∀ st : DefState, st.chain = [(0, false)] →
    MarksDone (exportMark on) (wordsOf text) st (exportNames e on st text) := by
  rw [← tokens_eq]
  fun_induction tokens text with
  | case1 s h =>
    intro st hch
    rw [exportNames.eq_def]
    split
    · exact marks_refl _ _
    · rename_i t r h'; rw [h] at h'; cases h'
  | case2 s t r h ih =>
    intro st hch
    rw [exportNames.eq_def]
    split
    · rename_i h'; rw [h] at h'; cases h'
    · rename_i t' r' h'
      rw [h] at h'; cases h'
      have h1 := exportOne_done e on hch t r
      exact marks_cons h1 (ih _ (h1.1.trans hch))

/-! ## A makefile -/

section
variable {E : RdEnv (Option LinesState)} {D : DefEnv}

def LinesState.view (s : LinesState) : MkVars := ⟨s.vars, s.exportAll⟩

theorem event_done (hE : CarriesOutAll E D) {xp sh : DefState → Str → Str} (hx : ∀ st t, D.expand st t = (st, xp st t))
    (hsh : ∀ st t, D.shell st t = (st, sh st t)) {ev : VarEvent} {v : VarStmt} (h : EventMeans ev v) {k : LinesState}
    (hch : k.vars.chain = [(0, false)]) :
    ∃ o, ev.run E (some k) = o.map (fun x => { k with vars := x }) ∧ StmtDone D.envOv xp sh k.vars v o := by
  cases h with
  | assign h1 h2 => exact ⟨_, by rw [VarEvent.run, hE.assign, Option.bind_some], assign_done hx hsh hch h1 h2⟩
  | undefine h1 => exact ⟨_, by rw [VarEvent.run, hE.assign, Option.bind_some], undefine_done hx h1⟩
  | define h1 => exact ⟨_, by rw [VarEvent.run, hE.define, Option.bind_some], define_done hx hsh hch h1⟩

theorem stmt_chain {e : Bool} {xp sh : DefState → Str → Str} {st st' : DefState} {v : VarStmt}
    (h : StmtDone e xp sh st v (some st')) : st'.chain = st.chain := by
  cases h with
  | assign _ _ h => exact h.1
  | define _ _ _ h => exact h.1
  | undefine _ _ _ h => exact h.1

theorem mk_chain {e : Bool} {xp sh : DefState → Str → Str} {s s' : MkVars} {t : MkStmt} {a : List Str}
    (h : MkDone e xp sh s t a (some s')) : s'.vars.chain = s.vars.chain := by
  cases h with
  | var h => exact stmt_chain h
  | exports h => exact h.1
  | exportAll => rfl
  | vpath => rfl

theorem run_none (hE : CarriesOutAll E D) (es : List VarEvent) : es.foldl (VarEvent.run E) none = none := by
  induction es with
  | nil => rfl
  | cons ev es ih =>
    rw [List.foldl_cons]
    have : ev.run E none = none := by cases ev <;> simp [VarEvent.run, hE.assign, hE.define]
    rw [this, ih]

/-- What statements about variables and then others do. -/
theorem events_done (hE : CarriesOutAll E D) {xp sh : DefState → Str → Str} (hx : ∀ st t, D.expand st t = (st, xp st t))
    (hsh : ∀ st t, D.shell st t = (st, sh st t)) {es : List VarEvent} {ss : List VarStmt} (h : EventsMean es ss) :
    ∀ k : LinesState, k.vars.chain = [(0, false)] →
      (es.foldl (VarEvent.run E) (some k) = none ∧ ∀ ss2, MksDone D.envOv xp sh k.view (ss.map .var ++ ss2) [] none) ∨
      ∃ k', es.foldl (VarEvent.run E) (some k) = some k' ∧ k'.vars.chain = [(0, false)] ∧ k'.vpaths = k.vpaths ∧
        ∀ ss2 b r, MksDone D.envOv xp sh k'.view ss2 b r → MksDone D.envOv xp sh k.view (ss.map .var ++ ss2) b r := by
  induction h with
  | nil => intro k hch; exact .inr ⟨k, rfl, hch, rfl, fun _ _ _ h => h⟩
  | @cons ev s es ss h1 h2 ih =>
    intro k hch
    obtain ⟨o, g1, g2⟩ := event_done hE hx hsh h1 hch
    rw [List.foldl_cons, g1]
    cases o with
    | none =>
      refine .inl ⟨run_none hE es, fun ss2 => ?_⟩
      exact .stop (.varStop g2)
    | some st' =>
      rcases ih { k with vars := st' } ((stmt_chain g2).trans hch) with ⟨k1, k2⟩ | ⟨k', k1, k2, k3, k4⟩
      · exact .inl ⟨k1, fun ss2 => .step (a := []) (.var g2) (k2 ss2)⟩
      · exact .inr ⟨k', k1, k2, k3, fun ss2 b r hr => .step (a := []) (.var g2) (k4 ss2 b r hr)⟩

theorem directive_done {xp sh : DefState → Str → Str} (hx : ∀ st t, D.expand st t = (st, xp st t)) {w text : Str} {t : MkStmt}
    (h : DirectiveStmt w text t) {k : LinesState} (hch : k.vars.chain = [(0, false)]) :
    w ∈ ["export".toList, "unexport".toList, "vpath".toList] ∧
    ∃ a, MkDone D.envOv xp sh k.view t a (some (directiveLine D k w text).view) ∧
      (directiveLine D k w text).vpaths = a.foldl (fun v t => vpathLine t v) k.vpaths := by
  have e1 : ("unexport".toList = "export".toList) = False := by decide
  have e2 : ("vpath".toList = "export".toList) = False := by decide
  have e3 : ("vpath".toList = "unexport".toList) = False := by decide
  refine ⟨by cases h <;> decide, ?_⟩
  have main : ∀ on : Bool, text ≠ [] → ∃ a, MkDone D.envOv xp sh k.view (.exports on text) a (some (exportLine D on k text).view) ∧
      (exportLine D on k text).vpaths = a.foldl (fun v t => vpathLine t v) k.vpaths := by
    intro on hne
    refine ⟨[], ?_, by simp [exportLine, hne]⟩
    have := exportNames_done D.envOv on (xp k.vars text) k.vars hch
    have h2 : MkDone D.envOv xp sh k.view (.exports on text) [] (some { k.view with vars := _ }) := .exports this
    simpa [exportLine, hne, hx, LinesState.view] using h2
  cases h with
  | exports hne => simpa only [directiveLine, if_true] using main true hne
  | unexports hne => simpa only [directiveLine, e1, if_true, if_false] using main false hne
  | all =>
    refine ⟨[], ?_, by simp [directiveLine, exportLine]⟩
    have : MkDone D.envOv xp sh k.view (.exportAll true) [] _ := .exportAll
    simpa only [directiveLine, exportLine, if_true, LinesState.view] using this
  | none =>
    refine ⟨[], ?_, by simp [directiveLine, exportLine]⟩
    have : MkDone D.envOv xp sh k.view (.exportAll false) [] _ := .exportAll
    simpa only [directiveLine, exportLine, e1, if_true, if_false, LinesState.view] using this
  | vpath =>
    refine ⟨[xp k.vars text], ?_, by simp only [directiveLine, e2, e3, if_true, if_false, hx]; rfl⟩
    have : MkDone D.envOv xp sh k.view (.vpath text) [xp k.view.vars text] (some k.view) := .vpath
    simpa only [directiveLine, e2, e3, if_true, if_false, hx, LinesState.view] using this

/-- The loop over the lines. -/
theorem read_mk (hE : CarriesOutAll E D) {xp sh : DefState → Str → Str} (hx : ∀ st t, D.expand st t = (st, xp st t))
    (hsh : ∀ st t, D.shell st t = (st, sh st t)) {c : Char} (hc : ∀ s, E.cmdPrefix s = c) {ls : List Str} {ss : List MkStmt}
    (h : MkText E.posix c ls ss) :
    ∃ r : Option LinesState → Option LinesState, r none = none ∧
      (∀ s, evalLoop (readerEnv E) (atLine s) [] false false ls = .done (atLine (r s))) ∧
      ∀ k : LinesState, k.vars.chain = [(0, false)] → ∃ ts, MksDone D.envOv xp sh k.view ss ts ((r (some k)).map LinesState.view) ∧
        ∀ k', r (some k) = some k' → k'.vpaths = ts.foldl (fun v t => vpathLine t v) k.vpaths := by
  induction h with
  | nil =>
    refine ⟨id, rfl, fun s => by rw [evalLoop, if_pos rfl]; rfl, fun k hch => ⟨[], .nil, ?_⟩⟩
    intro k' hk'; cases hk'; rfl
  | @vars ls1 ls2 ss1 ss2 h1 h2 ih =>
    obtain ⟨es, g1, g2⟩ := varText_events h1
    obtain ⟨r, r1, r2, r3⟩ := ih
    refine ⟨fun s => r (es.foldl (VarEvent.run E) s), ?_, ?_, ?_⟩
    · show r (es.foldl (VarEvent.run E) none) = none
      rw [run_none hE, r1]
    · intro s
      rw [g2 E rfl hc]; exact r2 _
    · intro k hch
      rcases events_done hE hx hsh g1 k hch with ⟨k1, k2⟩ | ⟨k', k1, k2, k3, k4⟩
      · refine ⟨[], ?_, fun k' hk' => ?_⟩
        · simp only [k1, r1]; exact k2 _
        · simp only [k1, r1] at hk'; cases hk'
      · obtain ⟨ts, t1, t2⟩ := r3 k' k2
        refine ⟨ts, ?_, fun k'' hk'' => ?_⟩
        · simp only [k1]; exact k4 _ _ _ t1
        · simp only [k1] at hk''; rw [t2 _ hk'', k3]
  | @directive l t w text com s ls ss h1 h2 h3 h4 h5 ih =>
    obtain ⟨r, r1, r2, r3⟩ := ih
    have hw : w ∈ ["export".toList, "unexport".toList, "vpath".toList] := by cases h4 <;> decide
    refine ⟨fun s => r (s.map fun k => directiveLine D k w text), by simpa using r1, ?_, ?_⟩
    · intro s'
      rw [directive_event E s' ls h1 h2 h3 hw, hE.directive _ _ _ hw]; exact r2 _
    · intro k hch
      obtain ⟨-, a, g1, g2⟩ := directive_done (D := D) (sh := sh) hx h4 hch
      obtain ⟨ts, t1, t2⟩ := r3 (directiveLine D k w text) ((mk_chain g1).trans hch)
      refine ⟨a ++ ts, .step g1 t1, fun k' hk' => ?_⟩
      rw [t2 k' hk', g2, List.foldl_append]

/-- C116 (partial): a makefile of statements about variables, of `export`, `unexport` and `vpath` lines does what these say,
one after the other.  Partial: expanding a text must not change variables, the recipe prefix does not change, and variables
are looked up among the global ones only. -/
theorem C116_makefile_partial (hE : CarriesOutAll E D) {xp sh : DefState → Str → Str} (hx : ∀ st t, D.expand st t = (st, xp st t))
    (hsh : ∀ st t, D.shell st t = (st, sh st t)) {c : Char} (hc : ∀ s, E.cmdPrefix s = c) {ls : List Str} {ss : List MkStmt}
    (h : MkText E.posix c ls ss) (hb : ∀ l, ls.head? = some l → l.head? ≠ some (Char.ofNat 0xEF)) (k : LinesState)
    (hch : k.vars.chain = [(0, false)]) :
    ∃ r ts, readMakefile E (some k) ls = .done r ∧
      MksDone D.envOv xp sh ⟨k.vars, k.exportAll⟩ ss ts (r.map fun k' => ⟨k'.vars, k'.exportAll⟩) ∧
      ∀ k', r = some k' → k'.vpaths = ts.foldl (fun v t => vpathLine t v) k.vpaths := by
  obtain ⟨r, h1, h2, h3⟩ := read_mk hE hx hsh hc h
  obtain ⟨ts, h4, h5⟩ := h3 k hch
  refine ⟨r (some k), ts, ?_, h4, h5⟩
  have hskip : skipBom ls = ls := by
    cases ls with
    | nil => rfl
    | cons l ls =>
      have := hb l rfl
      unfold skipBom
      simp only []
      rw [if_neg]
      intro hp
      cases l with
      | nil => simp at hp
      | cons x l =>
        rw [List.isPrefixOf_cons_cons, Bool.and_eq_true] at hp
        exact this (by simp [← (beq_iff_eq.1 hp.1)])
  rw [readMakefile, hskip, evalLines]
  have : ({ env := some k } : RdState (Option LinesState)) = atLine (some k) := rfl
  rw [this, h2]
  simp [atLine, flush]

/-- C116: where a file is looked for after such a makefile: the directories of the `vpath` lines in force, then `VPATH`. -/
theorem C116_search_partial (hE : CarriesOutAll E D) {xp sh : DefState → Str → Str} (hx : ∀ st t, D.expand st t = (st, xp st t))
    (hsh : ∀ st t, D.shell st t = (st, sh st t)) {c : Char} (hc : ∀ s, E.cmdPrefix s = c) {ls : List Str} {ss : List MkStmt}
    (h : MkText E.posix c ls ss) (hb : ∀ l, ls.head? = some l → l.head? ≠ some (Char.ofNat 0xEF)) (k : LinesState)
    (hch : k.vars.chain = [(0, false)]) (hv : k.vpaths = []) (env : VpathEnv) (vpath gpath file : Str) (hf : Regular file) :
    ∃ r ts, readMakefile E (some k) ls = .done r ∧
      MksDone D.envOv xp sh ⟨k.vars, k.exportAll⟩ ss ts (r.map fun k' => ⟨k'.vars, k'.exportAll⟩) ∧
      ∀ k', r = some k' → ∀ lines : List (Str × VpathDirective), lines.map (·.1) = ts → (∀ p ∈ lines, VpathReads p.1 p.2) →
        NoSlashAtEnd (lines.map (·.2)) vpath →
        let q := (vpathSearch env (buildVpathLists k'.vpaths vpath gpath) file).1
        (q = .no ∧ FirstIn env file (places (lines.map (·.2)) vpath file) none) ∨
        ∃ n t, q = .yes n t ∧ FirstIn env file (places (lines.map (·.2)) vpath file) (some (n, t)) := by
  obtain ⟨r, ts, h1, h2, h3⟩ := C116_makefile_partial hE hx hsh hc h hb k hch
  refine ⟨r, ts, h1, h2, fun k' hk' lines hl hr hn => ?_⟩
  have := C38_search_partial env lines vpath gpath file hr hf hn
  rw [hl] at this
  rw [h3 k' hk', hv]
  exact this

end

/-! ## The marks that remain -/

/-- The statement does not name the variable, whatever the values of others. -/
def NamesNot (xp : DefState → Str → Str) (n : Str) : MkStmt → Prop
  | .var (.assign _ t _ _) => ∀ st, xp st t ≠ n
  | .var (.define _ t _ _) => ∀ st, ¬ NameTrimmed (xp st t) n
  | .var (.undefine _ t) => ∀ st, ¬ NameTrimmed (xp st t) n
  | .exports _ t => ∀ st, n ∉ wordsOf (xp st t)
  | _ => True

/-- The statement is neither an `undefine` of the variable, nor marks it. -/
def MarksNot (xp : DefState → Str → Str) (n : Str) : MkStmt → Prop
  | .var (.assign m t _ _) => m.exportV = false ∨ ∀ st, xp st t ≠ n
  | .var (.define m t _ _) => m.exportV = false ∨ ∀ st, ¬ NameTrimmed (xp st t) n
  | .var (.undefine _ t) => ∀ st, ¬ NameTrimmed (xp st t) n
  | .exports _ t => ∀ st, n ∉ wordsOf (xp st t)
  | _ => True

theorem mk_other {e : Bool} {xp sh : DefState → Str → Str} {s s' : MkVars} {t : MkStmt} {a : List Str} {n : Str}
    (h : MkDone e xp sh s t a (some s')) (hn : NamesNot xp n t) : s'.vars.sets 0 n = s.vars.sets 0 n := by
  cases h with
  | var h =>
    cases h with
    | assign _ hd he => exact he.2 0 n (fun h => hn _ h.2.symm)
    | define ht _ hd he => exact he.2 0 n (fun h => hn _ (h.2 ▸ ht))
    | undefine ht _ hd he => exact he.2 0 n (fun h => hn _ (h.2 ▸ ht))
  | exports h => exact h.2.2.1 n (hn _)
  | exportAll => rfl
  | vpath => rfl

theorem varDone_mark {e : Bool} {xp sh : Str → Str} {m : VMods} {f : Flavor} {t : Str} {v : Var} {new : Option Var}
    (h : VarDone e xp sh m f t (some v) new) (hm : m.exportV = false) : ∃ w, new = some w ∧ w.exp = v.exp := by
  obtain ⟨w, h1, h2, _⟩ := h
  exact ⟨w, h1, by rw [h2, hm]; simp⟩

theorem mk_mark {e : Bool} {xp sh : DefState → Str → Str} {s s' : MkVars} {t : MkStmt} {a : List Str} {n : Str} {v : Var}
    (h : MkDone e xp sh s t a (some s')) (hn : MarksNot xp n t) (hv : s.vars.sets 0 n = some v) :
    ∃ w, s'.vars.sets 0 n = some w ∧ w.exp = v.exp := by
  have same : s'.vars.sets 0 n = s.vars.sets 0 n → ∃ w, s'.vars.sets 0 n = some w ∧ w.exp = v.exp :=
    fun h => ⟨v, by rw [h, hv], rfl⟩
  cases h with
  | var h =>
    cases h with
    | @assign m t _ _ _ _ hd he =>
      by_cases hnn : n = xp s.vars t
      · rcases hn with hn | hn
        · subst hnn; rw [hv] at hd; exact varDone_mark hd hn
        · exact absurd hnn.symm (hn _)
      · exact same (he.2 0 n (fun h => hnn h.2))
    | @define m t name _ _ _ ht _ hd he =>
      by_cases hnn : n = name
      · rcases hn with hn | hn
        · subst hnn; rw [hv] at hd; exact varDone_mark hd hn
        · exact absurd (hnn ▸ ht) (hn _)
      · exact same (he.2 0 n (fun h => hnn h.2))
    | undefine ht _ hd he => exact same (he.2 0 n (fun h => hn _ (h.2 ▸ ht)))
  | exports h => exact same (h.2.2.1 n (hn _))
  | exportAll => exact same rfl
  | vpath => exact same rfl

theorem mks_mark {e : Bool} {xp sh : DefState → Str → Str} {n : Str} {s : MkVars} {ss : List MkStmt} {ts : List Str}
    {r : Option MkVars} (h : MksDone e xp sh s ss ts r) : ∀ {s' : MkVars} {v : Var}, r = some s' → (∀ t ∈ ss, MarksNot xp n t) →
      s.vars.sets 0 n = some v → ∃ w, s'.vars.sets 0 n = some w ∧ w.exp = v.exp := by
  induction h with
  | nil => intro s' v hr _ hv; cases hr; exact ⟨v, hv, rfl⟩
  | stop => intro s' v hr; cases hr
  | step h1 h2 ih =>
    intro s' v hr hn hv
    obtain ⟨w, a, b⟩ := mk_mark h1 (hn _ (by simp)) hv
    obtain ⟨w', a', b'⟩ := ih hr (fun t ht => hn t (by simp [ht])) a
    exact ⟨w', a', b'.trans b⟩

theorem mks_split {e : Bool} {xp sh : DefState → Str → Str} {ss1 ss2 : List MkStmt} : ∀ {s : MkVars} {ts : List Str} {s' : MkVars},
    MksDone e xp sh s (ss1 ++ ss2) ts (some s') → ∃ s1 a b, MksDone e xp sh s ss1 a (some s1) ∧ MksDone e xp sh s1 ss2 b (some s') ∧
      ts = a ++ b := by
  induction ss1 with
  | nil => intro s ts s' h; exact ⟨s, [], ts, .nil, h, rfl⟩
  | cons t ss1 ih =>
    intro s ts s' h
    cases h with
    | step h1 h2 =>
      obtain ⟨s1, a, b, k1, k2, k3⟩ := ih h2
      exact ⟨s1, _, b, .step h1 k1, k2, by rw [k3, List.append_assoc]⟩

/-- C116: the last statement that marks or undefines a variable decides: after an `export` or `unexport` line with its name the
variable is defined and has that mark, unless a later statement marks or undefines it. -/
theorem C116_last {e : Bool} {xp sh : DefState → Str → Str} {s s' : MkVars} {before after : List MkStmt} {ts : List Str} {on : Bool}
    {text n : Str} (h : MksDone e xp sh s (before ++ .exports on text :: after) ts (some s')) (hn : ∀ st, n ∈ wordsOf (xp st text))
    (ha : ∀ t ∈ after, MarksNot xp n t) :
    ∃ w, s'.vars.sets 0 n = some w ∧ w.exp = if on then .export_ else .noexport := by
  obtain ⟨s1, a, b, h1, h2, -⟩ := mks_split h
  cases h2 with
  | step k1 k2 =>
    cases k1 with
    | exports k =>
      obtain ⟨x1, x2⟩ := k.2.2.2 n (hn _)
      cases ho : s1.vars.sets 0 n with
      | none => obtain ⟨x, hx⟩ := x2 ho; exact mks_mark k2 rfl ha hx
      | some v => exact mks_mark k2 rfl ha (x1 v ho)

/-- C116: whether all variables are exported is what the last `export` or `unexport` line without names says. -/
theorem C116_all {e : Bool} {xp sh : DefState → Str → Str} {s s' : MkVars} {before after : List MkStmt} {ts : List Str} {on : Bool}
    (h : MksDone e xp sh s (before ++ .exportAll on :: after) ts (some s')) (ha : ∀ b, .exportAll b ∉ after) : s'.exportAll = on := by
  have key : ∀ {s : MkVars} {ss : List MkStmt} {ts : List Str} {r : Option MkVars}, MksDone e xp sh s ss ts r →
      (∀ b, .exportAll b ∉ ss) → ∀ {s'}, r = some s' → s'.exportAll = s.exportAll := by
    intro s ss ts r h
    induction h with
    | nil => intro _ s' hr; cases hr; rfl
    | stop => intro _ s' hr; cases hr
    | step h1 h2 ih =>
      intro hs s' hr
      rw [ih (fun b hb => hs b (by simp [hb])) hr]
      cases h1 with
      | var => rfl
      | exports => rfl
      | exportAll => exact absurd List.mem_cons_self (hs _)
      | vpath => rfl
  obtain ⟨s1, a, b, h1, h2, -⟩ := mks_split h
  cases h2 with
  | step k1 k2 => cases k1; exact key k2 ha rfl

/-- C116: a variable that no statement names stays as it was. -/
theorem C116_others {e : Bool} {xp sh : DefState → Str → Str} {n : Str} {s : MkVars} {ss : List MkStmt} {ts : List Str}
    {s' : MkVars} (h : MksDone e xp sh s ss ts (some s')) (hn : ∀ t ∈ ss, NamesNot xp n t) :
    s'.vars.sets 0 n = s.vars.sets 0 n := by
  generalize hr : some s' = r at h
  induction h with
  | nil => cases hr; rfl
  | stop => cases hr
  | step h1 h2 ih => rw [ih (fun t ht => hn t (by simp [ht])) hr, mk_other h1 (hn _ (by simp))]

/-- C116: the environment of recipes.  A global variable whose last mark is `unexport` is not in the environment, one whose last
mark is `export` is there with its value, if nothing nearer to the target defines it. -/
theorem C116_environment {e : Bool} {xp sh : DefState → Str → Str} {s s' : MkVars} {before after : List MkStmt} {ts : List Str} {on : Bool}
    {text n : Str} (h : MksDone e xp sh s (before ++ .exports on text :: after) ts (some s')) (hn : ∀ st, n ∈ wordsOf (xp st text))
    (ha : ∀ t ∈ after, MarksNot xp n t) (sv : Option Var) (expand : Str → Var → Str)
    (hexp : ∀ n v e, expand n { v with exp := e } = expand n v) (enums : List (List (Str × Var))) (near : List VarSet)
    (henum : EnumAll enums (near ++ [s'.vars.sets 0])) (own : List (Str × Str)) (hown : own.map (·.1) = envReserved)
    (hsh : n ≠ "SHELL".toList) (hres : n ∉ envReserved) (hnear : ∀ g ∈ near, g n = none)
    (hpt : ∀ w, s'.vars.sets 0 n = some w → w.perTarget = false) :
    if on then ∃ w, s'.vars.sets 0 n = some w ∧
      (n, if w.recursive = true ∧ w.origin ≠ .env ∧ w.origin ≠ .envOverride then expand n w else w.value) ∈
        targetEnvironment s'.exportAll sv (s'.vars.sets 0) expand enums own
    else ∀ val, (n, val) ∉ targetEnvironment s'.exportAll sv (s'.vars.sets 0) expand enums own := by
  obtain ⟨w, hw, hm⟩ := C116_last h hn ha
  have reduce : ∀ P, firstExported s'.exportAll (s'.vars.sets 0) (near ++ [s'.vars.sets 0]) n P ↔
      Exported s'.exportAll ((s'.vars.sets 0 n).map (·.exp)) w ∧ P w := by
    intro P
    clear henum
    induction near with
    | nil =>
      simp only [List.nil_append, firstExported, hw, Option.some.injEq]
      constructor
      · rintro (⟨v, rfl, a, b⟩ | ⟨_, h⟩)
        · exact ⟨a, b⟩
        · exact absurd h id
      · exact fun h => .inl ⟨w, rfl, h.1, h.2⟩
    | cons g near ih =>
      rw [List.cons_append, firstExported, ih (fun g hg => hnear g (by simp [hg]))]
      rw [hnear g (by simp)]
      simp
  cases on with
  | true =>
    simp only [if_true] at hm ⊢
    refine ⟨w, hw, ?_⟩
    rw [C31_entry_partial _ sv _ expand hexp enums _ henum own hown n _ hsh hres, reduce]
    refine ⟨?_, rfl⟩
    simp [Exported, hm]
  | false =>
    simp only [Bool.false_eq_true, if_false] at hm ⊢
    intro val
    rw [C31_entry_partial _ sv _ expand hexp enums _ henum own hown n _ hsh hres, reduce]
    rintro ⟨hx, -⟩
    revert hx
    simp [Exported, hm, hpt w hw]

/-- A consequence that surprises: `export X` before `X ?= v` makes the assignment void, as the variable then is defined and
empty. -/
theorem C116_void {e : Bool} {xp sh : DefState → Str → Str} {s s' : MkVars} {ts : List Str} {on : Bool} {text n t v : Str} {m : VMods}
    (h : MksDone e xp sh s [.exports on text, .var (.assign m t .conditional v)] ts (some s'))
    (hn : n ∈ wordsOf (xp s.vars text)) (ht : ∀ st, xp st t = n) (hno : s.vars.sets 0 n = none) :
    ∃ w, s'.vars.sets 0 n = some w ∧ w.value = [] := by
  cases h with
  | step h1 h2 =>
    cases h1 with
    | exports k =>
      obtain ⟨x, hx⟩ := (k.2.2.2 n hn).2 hno
      cases h2 with
      | step h3 h4 =>
        cases h4
        cases h3 with
        | var h5 =>
          cases h5 with
          | assign _ hd _ =>
            simp only at hd hx
            rw [ht, hx] at hd
            obtain ⟨w, g1, _, _, g4⟩ := hd
            simp only [opResult, Option.isSome_some, if_true] at g4
            obtain ⟨o, ho, g5, _⟩ := g4
            cases ho
            exact ⟨w, g1, g5⟩

/-! ## A concrete makefile -/

def dirMakefile : List Str :=
  ["X = 1".toList, "export X Y # both".toList, "  unexport".toList, "vpath %.c src".toList, "Y ?= v".toList]

def dirStmts : List MkStmt :=
  [.var (.assign {} "X".toList .recursive "1".toList), .exports true "X Y ".toList, .exportAll false, .vpath "%.c src".toList,
    .var (.assign {} "Y".toList .conditional "v".toList)]

theorem dirText : MkText false '\t' dirMakefile dirStmts := by
  have plain : ∀ l : Str, '\n' ∉ l → '#' ∉ l → CommentRead (collapseContinuations false l) l none := fun l h1 h2 => by
    rw [C17_no_newline _ _ h1]; exact commentRead_none h2
  have al : ∀ t m q, parseVarAssignment t = some (m, q) → AssignLine t m q := fun t m q h => (C90_modifiers t m q).mp h
  have na : ∀ t, parseVarAssignment t = none → ∀ m q, ¬ AssignLine t m q := fun t h m q ha => by
    rw [(C90_modifiers t m q).mpr ha] at h; cases h
  have ia : ∀ q n f v, parseVariableDefinition q = some ⟨n, f, v⟩ → IsAssignment q n f v := fun q n f v h => (C27_recognised q n f v).mp h
  have h1 : VarText false '\t' ["X = 1".toList] [.assign {} "X".toList .recursive "1".toList] :=
    .assign (t := "X = 1".toList) (q := "X = 1".toList) (plain _ (by decide) (by decide)) (al _ _ _ (by decide +kernel)) rfl rfl
      (ia _ _ _ _ (by decide +kernel)) .nil
  have h2 : VarText false '\t' ["Y ?= v".toList] [.assign {} "Y".toList .conditional "v".toList] :=
    .assign (t := "Y ?= v".toList) (q := "Y ?= v".toList) (plain _ (by decide) (by decide)) (al _ _ _ (by decide +kernel)) rfl rfl
      (ia _ _ _ _ (by decide +kernel)) .nil
  refine .vars h1 ?_
  refine .directive (t := "export X Y ".toList) (w := "export".toList) (text := "X Y ".toList) (com := some " both".toList) ?_
    (na _ (by decide +kernel)) ⟨[], " ".toList, by decide, by decide, by decide, by decide, by decide⟩ (.exports (by decide)) ?_
  · rw [C17_no_newline _ _ (by decide)]
    have := commentRead_prefix (t := "# both".toList) (k := []) (com := some " both".toList) (CommentRead.cut (k := 0)) 20 "export X Y ".toList
      (by decide) (by decide) (by decide) (by decide)
    simpa using this
  refine .directive (t := "  unexport".toList) (w := "unexport".toList) (text := []) (com := none) (plain _ (by decide) (by decide))
    (na _ (by decide +kernel)) ⟨"  ".toList, [], by decide, by decide, by decide, by decide, by decide⟩ .none ?_
  refine .directive (t := "vpath %.c src".toList) (w := "vpath".toList) (text := "%.c src".toList) (com := none)
    (plain _ (by decide) (by decide)) (na _ (by decide +kernel)) ⟨[], " ".toList, by decide, by decide, by decide, by decide, by decide⟩ .vpath ?_
  exact .vars h2 .nil

def dirRead (fs : FsEnv) : RdEnv (Option LinesState) where
  posix := false
  cmdPrefix _ := '\t'
  expand s t := (s, t)
  defined _ _ := false
  fs := fs
  garbage _ := []
  assign s m q := s.bind fun k => (assignLine asEnv k.vars m q).map fun v => { k with vars := v }
  define s m q b := s.bind fun k => (defineLine asEnv k.vars m q b).map fun v => { k with vars := v }
  targetVar s _ _ _ := s
  directive s w t := s.map fun k => directiveLine asEnv k w t
  record s _ _ := s

def dirStart : LinesState := { vars := ⟨fun _ => .empty, [(0, false)]⟩, exportAll := true }

/-- The concrete makefile is read; afterwards `Y` is exported, though not defined otherwise, and `export` of all is off. -/
example (fs : FsEnv) : ∃ r ts, readMakefile (dirRead fs) (some dirStart) dirMakefile = .done r ∧
    MksDone false (fun _ t => t) (fun _ t => t) ⟨dirStart.vars, true⟩ dirStmts ts (r.map fun k => ⟨k.vars, k.exportAll⟩) ∧
    ∀ k, r = some k → k.exportAll = false ∧ ∃ w, k.vars.sets 0 "Y".toList = some w ∧ w.exp = .export_ := by
  obtain ⟨r, ts, h1, h2, -⟩ := C116_makefile_partial (E := dirRead fs) (D := asEnv) (sh := fun _ t => t)
    ⟨fun _ _ _ => rfl, fun _ _ _ _ => rfl, fun _ _ _ _ => rfl⟩
    (fun _ _ => rfl) (fun _ _ => rfl) (c := '\t') (fun _ => rfl) dirText (by decide) dirStart rfl
  refine ⟨r, ts, h1, h2, ?_⟩
  rintro k rfl
  constructor
  · exact C116_all (before := dirStmts.take 2) (after := dirStmts.drop 3) h2 (by intro b hb; simp [dirStmts] at hb)
  · refine C116_last (before := dirStmts.take 1) (after := dirStmts.drop 2) (on := true) (text := "X Y ".toList) h2
      (by intro _; decide) ?_
    intro t ht
    simp only [dirStmts, List.drop_succ_cons, List.drop_zero, List.mem_cons, List.not_mem_nil, or_false] at ht
    rcases ht with rfl | rfl | rfl
    · trivial
    · trivial
    · exact .inl rfl

end Remake
