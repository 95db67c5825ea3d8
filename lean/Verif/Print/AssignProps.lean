import Verif.Print.AssignSpec
import Verif.Print.Props2
/-!
# What assignments in a makefile do (C115)
-/
namespace Remake

set_option linter.unusedVariables false
set_option linter.unusedSimpArgs false

open Spec

section
variable {E : RdEnv (Option DefState)} {D : DefEnv}

/-- A definition made at the end of `do_variable_definition` and then marked. -/
theorem finish_marks (D : DefEnv) (st : DefState) (n p : Str) (m : VMods) (o : Origin) (r a c : Bool) :
    let st' := applyModsIn (finishDefinition D st n p o r false a c) m 0 n
    Assigned D.envOv (st.sets 0 n) (st'.sets 0 n) p o r ∧ SameElsewhere st st' 0 n ∧
      ∃ w, st'.sets 0 n = some w ∧ (w.exp = if m.exportV then .export_ else (st.sets 0 n).elim .default (·.exp)) ∧
        (w.priv = true ↔ m.privateV = true ∨ ∃ o, st.sets 0 n = some o ∧ o.priv = true) := by
  intro st'
  have hs : st'.sets 0 n = some (applyMods m { defineVar D.envOv (st.sets 0 n) n [] p o r with append := a, conditional := c }) := by
    simp [st', applyModsIn, finishDefinition, VarSet.put]
  have h1 := finish_assigned D st n p o r false a c
  rw [show destination st false = 0 by simp [destination]] at h1
  have e1 : (finishDefinition D st n p o r false a c).sets 0 n =
      some { defineVar D.envOv (st.sets 0 n) n [] p o r with append := a, conditional := c } := by
    simp [finishDefinition, VarSet.put]
  refine ⟨?_, ⟨rfl, ?_⟩, _, hs, ?_, ?_⟩
  · rw [hs]
    rw [e1] at h1
    obtain ⟨w, hw, h⟩ := h1
    cases hw
    refine ⟨_, rfl, ?_⟩
    have ev : ∀ v : Var, (applyMods m v).value = v.value := by intro v; unfold applyMods; simp only []; split <;> split <;> rfl
    have er : ∀ v : Var, (applyMods m v).recursive = v.recursive := by intro v; unfold applyMods; simp only []; split <;> split <;> rfl
    have eo : ∀ v : Var, (applyMods m v).origin = v.origin := by intro v; unfold applyMods; simp only []; split <;> split <;> rfl
    rw [ev, er, eo]; exact h
  · intro j k hjk
    simp only [st', applyModsIn, finishDefinition]
    by_cases hj : j = 0
    · subst hj
      have : k ≠ n := fun h => hjk ⟨rfl, h⟩
      simp only [if_true, Bool.false_eq_true, if_false, put_other _ _ this]
    · simp [hj]
  · unfold applyMods defineVar
    cases st.sets 0 n with
    | none => cases m.exportV <;> cases m.privateV <;> simp
    | some v => cases m.exportV <;> cases m.privateV <;> simp <;> split <;> rfl
  · unfold applyMods defineVar
    cases st.sets 0 n with
    | none => cases m.exportV <;> cases m.privateV <;> simp
    | some v => cases m.exportV <;> cases m.privateV <;> simp <;> split <;> rfl

/-- A variable that is only marked. -/
theorem marks_only (D : DefEnv) (st : DefState) (n : Str) (m : VMods) (o : Var) (ho : st.sets 0 n = some o) :
    let st' := applyModsIn st m 0 n
    SameElsewhere st st' 0 n ∧
      ∃ w, st'.sets 0 n = some w ∧ (w.exp = if m.exportV then .export_ else (st.sets 0 n).elim .default (·.exp)) ∧
        (w.priv = true ↔ m.privateV = true ∨ ∃ o, st.sets 0 n = some o ∧ o.priv = true) ∧
        ∃ o, st.sets 0 n = some o ∧ w.value = o.value ∧ w.recursive = o.recursive ∧ w.origin = o.origin := by
  intro st'
  have hs : st'.sets 0 n = some (applyMods m o) := by simp [st', applyModsIn, VarSet.put, ho]
  refine ⟨⟨rfl, ?_⟩, _, hs, ?_, ?_, o, ho, ?_⟩
  · intro j k hjk
    simp only [st', applyModsIn]
    by_cases hj : j = 0
    · subst hj
      have : k ≠ n := fun h => hjk ⟨rfl, h⟩
      simp only [if_true, Bool.false_eq_true, if_false, put_other _ _ this]
    · simp [hj]
  · rw [ho]; unfold applyMods; cases m.exportV <;> cases m.privateV <;> simp
  · rw [ho]; unfold applyMods; cases m.exportV <;> cases m.privateV <;> simp
  · unfold applyMods; cases m.exportV <;> cases m.privateV <;> simp

theorem locate_global {st : DefState} (hch : st.chain = [(0, false)]) (n : Str) :
    locateGo st false st.chain n = if (st.sets 0 n).isSome then some 0 else none := by
  rw [hch, locateGo]
  cases st.sets 0 n <;> simp [locateGo]

/-- The definition and the marks together. -/
theorem definition_done {xp sh : DefState → Str → Str} (hx : ∀ st t, D.expand st t = (st, xp st t))
    (hsh : ∀ st t, D.shell st t = (st, sh st t)) {st : DefState} (hch : st.chain = [(0, false)]) (n v : Str) (m : VMods)
    (f : Flavor) (hf : ∃ op, Op op f) :
    ∃ st', ((doVariableDefinition D st n v (lineOrigin m) f false).map fun s => applyModsIn s m (returnedSet D st n v f) n) = some st' ∧
      VarDone D.envOv (xp st) (sh st) m f v (st.sets 0 n) (st'.sets 0 n) ∧ SameElsewhere st st' 0 n := by
  have fin : ∀ p r a c, opResult (xp st) (sh st) (st.sets 0 n) f v = some (p, r) →
      doVariableDefinition D st n v (lineOrigin m) f false = some (finishDefinition D st n p (lineOrigin m) r false a c) →
      returnedSet D st n v f = 0 →
      ∃ st', ((doVariableDefinition D st n v (lineOrigin m) f false).map fun s => applyModsIn s m (returnedSet D st n v f) n) = some st' ∧
      VarDone D.envOv (xp st) (sh st) m f v (st.sets 0 n) (st'.sets 0 n) ∧ SameElsewhere st st' 0 n := by
    intro p r a c h1 h2 h3
    obtain ⟨g1, g2, w, g3, g4, g5⟩ := finish_marks D st n p m (lineOrigin m) r a c
    refine ⟨_, by rw [h2, h3]; rfl, ⟨w, g3, g4, g5, ?_⟩, g2⟩
    rw [h1]; exact g1
  have keep : opResult (xp st) (sh st) (st.sets 0 n) f v = none → (∃ o, st.sets 0 n = some o) →
      doVariableDefinition D st n v (lineOrigin m) f false = some st → returnedSet D st n v f = 0 →
      ∃ st', ((doVariableDefinition D st n v (lineOrigin m) f false).map fun s => applyModsIn s m (returnedSet D st n v f) n) = some st' ∧
      VarDone D.envOv (xp st) (sh st) m f v (st.sets 0 n) (st'.sets 0 n) ∧ SameElsewhere st st' 0 n := by
    rintro h1 ⟨o, ho⟩ h2 h3
    obtain ⟨g1, w, g3, g4, g5, g6⟩ := marks_only D st n m o ho
    refine ⟨_, by rw [h2, h3]; rfl, ⟨w, g3, g4, g5, ?_⟩, g1⟩
    rw [h1]; exact g6
  have hl := locate_global hch n
  obtain ⟨op, hop⟩ := hf
  cases hop with
  | rec_ => exact fin v true false false rfl rfl rfl
  | simple => exact fin _ false false false rfl (by simp only [doVariableDefinition, hx]) rfl
  | posix => exact fin _ false false false rfl (by simp only [doVariableDefinition, hx]) rfl
  | shell => exact fin _ true false false rfl (by simp only [doVariableDefinition, hx, hsh]) rfl
  | cond =>
    cases ho : st.sets 0 n with
    | none =>
      rw [ho] at hl fin
      have := fin v true false true (by simp [opResult]) (by simp [doVariableDefinition, hl]) (by simp [returnedSet, hl])
      simpa [ho] using this
    | some o =>
      rw [ho] at hl keep
      have := keep (by simp [opResult]) ⟨o, rfl⟩ (by simp [doVariableDefinition, hl]) (by simp [returnedSet, hl])
      simpa [ho] using this
  | append =>
    cases ho : st.sets 0 n with
    | none =>
      rw [ho] at hl fin
      have := fin v true false false (by simp [opResult]) (by simp [doVariableDefinition, hl]) (by simp [returnedSet, hl])
      simpa [ho] using this
    | some o =>
      rw [ho] at hl keep fin
      simp only [Option.isSome_some, if_true] at hl
      by_cases hn : (if o.recursive then v else xp st v) = []
      · have := keep (by simp only [opResult]; rw [if_pos hn]) ⟨o, rfl⟩
          (by
            simp only [doVariableDefinition, hl, ho]
            cases hr : o.recursive <;> simp [hr] at hn <;> simp [hr, hx, ho, hn])
          (by
            simp only [returnedSet, hl, ho]
            cases hr : o.recursive <;> simp [hr] at hn <;> simp [hr, hx, ho, hn])
        simpa [ho] using this
      · have := fin (if o.value = [] then (if o.recursive then v else xp st v) else o.value ++ [' '] ++ (if o.recursive then v else xp st v))
          o.recursive false false (by simp only [opResult]; rw [if_neg hn])
          (by
            simp only [doVariableDefinition, hl, ho]
            cases hr : o.recursive <;> simp [hr] at hn <;> simp [hr, hx, ho, hn])
          (by
            simp only [returnedSet, hl, ho]
            cases hr : o.recursive <;> simp [hr] at hn <;> simp [hr, hx, ho, hn])
        simpa [ho] using this

theorem nextToken_parts (s : Str) : ∃ a, s = a ++ nextToken s ∧ (∀ c ∈ a, isSpace c = true) ∧
    (nextToken s).head?.all (fun c => !isSpace c) = true := by
  refine ⟨s.takeWhile isSpace, (List.takeWhile_append_dropWhile).symm, fun c hc => mem_takeWhile_imp hc, ?_⟩
  unfold nextToken
  cases h : s.dropWhile isSpace with
  | nil => rfl
  | cons c r =>
    have := List.head?_dropWhile_not isSpace s
    rw [h] at this
    simpa using this

/-- The name of `define` and `undefine`. -/
theorem chop_trimmed {s : Str} (h : nextToken s ≠ []) : NameTrimmed s (chopBlanks (nextToken s)) ∧ chopBlanks (nextToken s) ≠ [] := by
  obtain ⟨a, h1, h2, h3⟩ := nextToken_parts s
  cases hn : nextToken s with
  | nil => exact absurd hn h
  | cons c r =>
    rw [hn] at h1 h3
    refine ⟨⟨a, (r.reverse.takeWhile isBlank).reverse, ?_, h2, ?_, ?_, ?_⟩, by simp [chopBlanks]⟩
    · rw [h1, chopBlanks]
      have := List.takeWhile_append_dropWhile (p := isBlank) (l := r.reverse)
      have := congrArg List.reverse this
      rw [List.reverse_append, List.reverse_reverse] at this
      simp [this]
    · intro x hx
      rw [List.mem_reverse] at hx
      exact mem_takeWhile_imp hx
    · simpa [chopBlanks] using h3
    · rw [chopBlanks]
      cases hd : r.reverse.dropWhile isBlank with
      | nil =>
        have : isSpace c = false := by simpa using h3
        simp only [List.reverse_nil, List.getLast?_singleton, Option.all_some, Bool.not_eq_true']
        simp only [isSpace, Bool.or_eq_false_iff] at this
        exact this.1
      | cons d r' =>
        have := List.head?_dropWhile_not isBlank r.reverse
        rw [hd] at this
        simp only [List.reverse_cons]
        rw [List.getLast?_cons, List.getLast?_append]
        simpa using this

theorem assign_done {xp sh : DefState → Str → Str} (hx : ∀ st t, D.expand st t = (st, xp st t))
    (hsh : ∀ st t, D.shell st t = (st, sh st t)) {st : DefState} (hch : st.chain = [(0, false)]) {m : VMods} {q n v : Str} {f : Flavor}
    (hm : m.undefineV = false) (hq : IsAssignment q n f v) : StmtDone D.envOv xp sh st (.assign m n f v) (assignLine D st m q) := by
  have hp := (C27_recognised q n f v).mpr hq
  unfold assignLine
  rw [if_neg (by rw [hm]; simp), hp]
  simp only [hx]
  by_cases h0 : xp st n = []
  · rw [if_pos h0]; exact .noName h0
  · rw [if_neg h0]
    obtain ⟨lead, gap, op, rest, -, -, -, -, -, hop, -⟩ := hq
    obtain ⟨st', g1, g2, g3⟩ := definition_done hx hsh hch (xp st n) v m f ⟨op, hop⟩
    rw [g1]
    exact .assign h0 g2 g3

theorem define_done {xp sh : DefState → Str → Str} (hx : ∀ st t, D.expand st t = (st, xp st t))
    (hsh : ∀ st t, D.shell st t = (st, sh st t)) {st : DefState} (hch : st.chain = [(0, false)]) {m : VMods} {q n body : Str} {f : Flavor}
    (hq : DefineHead q n f) : StmtDone D.envOv xp sh st (.define m n f body) (defineLine D st m q body) := by
  have key : defineHead q = (f, n) ∧ ∃ op, Op op f := by
    unfold defineHead
    rcases hq with ⟨v, hq⟩ | ⟨h1, rfl, rfl⟩
    · rw [(C27_recognised q n f v).mpr hq]
      obtain ⟨lead, gap, op, rest, -, -, -, -, -, hop, -⟩ := hq
      exact ⟨rfl, op, hop⟩
    · cases hp : parseVariableDefinition n with
      | none => exact ⟨rfl, _, .rec_⟩
      | some a => exact absurd ⟨_, _, _, (C27_recognised n a.name a.flavor a.value).mp hp⟩ h1
  unfold defineLine
  rw [key.1]
  simp only [hx]
  by_cases h0 : nextToken (xp st n) = []
  · rw [if_pos h0]
    exact .defineNoName (nextToken_nil_iff.1 h0)
  · rw [if_neg h0]
    obtain ⟨st', g1, g2, g3⟩ := definition_done hx hsh hch (chopBlanks (nextToken (xp st n))) body m f key.2
    rw [g1]
    exact .define (chop_trimmed h0).1 (chop_trimmed h0).2 g2 g3

theorem undefine_done {xp sh : DefState → Str → Str} (hx : ∀ st t, D.expand st t = (st, xp st t)) {st : DefState} {m : VMods} {q : Str}
    (hm : m.undefineV = true) : StmtDone D.envOv xp sh st (.undefine m q) (assignLine D st m q) := by
  unfold assignLine doUndefine
  rw [if_pos hm]
  simp only [hx]
  by_cases h0 : nextToken (xp st q) = []
  · rw [if_pos h0]; exact .undefineNoName (nextToken_nil_iff.1 h0)
  · rw [if_neg h0]
    refine .undefine (chop_trimmed h0).1 (chop_trimmed h0).2 ?_ ⟨rfl, ?_⟩
    · obtain ⟨a, b, -⟩ := C22_undefine D.envOv (st.sets 0) (chopBlanks (nextToken (xp st q))) (lineOrigin m)
      simp only [if_true]
      exact ⟨a, b⟩
    · intro j k hjk
      by_cases hj : j = 0
      · subst hj
        have : k ≠ chopBlanks (nextToken (xp st q)) := fun h => hjk ⟨rfl, h⟩
        simp [VarSet.undefine, VarSet.put, this]
      · simp [hj]

/-- What the reader looks at, up to white space at its start. -/
theorem read_stripped {posix : Bool} {l t : Str} {com : Option Str} (h : CommentRead (collapseContinuations posix l) t com) :
    evalText posix l = nextToken t := by rw [evalText, (C18_comments _ _ _ h).1]

theorem assignLine_token {t : Str} : parseVarAssignment (nextToken t) = parseVarAssignment t := by
  have : nextToken (nextToken t) = nextToken t := by
    obtain ⟨a, h1, h2, h3⟩ := nextToken_parts t
    cases h : nextToken t with
    | nil => rfl
    | cons c r => rw [h] at h3; simp [nextToken] at h3 ⊢; simp [h3]
  unfold parseVarAssignment
  simp only [this]

theorem removeComments_nil : removeComments [] = [] := (C18_comments _ _ _ .nil).1

theorem line_step {posix : Bool} {l t q : Str} {com : Option Str} {m : VMods}
    (h : CommentRead (collapseContinuations posix l) t com) (ha : AssignLine t m q) :
    l ≠ [] ∧ parseVarAssignment (evalText posix l) = some (m, q) := by
  have hp : parseVarAssignment (evalText posix l) = some (m, q) := by
    rw [read_stripped h, assignLine_token]; exact (C90_modifiers t m q).mpr ha
  refine ⟨?_, hp⟩
  rintro rfl
  revert hp
  rw [evalText, C17_no_newline posix [] (by simp)]
  intro hp; simp [removeComments_nil, nextToken, parseVarAssignment] at hp

/-- The loop over the lines. -/
theorem read_stmts (hE : CarriesOut E D) {xp sh : DefState → Str → Str} (hx : ∀ st t, D.expand st t = (st, xp st t))
    (hsh : ∀ st t, D.shell st t = (st, sh st t)) {c : Char} (hc : ∀ s, E.cmdPrefix s = c) {ls : List Str} {ss : List VarStmt}
    (h : VarText E.posix c ls ss) : ∀ s : Option DefState,
      ∃ r, evalLoop (readerEnv E) (atLine s) [] false false ls = .done (atLine r) ∧ (s = none → r = none) ∧
        ∀ st, s = some st → st.chain = [(0, false)] → StmtsDone D.envOv xp sh st ss r := by
  induction h with
  | nil =>
    intro s
    refine ⟨s, ?_, id, ?_⟩
    · rw [evalLoop, if_pos rfl]
    · rintro st rfl _; exact .nil
  | blank h1 h2 h3 ih =>
    intro s
    rw [atLine_blank _ _ _ (.inr ?_)]
    · exact ih s
    · rw [read_stripped h1]; exact nextToken_nil_iff.2 h2
  | @assign l t q n v com m f ls ss h1 h2 h3 h4 h5 h6 ih =>
    intro s
    obtain ⟨g1, g2⟩ := line_step h1 h2
    rw [atLine_assign _ _ _ _ _ g1 g2 h3, hE.assign]
    obtain ⟨r, k1, k2, k3⟩ := ih (s.bind fun st => assignLine D st m q)
    refine ⟨r, k1, fun e => k2 (by rw [e]; rfl), ?_⟩
    rintro st rfl hch
    have hd := assign_done hx hsh hch h4 h5
    cases ha : assignLine D st m q with
    | none =>
      rw [ha] at hd
      rw [k2 (by rw [Option.bind_some, ha])]
      exact .stop hd
    | some st1 =>
      rw [ha] at hd
      refine .step hd (k3 st1 (by rw [Option.bind_some, ha]) ?_)
      cases hd with
      | assign _ _ hs => exact hs.1.trans hch
  | @undefine l t q com m ls ss h1 h2 h3 h4 h6 ih =>
    intro s
    obtain ⟨g1, g2⟩ := line_step h1 h2
    rw [atLine_assign _ _ _ _ _ g1 g2 h3, hE.assign]
    obtain ⟨r, k1, k2, k3⟩ := ih (s.bind fun st => assignLine D st m q)
    refine ⟨r, k1, fun e => k2 (by rw [e]; rfl), ?_⟩
    rintro st rfl hch
    have hd := undefine_done (D := D) (xp := xp) (sh := sh) hx (st := st) (q := q) h4
    cases ha : assignLine D st m q with
    | none =>
      rw [ha] at hd
      rw [k2 (by rw [Option.bind_some, ha])]
      exact .stop hd
    | some st1 =>
      rw [ha] at hd
      refine .step hd (k3 st1 (by rw [Option.bind_some, ha]) ?_)
      cases hd with
      | undefine _ _ _ hs => exact hs.1.trans hch
  | @define l t q n e com m f body ls ss h1 h2 h3 h4 h5 h6 h7 h8 ih =>
    intro s
    obtain ⟨g1, g2⟩ := line_step h1 h2
    have htake : takeDefine E.posix (E.cmdPrefix s) 1 (body ++ e :: ls) = some (body.map (collapseContinuations E.posix), ls) := by
      rw [hc, C21_define_partial]
      refine ⟨body, e, rfl, h5, h7, ?_⟩
      apply List.map_congr_left
      intro b hb
      exact (C21_text _ _ _ (h6 b hb)).symm
    rw [atLine_define _ _ _ _ _ _ _ g1 g2 h3 htake, hE.define]
    obtain ⟨r, k1, k2, k3⟩ := ih (s.bind fun st => defineLine D st m q (defineValue (body.map (collapseContinuations E.posix))))
    refine ⟨r, k1, fun e => k2 (by rw [e]; rfl), ?_⟩
    rintro st rfl hch
    have hd := define_done (m := m) (body := defineValue (body.map (collapseContinuations E.posix))) hx hsh hch h4
    cases ha : defineLine D st m q (defineValue (body.map (collapseContinuations E.posix))) with
    | none =>
      rw [ha] at hd
      rw [k2 (by rw [Option.bind_some, ha])]
      exact .stop hd
    | some st1 =>
      rw [ha] at hd
      refine .step hd (k3 st1 (by rw [Option.bind_some, ha]) ?_)
      cases hd with
      | define _ _ _ hs => exact hs.1.trans hch

/-- C115 (partial): a makefile of assignments, `define`s and `undefine`s does to the global variables what these say, one after the other.  Partial: expanding
a text must not change variables, and the recipe prefix does not change. -/
theorem C115_makefile_partial (hE : CarriesOut E D) {xp sh : DefState → Str → Str} (hx : ∀ st t, D.expand st t = (st, xp st t))
    (hsh : ∀ st t, D.shell st t = (st, sh st t)) {c : Char} (hc : ∀ s, E.cmdPrefix s = c) {ls : List Str} {ss : List VarStmt}
    (h : VarText E.posix c ls ss) (hb : ∀ l, ls.head? = some l → l.head? ≠ some (Char.ofNat 0xEF)) (st : DefState)
    (hch : st.chain = [(0, false)]) :
    ∃ r, readMakefile E (some st) ls = .done r ∧ StmtsDone D.envOv xp sh st ss r := by
  obtain ⟨r, h1, _, h3⟩ := read_stmts hE hx hsh hc h (some st)
  refine ⟨r, ?_, h3 st rfl hch⟩
  have hskip : skipBom ls = ls := by
    cases ls with
    | nil => rfl
    | cons l ls =>
      have := hb l rfl
      unfold skipBom
      simp only []
      rw [if_neg]
      intro hp
      cases l with
      | nil => simp at hp
      | cons x l =>
        rw [List.isPrefixOf_cons_cons, Bool.and_eq_true] at hp
        exact this (by simp [← (beq_iff_eq.1 hp.1)])
  rw [readMakefile, hskip, evalLines]
  have : ({ env := some st } : RdState (Option DefState)) = atLine (some st) := rfl
  rw [this, h1]
  simp [atLine, flush]

/-- The statement has no `override`. -/
def NoOverride : VarStmt → Prop
  | .assign m _ _ _ => m.overrideV = false
  | .define m _ _ _ => m.overrideV = false
  | .undefine m _ => m.overrideV = false

theorem reported_strength (e : Bool) (o : Origin) : strength e (reported e o) = strength e o := by
  cases e <;> cases o <;> rfl

theorem reported_idem (e : Bool) (o : Origin) : reported e (reported e o) = reported e o := by
  cases e <;> cases o <;> rfl

theorem varDone_keeps {e : Bool} {xp sh : Str → Str} {m : VMods} {f : Flavor} {t : Str} {v : Var} {new : Option Var}
    (hm : m.overrideV = false) (hs : strength e .file < strength e v.origin) (h : VarDone e xp sh m f t (some v) new) :
    ∃ w, new = some w ∧ w.value = v.value ∧ w.recursive = v.recursive ∧ (w.origin = v.origin ∨ w.origin = reported e v.origin) := by
  obtain ⟨w, h1, _, _, h4⟩ := h
  split at h4
  · obtain ⟨o, ho, a, b, d⟩ := h4
    cases ho
    exact ⟨w, h1, a, b, .inl d⟩
  · obtain ⟨w', g1, g2⟩ := h4
    have : stmtOrigin m = .file := by simp [stmtOrigin, hm]
    rw [this] at g2
    rcases g2 with ⟨u, hu, _, a, b, d⟩ | ⟨hall, _⟩
    · cases hu; exact ⟨w', g1, a, b, .inr d⟩
    · exact absurd (hall v rfl) (by omega)

/-- C115: a variable from the command line (or, with `-e`, from the environment) keeps its value through all statements without `override`. -/
theorem C115_kept {e : Bool} {xp sh : DefState → Str → Str} {st st' : DefState} {ss : List VarStmt} {n : Str} {v : Var}
    (h : StmtsDone e xp sh st ss (some st')) (hv : st.sets 0 n = some v) (hs : strength e .file < strength e v.origin)
    (hno : ∀ s ∈ ss, NoOverride s) :
    ∃ w, st'.sets 0 n = some w ∧ w.value = v.value ∧ w.recursive = v.recursive ∧ (w.origin = v.origin ∨ w.origin = reported e v.origin) := by
  generalize hr : some st' = r at h
  induction h generalizing v with
  | nil => cases hr; exact ⟨v, hv, rfl, rfl, .inl rfl⟩
  | stop => cases hr
  | @step st st1 s ss r h1 h2 ih =>
    have hn := hno s (by simp)
    have key : ∃ w, st1.sets 0 n = some w ∧ w.value = v.value ∧ w.recursive = v.recursive ∧
        (w.origin = v.origin ∨ w.origin = reported e v.origin) := by
      cases h1 with
      | assign _ hd he =>
        rename_i m t u f _
        by_cases hnn : n = xp st t
        · subst hnn; rw [hv] at hd; exact varDone_keeps hn hs hd
        · exact ⟨v, by rw [he.2 0 n (fun h => hnn h.2), hv], rfl, rfl, .inl rfl⟩
      | define _ _ hd he =>
        rename_i m t name body f _ _
        by_cases hnn : n = name
        · subst hnn; rw [hv] at hd; exact varDone_keeps hn hs hd
        · exact ⟨v, by rw [he.2 0 n (fun h => hnn h.2), hv], rfl, rfl, .inl rfl⟩
      | undefine _ _ hd he =>
        rename_i m t name _ _
        by_cases hnn : n = name
        · subst hnn
          have : stmtOrigin m = .file := by
            have : m.overrideV = false := hn
            simp [stmtOrigin, this]
          refine ⟨_, hd.2 v hv (by rw [this]; exact hs), rfl, rfl, .inr rfl⟩
        · exact ⟨v, by rw [he.2 0 n (fun h => hnn h.2), hv], rfl, rfl, .inl rfl⟩
    obtain ⟨w, k1, k2, k3, k4⟩ := key
    have hws : strength e .file < strength e w.origin := by
      rcases k4 with k | k <;> rw [k]
      · exact hs
      · rw [reported_strength]; exact hs
    obtain ⟨w', j1, j2, j3, j4⟩ := ih k1 hws (fun s h => hno s (by simp [h])) hr
    refine ⟨w', j1, j2.trans k2, j3.trans k3, ?_⟩
    rcases k4 with k | k <;> rw [k] at j4
    · exact j4
    · rw [reported_idem] at j4; exact .inr (j4.elim id id)

/-- C115: a variable that no statement names does not change. -/
theorem C115_others {e : Bool} {xp sh : DefState → Str → Str} {st st' : DefState} {ss : List VarStmt} {n : Str}
    (h : StmtsDone e xp sh st ss (some st'))
    (hno : ∀ s ∈ ss, ∀ st1, match s with
      | .assign _ t _ _ => xp st1 t ≠ n
      | .define _ t _ _ => ¬ NameTrimmed (xp st1 t) n
      | .undefine _ t => ¬ NameTrimmed (xp st1 t) n) : st'.sets 0 n = st.sets 0 n := by
  generalize hr : some st' = r at h
  induction h with
  | nil => cases hr; rfl
  | stop => cases hr
  | @step st st1 s ss r h1 h2 ih =>
    rw [ih (fun s h => hno s (by simp [h])) hr]
    have hn := hno s (by simp) st
    cases h1 with
    | assign _ hd he => exact he.2 0 n (fun h => hn h.2.symm)
    | define ht _ hd he => exact he.2 0 n (fun h => hn (h.2 ▸ ht))
    | undefine ht _ hd he => exact he.2 0 n (fun h => hn (h.2 ▸ ht))

end

/-! ## A concrete makefile -/

/-- Expansion that leaves texts as they are. -/
def asEnv : DefEnv := ⟨false, fun st t => (st, t), fun st t => (st, t)⟩

def asMakefile : List Str :=
  ["override export X := a".toList, "define Y".toList, "one".toList, "two".toList, "endef".toList, "  undefine Z # gone".toList, "".toList,
    "X += b".toList]

def asStmts : List VarStmt :=
  [.assign { overrideV := true, exportV := true } "X".toList .simple "a".toList, .define { defineV := true } "Y".toList .recursive "one\ntwo".toList,
    .undefine { undefineV := true } "Z ".toList, .assign {} "X".toList .append "b".toList]

theorem asText : VarText false '\t' asMakefile asStmts := by
  have plain : ∀ l : Str, '\n' ∉ l → '#' ∉ l → CommentRead (collapseContinuations false l) l none := fun l h1 h2 => by
    rw [C17_no_newline _ _ h1]; exact commentRead_none h2
  have al : ∀ t m q, parseVarAssignment t = some (m, q) → AssignLine t m q := fun t m q h => (C90_modifiers t m q).mp h
  have ia : ∀ q n f v, parseVariableDefinition q = some ⟨n, f, v⟩ → IsAssignment q n f v := fun q n f v h => (C27_recognised q n f v).mp h
  have mk : ∀ (l : Str) (z : Int), '\n' ∉ l → (if l.head? = some '\t' then 0
      else if isDefineLine (nextToken l) then 1 else if isEndefLine (nextToken l) then -1 else 0) = z →
      defineMark false '\t' l = z := fun l z a b => by rw [mark_plain _ _ _ a]; exact b
  have txt : ∀ l : Str, '\n' ∉ l → l.head? ≠ some '\t' → isDefineLine (nextToken l) = false → isEndefLine (nextToken l) = false →
      ¬ Opens false '\t' l ∧ ¬ Closes false '\t' l := by
    intro l a b c d
    have m0 := mk l 0 a (by simp [c, d])
    refine ⟨fun h => ?_, fun h => ?_⟩
    · rw [(mark_opens _ _ _).mpr h] at m0; cases m0
    · rw [(mark_closes _ _ _).mpr h] at m0; cases m0
  refine .assign (t := "override export X := a".toList) (q := "X := a".toList) (plain _ (by decide) (by decide)) (al _ _ _ (by decide +kernel)) rfl rfl
    (ia _ _ _ _ (by decide +kernel)) ?_
  have t1 := txt "one".toList (by decide) (by decide) (by decide) (by decide)
  have t2 := txt "two".toList (by decide) (by decide) (by decide) (by decide)
  have hd : VarText false '\t' ("define Y".toList :: (["one".toList, "two".toList] ++ "endef".toList :: ["  undefine Z # gone".toList, "".toList, "X += b".toList]))
      (.define { defineV := true } "Y".toList .recursive (['\n'].intercalate (["one".toList, "two".toList].map (collapseContinuations false))) ::
        [.undefine { undefineV := true } "Z ".toList, .assign {} "X".toList .append "b".toList]) := by
    refine .define (t := "define Y".toList) (q := "Y".toList) (plain _ (by decide) (by decide)) (al _ _ _ (by decide +kernel)) rfl
      (.inr ⟨?_, rfl, rfl⟩) (.text t1.1 t1.2 (.text t2.1 t2.2 .nil)) ?_ ((mark_closes _ _ _).mp (mk _ _ (by decide) (by decide))) ?_
    · rintro ⟨n, f, v, h⟩
      have := (C27_recognised _ _ _ _).mpr h
      revert this
      rw [show parseVariableDefinition "Y".toList = none by decide +kernel]
      simp
    · intro b hb
      rcases List.mem_cons.1 hb with rfl | hb
      · exact t1.2
      · rw [List.mem_singleton.1 hb]; exact t2.2
    · refine .undefine (t := "  undefine Z ".toList) (q := "Z ".toList) (com := some " gone".toList) ?_ (al _ _ _ (by decide +kernel)) rfl rfl ?_
      · rw [C17_no_newline _ _ (by decide)]
        have := commentRead_prefix (t := "# gone".toList) (k := []) (com := some " gone".toList) (CommentRead.cut (k := 0)) 20 "  undefine Z ".toList
          (by decide) (by decide) (by decide) (by decide)
        simpa using this
      · refine .blank (t := []) (com := none) (plain _ (by decide) (by decide)) (by simp) ?_
        exact .assign (t := "X += b".toList) (q := "X += b".toList) (plain _ (by decide) (by decide)) (al _ _ _ (by decide +kernel)) rfl rfl
          (ia _ _ _ _ (by decide +kernel)) .nil
  have e : (['\n'].intercalate (["one".toList, "two".toList].map (collapseContinuations false))) = "one\ntwo".toList := by
    simp only [List.map_cons, List.map_nil, C17_no_newline false "one".toList (by decide), C17_no_newline false "two".toList (by decide)]
    decide
  rw [e] at hd
  exact hd

def asRead (fs : FsEnv) : RdEnv (Option DefState) :=
  { prRead fs with
    assign := fun s m q => s.bind fun st => assignLine asEnv st m q
    define := fun s m q b => s.bind fun st => defineLine asEnv st m q b }

example (fs : FsEnv) : ∃ r, readMakefile (asRead fs) (some ⟨fun _ => .empty, [(0, false)]⟩) asMakefile = .done r ∧
    StmtsDone false (fun _ t => t) (fun _ t => t) ⟨fun _ => .empty, [(0, false)]⟩ asStmts r :=
  C115_makefile_partial (D := asEnv) ⟨fun _ _ _ => rfl, fun _ _ _ _ => rfl⟩ (fun _ _ => rfl) (fun _ _ => rfl) (c := '\t') (fun _ => rfl) asText
    (by decide) _ rfl

end Remake
