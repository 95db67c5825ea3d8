import Verif.Reader.Spec
import Verif.Read.CondLemmas
/-! # Lemmas on the reading of makefiles -/
set_option linter.unusedVariables false
set_option linter.unusedSimpArgs false
namespace Remake
open Spec

variable {σ : Type} {E : RdEnv σ}

/-- A reader that has not failed. -/
def live (env : σ) (w : Option Waiting) (cmds : Str) (nt : Bool) : RdState σ :=
  { env := env, waiting := w, commands := cmds, noTargets := nt, failed := none }

theorem parseVarAssignment_nil {p : Str} (h : p = []) : parseVarAssignment p = none := by
  subst h; simp [parseVarAssignment, nextToken]

/-- A line without text, when it is no recipe line. -/
theorem loop_noText {l : Str} (h : NoText E.posix l) (s : RdState σ) (hr : (readerEnv E).recipe s l = false)
    (ls : List Str) :
    evalLoop (readerEnv E) s [] false false (l :: ls) = evalLoop (readerEnv E) s [] false false ls := by
  have h' : evalText (readerEnv E).posix l = [] := h
  have ha : (readerEnv E).assign [] = none := by
    simp only [readerEnv, parseVarAssignment_nil, Option.map_none]
  rw [evalLoop.eq_def]
  by_cases hl : l = []
  · simp [hl]
  · simp only [if_neg hl, hr, h', ha, Bool.false_eq_true, if_false, if_true]

theorem loop_recipe {l : Str} (hl : l ≠ []) (s : RdState σ) (hr : (readerEnv E).recipe s l = true) (ls : List Str) :
    evalLoop (readerEnv E) s [] false false (l :: ls) =
      evalLoop (readerEnv E) ((readerEnv E).addRecipe s l) [] false false ls := by
  rw [evalLoop.eq_def]
  simp only [if_neg hl, hr, Bool.false_eq_true, if_false, if_true]

theorem recipeText_nil (c : Char) : recipeText c [] = [] := rfl
theorem recipeText_cons_pos {c : Char} {l : Str} (h : IsRecipeLine c l) (ls : List Str) :
    recipeText c (l :: ls) = l.tail ++ ['\n'] ++ recipeText c ls := by
  simp [recipeText, h]
theorem recipeText_cons_neg {c : Char} {l : Str} (h : ¬ IsRecipeLine c l) (ls : List Str) :
    recipeText c (l :: ls) = recipeText c ls := by
  simp [recipeText, h]

theorem isRecipeLine_ne {c : Char} {l : Str} (h : IsRecipeLine c l) : l ≠ [] := by
  rintro rfl; cases h

/-- The lines after a rule. -/
theorem loop_trail {c : Char} {trail : List Str} :
    ∀ (env : σ) (w : Waiting) (cmds : Str) (ls : List Str), E.cmdPrefix env = c →
      (∀ l ∈ trail, IsRecipeLine c l ∨ NoText E.posix l) →
      evalLoop (readerEnv E) (live env (some w) cmds false) [] false false (trail ++ ls) =
        evalLoop (readerEnv E) (live env (some w) (cmds ++ recipeText c trail) false) [] false false ls := by
  induction trail with
  | nil => intro env w cmds ls hc h; simp [recipeText_nil]
  | cons l trail ih =>
    intro env w cmds ls hc h
    rw [List.cons_append]
    by_cases hr : IsRecipeLine c l
    · have hr' : (readerEnv E).recipe (live env (some w) cmds false) l = true := by
        have : l.head? = some (E.cmdPrefix env) := by rw [hc]; exact hr
        simp [readerEnv, live, this]
      rw [loop_recipe (isRecipeLine_ne hr) _ hr']
      have : (readerEnv E).addRecipe (live env (some w) cmds false) l =
          live env (some w) (cmds ++ l.tail ++ ['\n']) false := by
        simp [readerEnv, live, unlessFailed]
      rw [this, ih _ _ _ _ hc (fun x hx => h x (List.mem_cons_of_mem _ hx)), recipeText_cons_pos hr]
      simp [List.append_assoc]
    · have hn : NoText E.posix l := (h l (by simp)).resolve_left hr
      have hr' : (readerEnv E).recipe (live env (some w) cmds false) l = false := by
        have : ¬ l.head? = some (E.cmdPrefix env) := by rw [hc]; exact hr
        simp [readerEnv, live, this]
      rw [loop_noText hn _ hr', ih _ _ _ _ hc (fun x hx => h x (List.mem_cons_of_mem _ hx)),
        recipeText_cons_neg hr]

/-- The lines after a rule without targets. -/
theorem loop_trail_none {c : Char} {trail : List Str} :
    ∀ (env : σ) (ls : List Str), E.cmdPrefix env = c →
      (∀ l ∈ trail, IsRecipeLine c l ∨ NoText E.posix l) →
      evalLoop (readerEnv E) (live env none [] true) [] false false (trail ++ ls) =
        evalLoop (readerEnv E) (live env none [] true) [] false false ls := by
  induction trail with
  | nil => intro env ls hc h; simp
  | cons l trail ih =>
    intro env ls hc h
    rw [List.cons_append]
    by_cases hr : IsRecipeLine c l
    · have hr' : (readerEnv E).recipe (live env none [] true) l = true := by
        have : l.head? = some (E.cmdPrefix env) := by rw [hc]; exact hr
        simp [readerEnv, live, this]
      rw [loop_recipe (isRecipeLine_ne hr) _ hr']
      have : (readerEnv E).addRecipe (live env none [] true) l = live env none [] true := by
        simp [readerEnv, live, unlessFailed]
      rw [this, ih _ _ hc (fun x hx => h x (List.mem_cons_of_mem _ hx))]
    · have hn : NoText E.posix l := (h l (by simp)).resolve_left hr
      have hr' : (readerEnv E).recipe (live env none [] true) l = false := by
        have : ¬ l.head? = some (E.cmdPrefix env) := by rw [hc]; exact hr
        simp [readerEnv, live, this]
      rw [loop_noText hn _ hr', ih _ _ hc (fun x hx => h x (List.mem_cons_of_mem _ hx))]

/-- The lines after anything else. -/
theorem loop_trail_closed {trail : List Str} :
    ∀ (env : σ) (ls : List Str), (∀ l ∈ trail, NoText E.posix l) →
      evalLoop (readerEnv E) (live env none [] false) [] false false (trail ++ ls) =
        evalLoop (readerEnv E) (live env none [] false) [] false false ls := by
  induction trail with
  | nil => intro env ls h; simp
  | cons l trail ih =>
    intro env ls h
    rw [List.cons_append, loop_noText (h l (by simp)) _ (by simp [readerEnv, live]),
      ih _ _ (fun x hx => h x (List.mem_cons_of_mem _ hx))]

/-- The states of the reader between stanzas: `o` says that recipe lines are expected. -/
inductive Between (E : RdEnv σ) : Bool → σ → RdState σ → Prop where
  | closed {s : σ} : Between E false s (live s none [] false)
  | ignored {s : σ} : Between E true s (live s none [] true)
  | rule {s : σ} {w : Waiting} {cmds : Str} : Between E true (E.record s w cmds) (live s (some w) cmds false)

theorem between_flush {o : Bool} {s : σ} {t : RdState σ} (h : Between E o s t) : flush E t = live s none [] false := by
  cases h <;> rfl

theorem between_failed {o : Bool} {s : σ} {t : RdState σ} (h : Between E o s t) : t.failed = none := by
  cases h <;> rfl

theorem between_prefix (hs : StablePrefix E) {o : Bool} {s : σ} {t : RdState σ} (h : Between E o s t) :
    E.cmdPrefix t.env = E.cmdPrefix s := by
  cases h
  · rfl
  · rfl
  · rw [hs]; rfl

theorem between_recipe (hs : StablePrefix E) {o : Bool} {s : σ} {t : RdState σ} (h : Between E o s t) (l : Str) :
    (readerEnv E).recipe t l = (decide (IsRecipeLine (E.cmdPrefix s) l) && o) := by
  have := between_prefix hs h
  have e : (readerEnv E).recipe t l = (decide (l.head? = some (E.cmdPrefix t.env)) && (t.noTargets || t.waiting.isSome)) := rfl
  rw [e, this]
  cases h <;> simp [live] <;> rfl

theorem loop_assign {l : Str} {m : VMods} {q : Str} (hl : l ≠ [])
    (ha : parseVarAssignment (evalText E.posix l) = some (m, q)) (hm : m.defineV = false) (t : RdState σ)
    (hr : (readerEnv E).recipe t l = false) (hf : t.failed = none) (ls : List Str) :
    evalLoop (readerEnv E) t [] false false (l :: ls) =
      evalLoop (readerEnv E) { flush E t with env := E.assign (flush E t).env m q } [] false false ls := by
  have ha' : (readerEnv E).assign (evalText (readerEnv E).posix l) = some false := by
    simp only [readerEnv, ha, Option.map_some, hm]
  rw [evalLoop.eq_def]
  simp only [if_neg hl, hr, ha', Bool.false_eq_true, if_false]
  congr 1
  have : parseVarAssignment (evalText (readerEnv E).posix l) = some (m, q) := ha
  simp only [readerEnv] at this ⊢
  simp only [unlessFailed, hf, this, Option.isSome_none, Bool.false_eq_true, if_false]

theorem loop_define {l : Str} {m : VMods} {q : Str} (hl : l ≠ [])
    (ha : parseVarAssignment (evalText E.posix l) = some (m, q)) (hm : m.defineV = true) (t : RdState σ)
    (hr : (readerEnv E).recipe t l = false) (hf : t.failed = none) {body ls rest : List Str}
    (hd : takeDefine E.posix (E.cmdPrefix t.env) 1 ls = some (body, rest)) :
    evalLoop (readerEnv E) t [] false false (l :: ls) =
      evalLoop (readerEnv E) { flush E t with env := E.define (flush E t).env m q (['\n'].intercalate body) } [] false false rest := by
  have ha' : (readerEnv E).assign (evalText (readerEnv E).posix l) = some true := by
    simp only [readerEnv, ha, Option.map_some, hm]
  have hd' : takeDefine (readerEnv E).posix ((readerEnv E).cmdPrefix t) 1 ls = some (body, rest) := hd
  rw [evalLoop.eq_def]
  simp only [if_neg hl, hr, ha', Bool.false_eq_true, if_false, if_true]
  split
  · rename_i h; rw [hd'] at h; cases h
  · rename_i b r h
    rw [hd'] at h
    cases h
    congr 1
    have : parseVarAssignment (evalText (readerEnv E).posix l) = some (m, q) := ha
    simp only [readerEnv] at this ⊢
    simp only [unlessFailed, hf, this, Option.isSome_none, Bool.false_eq_true, if_false]
    rfl

theorem loop_other {l : Str} (hl : l ≠ [])
    (ha : parseVarAssignment (evalText E.posix l) = none) (ht : evalText E.posix l ≠ [])
    (hw : ¬ Reserved (firstWord (evalText E.posix l))) (t : RdState σ)
    (hr : (readerEnv E).recipe t l = false) (hf : t.failed = none) (ls : List Str) :
    evalLoop (readerEnv E) t [] false false (l :: ls) =
      evalLoop (readerEnv E) (otherLine E t l (evalText E.posix l)) [] false false ls := by
  have ha' : (readerEnv E).assign (evalText (readerEnv E).posix l) = none := by
    simp only [readerEnv, ha, Option.map_none]
  have hc : conditionalLine (readerEnv E) t [] (evalText (readerEnv E).posix l) = .notCond := by
    have : condWord (tokenPrefix (evalText E.posix l)) = none := condWord_none hw
    have this' : condWord (tokenPrefix (evalText (readerEnv E).posix l)) = none := this
    unfold conditionalLine
    simp only [this']
  have ht' : evalText (readerEnv E).posix l ≠ [] := ht
  rw [evalLoop.eq_def]
  simp only [if_neg hl, hr, ha', Bool.false_eq_true, if_false, if_neg ht', hc]
  congr 1
  simp only [readerEnv, unlessFailed, hf, Option.isSome_none, Bool.false_eq_true, if_false]

theorem otherLine_directive {l p : Str} (h : tokenPrefix p ∈ directiveWords) (t : RdState σ) :
    otherLine E t l p = { flush E t with
      env := E.directive (flush E t).env (tokenPrefix p) (nextToken (endOfToken p)) } := by
  unfold otherLine
  rw [if_pos h]

/-- The state after a rule line, from the state `t` after `flush`. -/
def afterRule (E : RdEnv σ) (t : RdState σ) (e : σ) : RuleOut → RdState σ
  | .nothing => { t with env := e }
  | .noTargets => { t with env := e, noTargets := true }
  | .fatal x => { t with env := e, failed := some x }
  | .targetVar names m defn => { t with env := E.targetVar e names m defn }
  | .rule w cmd => { t with env := e, waiting := some w, commands := firstCommand cmd }

theorem otherLine_rule {l p : Str} (h : tokenPrefix p ∉ directiveWords) (t : RdState σ)
    (hp : l.head? ≠ some (E.cmdPrefix t.env)) {e : σ} {out : RuleOut}
    (hr : ruleLine E (flush E t).env (cutLine E l).1 (cutLine E l).2.1 (cutLine E l).2.2 = (e, out)) :
    otherLine E t l p = afterRule E (flush E t) e out := by
  unfold otherLine
  rw [if_neg h, if_neg hp]
  simp only [hr]
  cases out <;> rfl

/-! ## Conditionals in recipes -/

theorem condTest_live (s : σ) (w : Option Waiting) (cmds : Str) (nt : Bool) (k : CondKind) (arg : Str) :
    condTest (readerEnv E) (live s w cmds nt) k arg =
      (live (condTest (testEnv E) s k arg).1 w cmds nt, (condTest (testEnv E) s k arg).2) := by
  unfold condTest
  by_cases hk : k = .ifdef ∨ k = .ifndef
  · simp only [if_pos hk, readerEnv, testEnv, live]
    by_cases hn : nextToken (endOfToken (E.expand s arg).2) = [] <;> simp [hn]
  · simp only [if_neg hk]
    cases ifeqFirst arg with
    | none => rfl
    | some q =>
      obtain ⟨termin, a, rest⟩ := q
      simp only
      cases ifeqSecond termin rest with
      | none => rfl
      | some q => rfl

/-- A recipe line or a line without text, while a rule waits. -/
theorem runPlain_recipe {s : σ} {w : Waiting} {cmds l : Str} (h : IsRecipeLine (E.cmdPrefix s) l) :
    runPlain (readerEnv E) (live s (some w) cmds false) l = live s (some w) (cmds ++ (l.tail ++ ['\n'])) false := by
  have hl := isRecipeLine_ne h
  have h' : l.head? = some (E.cmdPrefix s) := h
  simp [runPlain, hl, readerEnv, live, h', unlessFailed]

theorem runPlain_noText {s : σ} {w : Waiting} {cmds l : Str} (h : ¬ IsRecipeLine (E.cmdPrefix s) l)
    (ht : evalText E.posix l = []) :
    runPlain (readerEnv E) (live s (some w) cmds false) l = live s (some w) cmds false := by
  have h' : ¬ l.head? = some (E.cmdPrefix s) := h
  have ht' : evalText (readerEnv E).posix l = [] := ht
  have hr : (readerEnv E).recipe (live s (some w) cmds false) l = false := by simp [readerEnv, live, h']
  have ha : (readerEnv E).assign [] = none := by simp only [readerEnv, parseVarAssignment_nil, Option.map_none]
  unfold runPlain
  simp [ht', hr, ha]

theorem then_some {r : Option (σ × Str)} {f : σ → Option (σ × Str)} {e : σ} {x : Str} (h : Then r f = some (e, x)) :
    ∃ s y z, r = some (s, y) ∧ f s = some (e, z) ∧ x = y ++ z := by
  unfold Then at h
  split at h
  · cases h
  · rename_i s y
    cases hf : f s with
    | none => rw [hf] at h; cases h
    | some q =>
      rw [hf] at h
      simp only [Option.map_some, Option.some.injEq, Prod.mk.injEq] at h
      obtain ⟨rfl, rfl⟩ := h
      exact ⟨s, y, q.2, rfl, hf, rfl⟩

mutual
theorem blk_recipe (b : Blk) {s e : σ} {x : Str} (h : b.recipe E s = some (e, x)) (w : Waiting) (cmds : Str) :
    b.run (readerEnv E) (live s (some w) cmds false) = .done (live e (some w) (cmds ++ x) false) := by
  match b, h with
  | .nil, h =>
    simp only [Blk.recipe, Option.some.injEq, Prod.mk.injEq] at h
    obtain ⟨rfl, rfl⟩ := h
    simp [Blk.run]
  | .plain l b, h =>
    rw [Blk.recipe] at h
    rw [Blk.run]
    by_cases hr : IsRecipeLine (E.cmdPrefix s) l
    · rw [if_pos hr] at h
      obtain ⟨s1, y, z, h1, h2, rfl⟩ := then_some h
      simp only [Option.some.injEq, Prod.mk.injEq] at h1
      obtain ⟨rfl, rfl⟩ := h1
      rw [runPlain_recipe hr, blk_recipe b h2]
      simp [List.append_assoc]
    · rw [if_neg hr] at h
      by_cases ht : evalText E.posix l = []
      · rw [if_pos ht] at h
        rw [runPlain_noText hr ht, blk_recipe b h]
      · rw [if_neg ht] at h; cases h
  | .define _ _ _ _, h => rw [Blk.recipe] at h; cases h
  | .cond hd k body t b, h =>
    rw [Blk.recipe] at h
    rw [Blk.run, condTest_live]
    have hp : (readerEnv E).posix = E.posix := rfl
    rw [hp]
    rcases hc : condTest (testEnv E) s k (afterWord (evalText E.posix hd)) with ⟨s1, _ | _ | _⟩
    · rw [hc] at h; cases h
    · rw [hc] at h
      obtain ⟨s2, y, z, h1, h2, rfl⟩ := then_some h
      simp only
      rw [tail_recipe t h1]
      simp only [andThen]
      rw [blk_recipe b h2, List.append_assoc]
    · rw [hc] at h
      obtain ⟨s2, y, z, h1, h2, rfl⟩ := then_some h
      simp only
      rw [blk_recipe body h1]
      simp only [andThen]
      rw [blk_recipe b h2, List.append_assoc]
theorem tail_recipe (t : Tail) {s e : σ} {x : Str} (h : t.recipe E s = some (e, x)) (w : Waiting) (cmds : Str) :
    t.run (readerEnv E) (live s (some w) cmds false) = .done (live e (some w) (cmds ++ x) false) := by
  match t, h with
  | .endif _, h =>
    simp only [Tail.recipe, Option.some.injEq, Prod.mk.injEq] at h
    obtain ⟨rfl, rfl⟩ := h
    simp [Tail.run]
  | .els _ body _, h =>
    rw [Tail.recipe] at h
    rw [Tail.run, blk_recipe body h]
  | .elif l k body t, h =>
    rw [Tail.recipe] at h
    rw [Tail.run, condTest_live]
    have hp : (readerEnv E).posix = E.posix := rfl
    rw [hp]
    rcases hc : condTest (testEnv E) s k (afterWord (afterWord (evalText E.posix l))) with ⟨s1, _ | _ | _⟩
    · rw [hc] at h; cases h
    · rw [hc] at h
      simp only at h ⊢
      rw [tail_recipe t h]
    · rw [hc] at h
      simp only at h ⊢
      rw [blk_recipe body h]
end

/-- Each stanza. -/
theorem stanza_step (hs : StablePrefix E) {o o' : Bool} {s e : σ} {t : RdState σ} {z : Stanza}
    (hb : Between E o s t) (ho : o = true → ¬ IsRecipeLine (E.cmdPrefix s) z.head) (hm : StanzaMeans E s z e o')
    (ls : List Str) :
    ∃ t', Between E o' e t' ∧
      evalLoop (readerEnv E) t [] false false (z.lines ++ ls) = evalLoop (readerEnv E) t' [] false false ls := by
  have hfl := between_flush hb
  have hf := between_failed hb
  have hr : (readerEnv E).recipe t z.head = false := by
    rw [between_recipe hs hb]
    cases o with
    | false => simp
    | true => simp [ho rfl]
  have hpre := between_prefix hs hb
  have rule : ∀ {e : σ} {out : RuleOut}, ReadsRule E s z e out → ∀ ls,
      evalLoop (readerEnv E) t [] false false (z.head :: ls) =
        evalLoop (readerEnv E) (afterRule E (live s none [] false) e out) [] false false ls := by
    intro e out h ls
    obtain ⟨⟨h1, h2, h3⟩, h4, h5, h6, h7⟩ := h
    rw [loop_other h1 h2 (h3 rfl).1 (h3 rfl).2 t hr hf]
    congr 1
    rw [otherLine_rule (e := e) (out := out) h4 t (by rw [hpre]; exact h5) (by rw [hfl]; exact h7), hfl]
  unfold Stanza.lines
  rw [List.cons_append, List.append_assoc]
  cases hm with
  | assign h hd hi ht =>
    obtain ⟨h1, h2, -⟩ := h
    refine ⟨_, .closed, ?_⟩
    rw [loop_assign h1 h2 hd t hr hf, hfl, hi, List.nil_append]
    exact loop_trail_closed _ _ ht
  | define h hd hi ht =>
    obtain ⟨h1, h2, -⟩ := h
    refine ⟨_, .closed, ?_⟩
    rw [loop_define h1 h2 hd t hr hf (by rw [hpre]; exact hi _), hfl]
    exact loop_trail_closed _ _ ht
  | directive h hd hi ht =>
    obtain ⟨h1, h2, h3⟩ := h
    refine ⟨_, .closed, ?_⟩
    rw [loop_other h1 h2 (h3 rfl).1 (h3 rfl).2 t hr hf, otherLine_directive hd, hfl, hi, List.nil_append]
    exact loop_trail_closed _ _ ht
  | nothing h ht =>
    refine ⟨_, .closed, ?_⟩
    rw [rule h, h.2.2.2.1, List.nil_append]
    exact loop_trail_closed _ _ ht
  | targetVar h ht =>
    refine ⟨_, .closed, ?_⟩
    rw [rule h, h.2.2.2.1, List.nil_append]
    exact loop_trail_closed _ _ ht
  | noTargets h ht =>
    refine ⟨_, .ignored, ?_⟩
    rw [rule h, h.2.2.2.1, List.nil_append]
    exact loop_trail_none _ _ rfl ht
  | rule h ht =>
    refine ⟨_, .rule, ?_⟩
    rw [rule h, h.2.2.2.1, List.nil_append]
    exact loop_trail _ _ _ _ rfl ht
  | @ruleCond e e' w cmd b text h ht hw hx =>
    refine ⟨_, .rule, ?_⟩
    rw [rule h, h.2.2.2.1, List.nil_append, ht, blk_run _ hw _ [] rfl]
    have : afterRule E (live s none [] false) e (.rule w cmd) = live e (some w) (firstCommand cmd) false := rfl
    rw [this, blk_recipe _ hx]
    rfl

theorem stanzas_run (hs : StablePrefix E) {o : Bool} {s s' : σ} {zs : List Stanza} (h : Stanzas E o s zs s') :
    ∀ {t : RdState σ}, Between E o s t →
      ∃ o' t', Between E o' s' t' ∧ evalLoop (readerEnv E) t [] false false (zs.flatMap Stanza.lines) = .done t' := by
  induction h with
  | nil =>
    intro t hb
    exact ⟨_, t, hb, by rw [List.flatMap_nil, evalLoop.eq_def]; rfl⟩
  | cons ho hm hrest ih =>
    intro t hb
    obtain ⟨t1, hb1, e1⟩ := stanza_step hs hb ho hm _
    obtain ⟨o', t2, hb2, e2⟩ := ih hb1
    exact ⟨o', t2, hb2, by rw [List.flatMap_cons, e1, e2]⟩

/-! ## Every makefile without conditionals is a sequence of stanzas, or a fatal error -/

/-- `eval` stops with a fatal error. -/
def Fails (r : EvalRes (RdState σ)) : Prop := r = .fatal ∨ ∃ t, r = .done t ∧ t.failed.isSome = true

theorem takeDefine_split {posix : Bool} {c : Char} : ∀ {ls : List Str} {n : Nat} {b r},
    takeDefine posix c n ls = some (b, r) →
    ∃ inner, ls = inner ++ r ∧ ∀ rest, takeDefine posix c n (inner ++ rest) = some (b, rest) := by
  intro ls
  induction ls with
  | nil => intro n b r h; simp [takeDefine] at h
  | cons l ls ih =>
    intro n b r h
    simp only [takeDefine] at h
    split at h
    · rename_i hc
      simp only [Option.some.injEq, Prod.mk.injEq] at h
      obtain ⟨rfl, rfl⟩ := h
      exact ⟨[l], rfl, fun rest => by simp only [List.cons_append, List.nil_append, takeDefine, if_pos hc]⟩
    · rename_i hc
      cases ht : takeDefine posix c (if defineMark posix c l = 1 then n + 1 else if defineMark posix c l = -1 then n - 1 else n) ls with
      | none => rw [ht] at h; simp at h
      | some q =>
        obtain ⟨b', r'⟩ := q
        rw [ht] at h; simp only [Option.map_some, Option.some.injEq, Prod.mk.injEq] at h
        obtain ⟨rfl, rfl⟩ := h
        obtain ⟨inner, e, hi⟩ := ih ht
        refine ⟨l :: inner, by rw [e]; rfl, fun rest => ?_⟩
        simp only [List.cons_append, takeDefine, if_neg hc, hi rest, Option.map_some]

/-- Once failed, always failed. -/
theorem loop_failed : ∀ (n : Nat) (ls : List Str), ls.length ≤ n →
    (∀ l ∈ ls, ¬ Reserved (firstWord (evalText E.posix l))) → ∀ (t : RdState σ), t.failed.isSome = true →
    Fails (evalLoop (readerEnv E) t [] false false ls) := by
  intro n
  induction n with
  | zero =>
    intro ls hn hc t ht
    have : ls = [] := List.length_eq_zero_iff.1 (by omega)
    subst this
    rw [evalLoop.eq_def]
    exact .inr ⟨t, rfl, ht⟩
  | succ n ih =>
    intro ls hn hc t ht
    cases ls with
    | nil => rw [evalLoop.eq_def]; exact .inr ⟨t, rfl, ht⟩
    | cons l ls =>
      have hn' : ls.length ≤ n := by simpa using hn
      have hc' : ∀ x ∈ ls, ¬ Reserved (firstWord (evalText E.posix x)) := fun x hx => hc x (List.mem_cons_of_mem _ hx)
      have keep : ∀ f : RdState σ → RdState σ, unlessFailed t f = t := by intro f; simp [unlessFailed, ht]
      have k1 : (readerEnv E).addRecipe t l = t := by simp only [readerEnv]; exact keep _
      have k2 : ∀ p, (readerEnv E).doAssign t p = t := by intro p; simp only [readerEnv]; exact keep _
      have k3 : ∀ p b, (readerEnv E).doDefine t p b = t := by intro p b; simp only [readerEnv]; exact keep _
      have k4 : ∀ p, (readerEnv E).other t l p = t := by intro p; simp only [readerEnv]; exact keep _
      rw [evalLoop.eq_def]
      simp only [k1, k2, k3, k4, Bool.false_eq_true, if_false]
      split
      · exact ih _ hn' hc' t ht
      split
      · exact ih _ hn' hc' t ht
      split
      · split
        · split
          · exact .inl rfl
          · rename_i h
            have := takeDefine_length h
            obtain ⟨inner, e, -⟩ := takeDefine_split h
            exact ih _ (by omega) (fun x hx => hc' x (by rw [e]; simp [hx])) t ht
        · exact ih _ hn' hc' t ht
      · split
        · exact ih _ hn' hc' t ht
        · have hcl : conditionalLine (readerEnv E) t [] (evalText (readerEnv E).posix l) = .notCond := by
            have : condWord (tokenPrefix (evalText E.posix l)) = none := condWord_none (hc l (by simp))
            have this' : condWord (tokenPrefix (evalText (readerEnv E).posix l)) = none := this
            unfold conditionalLine
            simp only [this']
          simp only [hcl]
          exact ih _ hn' hc' t ht

/-- What the lines after a stanza do to the state of the reader. -/
inductive Waits (E : RdEnv σ) : RdState σ → List Str → Bool → σ → Prop where
  | closed {s : σ} {trail : List Str} : (∀ l ∈ trail, NoText E.posix l) →
      Waits E (live s none [] false) trail false s
  | ignored {s : σ} {trail : List Str} : (∀ l ∈ trail, IsRecipeLine (E.cmdPrefix s) l ∨ NoText E.posix l) →
      Waits E (live s none [] true) trail true s
  | rule {s : σ} {w : Waiting} {cmds : Str} {trail : List Str} :
      (∀ l ∈ trail, IsRecipeLine (E.cmdPrefix s) l ∨ NoText E.posix l) →
      Waits E (live s (some w) cmds false) trail true (E.record s w (cmds ++ recipeText (E.cmdPrefix s) trail))

/-- The reader between stanzas. -/
def AtStanza (E : RdEnv σ) (t : RdState σ) : Prop := ∃ o s, Between E o s t

/-- The decomposition of the remaining lines. -/
def Decomposed (E : RdEnv σ) (t : RdState σ) (ls : List Str) : Prop :=
  ∃ trail zs o s s', ls = trail ++ zs.flatMap Stanza.lines ∧ Waits E t trail o s ∧ Stanzas E o s zs s'

theorem decomposed_nil {t : RdState σ} (h : AtStanza E t) : Decomposed E t [] := by
  obtain ⟨o, s, h⟩ := h
  cases h with
  | closed => exact ⟨[], [], _, _, _, rfl, .closed (by simp), .nil⟩
  | ignored => exact ⟨[], [], _, _, _, rfl, .ignored (by simp), .nil⟩
  | rule => exact ⟨[], [], _, _, _, rfl, .rule (by simp), .nil⟩

/-- A stanza at the start. -/
theorem decomposed_stanza {o o' : Bool} {s e : σ} {t : RdState σ} {z : Stanza} (hb : Between E o s t)
    (ho : o = true → ¬ IsRecipeLine (E.cmdPrefix s) z.head) (hm : StanzaMeans E s z e o')
    {zs : List Stanza} {s' : σ} (hz : Stanzas E o' e zs s') : Decomposed E t (z.lines ++ zs.flatMap Stanza.lines) := by
  cases hb with
  | closed =>
    exact ⟨[], z :: zs, _, _, _, rfl, .closed (by simp), .cons ho hm hz⟩
  | ignored => exact ⟨[], z :: zs, _, _, _, rfl, .ignored (by simp), .cons ho hm hz⟩
  | rule =>
    refine ⟨[], z :: zs, _, _, s', rfl, .rule (by simp), ?_⟩
    rw [recipeText_nil, List.append_nil]
    exact .cons ho hm hz

/-- A line that belongs to what is before it. -/
theorem decomposed_trail {t t' : RdState σ} {l : Str} {ls : List Str} (hd : Decomposed E t' ls)
    (hw : ∀ {trail o s}, Waits E t' trail o s → Waits E t (l :: trail) o s) : Decomposed E t (l :: ls) := by
  obtain ⟨trail, zs, o, s, s', rfl, h1, h2⟩ := hd
  exact ⟨l :: trail, zs, o, s, s', rfl, hw h1, h2⟩

theorem decompose (hs : StablePrefix E) : ∀ (n : Nat) (ls : List Str), ls.length ≤ n →
    (∀ l ∈ ls, ¬ Reserved (firstWord (evalText E.posix l))) → ∀ (t : RdState σ), AtStanza E t →
    Decomposed E t ls ∨ Fails (evalLoop (readerEnv E) t [] false false ls) := by
  intro n
  induction n with
  | zero =>
    intro ls hn hc t ht
    have : ls = [] := List.length_eq_zero_iff.1 (by omega)
    subst this
    exact .inl (decomposed_nil ht)
  | succ n ih =>
    intro ls hn hc t ht
    cases ls with
    | nil => exact .inl (decomposed_nil ht)
    | cons l ls =>
      have hn' : ls.length ≤ n := by simpa using hn
      have hc' : ∀ x ∈ ls, ¬ Reserved (firstWord (evalText E.posix x)) := fun x hx => hc x (List.mem_cons_of_mem _ hx)
      obtain ⟨o, s, hb⟩ := ht
      have hf := between_failed hb
      have hfl := between_flush hb
      have hpre := between_prefix hs hb
      cases hr : (readerEnv E).recipe t l with
      | true =>
        -- a recipe line
        have hl : l ≠ [] := by
          rintro rfl; simp [readerEnv] at hr
        rw [loop_recipe hl t hr]
        cases hb with
        | closed => simp [readerEnv, live] at hr
        | ignored =>
          have e : (readerEnv E).addRecipe (live s none [] true) l = live s none [] true := by
            simp [readerEnv, live, unlessFailed]
          rw [e]
          have hp : IsRecipeLine (E.cmdPrefix s) l := by simpa [readerEnv, live, IsRecipeLine] using hr
          refine (ih ls hn' hc' _ ⟨_, _, .ignored⟩).imp_left fun hd => decomposed_trail hd ?_
          intro trail o s' h
          cases h with
          | ignored h => exact .ignored (by
              intro x hx
              rcases List.mem_cons.1 hx with rfl | hx
              · exact .inl hp
              · exact h x hx)
        | @rule s w cmds =>
          have e : (readerEnv E).addRecipe (live s (some w) cmds false) l =
              live s (some w) (cmds ++ l.tail ++ ['\n']) false := by
            simp [readerEnv, live, unlessFailed]
          rw [e]
          have hp : IsRecipeLine (E.cmdPrefix s) l := by simpa [readerEnv, live, IsRecipeLine] using hr
          refine (ih ls hn' hc' _ ⟨_, _, .rule⟩).imp_left fun hd => decomposed_trail hd ?_
          intro trail o s' h
          cases h with
          | rule h =>
            have hrt := recipeText_cons_pos hp trail
            have : Waits E (live s (some w) cmds false) (l :: trail) true
                (E.record s w (cmds ++ recipeText (E.cmdPrefix s) (l :: trail))) := .rule (by
              intro x hx
              rcases List.mem_cons.1 hx with rfl | hx
              · exact .inl hp
              · exact h x hx)
            rw [hrt] at this
            simpa [List.append_assoc] using this
      | false =>
        by_cases hnt : NoText E.posix l
        · rw [loop_noText hnt t hr]
          refine (ih ls hn' hc' t ⟨_, _, hb⟩).imp_left fun hd => decomposed_trail hd ?_
          intro trail o' s' h
          cases h with
          | closed h => exact .closed (by
              intro x hx
              rcases List.mem_cons.1 hx with rfl | hx
              · exact hnt
              · exact h x hx)
          | ignored h => exact .ignored (by
              intro x hx
              rcases List.mem_cons.1 hx with rfl | hx
              · exact .inr hnt
              · exact h x hx)
          | @rule s w cmds trail h =>
            have hp : ¬ IsRecipeLine (E.cmdPrefix s) l := by
              intro hp
              have hp' : l.head? = some (E.cmdPrefix s) := hp
              simp [readerEnv, live, hp'] at hr
            have : Waits E (live s (some w) cmds false) (l :: trail) true
                (E.record s w (cmds ++ recipeText (E.cmdPrefix s) (l :: trail))) := .rule (by
              intro x hx
              rcases List.mem_cons.1 hx with rfl | hx
              · exact .inr hnt
              · exact h x hx)
            rwa [recipeText_cons_neg hp] at this
        · -- the first line of a stanza
          have hl : l ≠ [] := by
            rintro rfl
            apply hnt
            show evalText E.posix [] = []
            simp [evalText, collapseContinuations, collapseGo, removeComments, findMapUnquote, findMapUnquoteGo.eq_def, nextToken]
          have ho : o = true → ¬ IsRecipeLine (E.cmdPrefix s) l := by
            intro h hp
            rw [between_recipe hs hb] at hr
            simp [h, hp] at hr
          cases ha : parseVarAssignment (evalText E.posix l) with
          | some mq =>
            obtain ⟨m, q⟩ := mq
            cases hm : m.defineV with
            | false =>
              rw [loop_assign hl ha hm t hr hf, hfl]
              refine (ih ls hn' hc' _ ⟨_, _, .closed⟩).imp_left fun hd => ?_
              obtain ⟨trail, zs, o2, s2, s3, rfl, h1, h2⟩ := hd
              cases h1 with
              | closed h1 =>
                exact decomposed_stanza (z := { head := l, trail := trail }) hb ho
                  (.assign ⟨hl, ha, by intro h; cases h⟩ hm rfl h1) h2
            | true =>
              cases htd : takeDefine E.posix (E.cmdPrefix t.env) 1 ls with
              | none =>
                right; left
                have ha' : (readerEnv E).assign (evalText (readerEnv E).posix l) = some true := by
                  simp only [readerEnv, ha, Option.map_some, hm]
                have hd' : takeDefine (readerEnv E).posix ((readerEnv E).cmdPrefix t) 1 ls = none := htd
                rw [evalLoop.eq_def]
                simp only [if_neg hl, hr, ha', Bool.false_eq_true, if_false, if_true]
                split
                · rfl
                · rename_i h; rw [hd'] at h; cases h
              | some br =>
                obtain ⟨body, rest⟩ := br
                rw [loop_define hl ha hm t hr hf htd, hfl]
                have hlen := takeDefine_length htd
                obtain ⟨inner, e, hi⟩ := takeDefine_split htd
                subst e
                refine (ih rest (by omega) (fun x hx => hc' x (by simp [hx])) _ ⟨_, _, .closed⟩).imp_left fun hd => ?_
                obtain ⟨trail, zs, o2, s2, s3, rfl, h1, h2⟩ := hd
                cases h1 with
                | closed h1 =>
                  have := decomposed_stanza (z := { head := l, inner := inner, trail := trail }) hb ho
                    (.define ⟨hl, ha, by intro h; cases h⟩ hm (by rw [← hpre]; exact hi) h1) h2
                  simpa [Stanza.lines, List.append_assoc] using this
          | none =>
            have hw : ¬ Reserved (firstWord (evalText E.posix l)) := hc l (by simp)
            have hh : Heads E { head := l } none := ⟨hl, ha, fun _ => ⟨hnt, hw⟩⟩
            rw [loop_other hl ha hnt hw t hr hf]
            by_cases hdir : tokenPrefix (evalText E.posix l) ∈ directiveWords
            · rw [otherLine_directive hdir, hfl]
              refine (ih ls hn' hc' _ ⟨_, _, .closed⟩).imp_left fun hd => ?_
              obtain ⟨trail, zs, o2, s2, s3, rfl, h1, h2⟩ := hd
              cases h1 with
              | closed h1 =>
                exact decomposed_stanza (z := { head := l, trail := trail }) hb ho (.directive hh hdir rfl h1) h2
            · by_cases hp : l.head? = some (E.cmdPrefix t.env)
              · right
                apply loop_failed n ls hn' hc'
                unfold otherLine
                rw [if_neg hdir, if_pos hp]
                rfl
              · have hp' : l.head? ≠ some (E.cmdPrefix s) := by rw [← hpre]; exact hp
                rcases hrl : ruleLine E s (cutLine E l).1 (cutLine E l).2.1 (cutLine E l).2.2 with ⟨e, out⟩
                have hrl' : ruleLine E (flush E t).env (cutLine E l).1 (cutLine E l).2.1 (cutLine E l).2.2 = (e, out) := by
                  rw [hfl]; exact hrl
                rw [otherLine_rule hdir t hp hrl', hfl]
                have hread : ∀ trail, ReadsRule E s { head := l, trail := trail } e out :=
                  fun trail => ⟨hh, hdir, hp', rfl, hrl⟩
                cases out with
                | nothing =>
                  refine (ih ls hn' hc' _ ⟨_, _, .closed⟩).imp_left fun hd => ?_
                  obtain ⟨trail, zs, o2, s2, s3, rfl, h1, h2⟩ := hd
                  cases h1 with
                  | closed h1 => exact decomposed_stanza hb ho (.nothing (hread trail) h1) h2
                | targetVar names m d =>
                  refine (ih ls hn' hc' _ ⟨_, _, .closed⟩).imp_left fun hd => ?_
                  obtain ⟨trail, zs, o2, s2, s3, rfl, h1, h2⟩ := hd
                  cases h1 with
                  | closed h1 => exact decomposed_stanza hb ho (.targetVar (hread trail) h1) h2
                | noTargets =>
                  refine (ih ls hn' hc' _ ⟨_, _, .ignored⟩).imp_left fun hd => ?_
                  obtain ⟨trail, zs, o2, s2, s3, rfl, h1, h2⟩ := hd
                  cases h1 with
                  | ignored h1 => exact decomposed_stanza hb ho (.noTargets (hread trail) h1) h2
                | rule w cmd =>
                  refine (ih ls hn' hc' _ ⟨_, _, .rule⟩).imp_left fun hd => ?_
                  obtain ⟨trail, zs, o2, s2, s3, rfl, h1, h2⟩ := hd
                  cases h1 with
                  | rule h1 => exact decomposed_stanza hb ho (.rule (hread trail) h1) h2
                | fatal x =>
                  right
                  exact loop_failed n ls hn' hc' _ rfl

end Remake
