import Verif.Include.Model
import Verif.Reader.Props2
import Verif.Files.Lists
set_option linter.unusedVariables false
set_option linter.unusedSimpArgs false
/-! Helper lemmas for included makefiles. -/
namespace Remake
open Spec

variable {σ : Type}

/-! ## Reading one text after another -/

theorem takeDefine_append {posix : Bool} {c : Char} (post : List Str) : ∀ {ls : List Str} {n : Nat} {b r : List Str},
    takeDefine posix c n ls = some (b, r) → takeDefine posix c n (ls ++ post) = some (b, r ++ post) := by
  intro ls
  induction ls with
  | nil => intro n b r h; simp [takeDefine] at h
  | cons l ls ih =>
    intro n b r h
    simp only [takeDefine, List.cons_append] at h ⊢
    split at h
    · rename_i hc
      rw [if_pos hc]
      simp only [Option.some.injEq, Prod.mk.injEq] at h
      rw [h.1, h.2]
    · rename_i hc
      rw [if_neg hc]
      cases ht : takeDefine posix c (if defineMark posix c l = 1 then n + 1 else if defineMark posix c l = -1 then n - 1 else n) ls with
      | none => rw [ht] at h; simp at h
      | some q =>
        obtain ⟨b', r'⟩ := q
        rw [ht] at h
        simp only [Option.map_some, Option.some.injEq, Prod.mk.injEq] at h
        rw [ih ht, ← h.1, ← h.2]; rfl

/-- What is read later does not matter for what is read first. -/
theorem evalLoop_append (E : EvalEnv σ) (post : List Str) (s : σ) (conds : List CondLevel) (ig inDef : Bool) (ls : List Str) :
    ∀ s1, ig = anyIgnoring conds → (inDef = true → ig = true) → evalLoop E s conds ig inDef ls = .done s1 →
      evalLoop E s conds ig inDef (ls ++ post) = evalLoop E s1 [] false false post := by
  fun_induction evalLoop E s conds ig inDef ls with
  | case1 s ig inDef =>
    intro s1 h1 h2 h
    cases h
    have : ig = false := by rw [h1]; rfl
    subst this
    have : inDef = false := by cases inDef; rfl; exact absurd (h2 rfl) (by decide)
    subst this
    rfl
  | case2 s conds ig inDef hc => intro s1 h1 h2 h; cases h
  | case3 s conds ig inDef lines ih =>
    intro s1 h1 h2 h
    rw [List.cons_append, evalLoop.eq_def]
    simpa using ih s1 h1 h2 h
  | case4 s conds inDef line lines hne hr ih =>
    intro s1 h1 h2 h
    rw [List.cons_append, evalLoop.eq_def]
    simpa [hne, hr] using ih s1 h1 h2 h
  | case5 s conds ig inDef line lines hne hr hig ih =>
    intro s1 h1 h2 h
    rw [List.cons_append, evalLoop.eq_def]
    simpa [hne, hr, hig] using ih s1 h1 h2 h
  | case6 s conds inDef line lines hne hr p d ha ih =>
    intro s1 h1 h2 h
    rw [List.cons_append, evalLoop.eq_def]
    have ha' : E.assign (evalText E.posix line) = some d := ha
    simpa [hne, hr, ha'] using ih s1 h1 (by simp) h
  | case7 s conds ig inDef line lines hne hr p ha hig ht => intro s1 h1 h2 h; cases h
  | case8 s conds ig inDef line lines hne hr p hig body rest ht ha ih =>
    intro s1 h1 h2 h
    rw [List.cons_append, evalLoop.eq_def]
    have ha' : E.assign (evalText E.posix line) = some true := by assumption
    have := takeDefine_append post ht
    simp only [hne, hr, ha', hig, if_false, if_true, Bool.false_eq_true]
    split
    · rename_i h3; rw [this] at h3; cases h3
    · rename_i b r h3
      rw [this] at h3; cases h3
      have hig' : ig = false := by cases ig; rfl; exact absurd rfl hig
      subst hig'
      exact ih s1 h1 h2 h
  | case9 s conds ig inDef line lines hne hr p d ha hig hd ih =>
    intro s1 h1 h2 h
    rw [List.cons_append, evalLoop.eq_def]
    have ha' : E.assign (evalText E.posix line) = some d := ha
    simpa [hne, hr, ha', hig, hd] using ih s1 h1 h2 h
  | case10 s conds ig inDef line lines hne hr p ha hp ih =>
    intro s1 h1 h2 h
    rw [List.cons_append, evalLoop.eq_def]
    have ha' : E.assign (evalText E.posix line) = none := ha
    have hp' : evalText E.posix line = [] := hp
    rw [hp'] at ha'
    simpa [hne, hr, ha', hp'] using ih s1 h1 h2 h
  | case11 s conds ig line lines hne hr p ha hp ih =>
    intro s1 h1 h2 h
    rw [List.cons_append, evalLoop.eq_def]
    have ha' : E.assign (evalText E.posix line) = none := ha
    have hp' : ¬ evalText E.posix line = [] := hp
    simpa [hne, hr, ha', hp'] using ih s1 h1 (fun _ => h2 rfl) h
  | case12 => intro s1 h1 h2 h; cases h
  | case13 => intro s1 h1 h2 h; cases h
  | case14 => intro s1 h1 h2 h; cases h
  | case15 s0 conds0 ig inDef line lines hne hr p ha hp hd s conds hc ih =>
    intro s1 h1 h2 h
    rw [List.cons_append, evalLoop.eq_def]
    have ha' : E.assign (evalText E.posix line) = none := ha
    have hp' : ¬ evalText E.posix line = [] := hp
    have hc' : conditionalLine E s0 conds0 (evalText E.posix line) = .ok s conds := hc
    simpa [hne, hr, ha', hp', hd, hc'] using ih s1 rfl (fun h => absurd h hd) h
  | case16 s conds inDef line lines hne hr p ha hp hd hc ih =>
    intro s1 h1 h2 h
    rw [List.cons_append, evalLoop.eq_def]
    have ha' : E.assign (evalText E.posix line) = none := ha
    have hp' : ¬ evalText E.posix line = [] := hp
    have hc' : conditionalLine E s conds (evalText E.posix line) = .notCond := hc
    simpa [hne, hr, ha', hp', hd, hc'] using ih s1 h1 h2 h
  | case17 s conds ig inDef line lines hne hr p ha hp hd hc hig ih =>
    intro s1 h1 h2 h
    rw [List.cons_append, evalLoop.eq_def]
    have ha' : E.assign (evalText E.posix line) = none := ha
    have hp' : ¬ evalText E.posix line = [] := hp
    have hc' : conditionalLine E s conds (evalText E.posix line) = .notCond := hc
    simpa [hne, hr, ha', hp', hd, hc', hig] using ih s1 h1 h2 h

/-! ## A make that has stopped -/

/-- Expansion preserves `P`. -/
def ExpandKeeps (P : σ → Prop) (x : σ → Str → σ × Str) : Prop := ∀ s t, P s → P (x s t).1

theorem findSemi_keeps {P : σ → Prop} {x : σ → Str → σ × Str} (hx : ExpandKeeps P x) {s : σ} {p2 lb : Str} {cmd : Option Str}
    (h : P s) : P (findSemi x s p2 lb cmd).1 := by
  unfold findSemi
  split
  · exact h
  · split
    · exact h
    · exact hx _ _ h

theorem colonLoop_keeps {P : σ → Prop} {x : σ → Str → σ × Str} (hx : ExpandKeeps P x) (s : σ) (buf p2 lb stale : Str)
    (cmd : Option Str) (h : P s) : P (colonLoop x s buf p2 lb stale cmd).1 := by
  fun_induction colonLoop x s buf p2 lb stale cmd with
  | case1 => exact findSemi_keeps hx h
  | case2 => exact findSemi_keeps hx h
  | case3 s buf p2 lb stale cmd r t hf m hm e ih => exact ih (hx _ _ (findSemi_keeps hx h))

theorem afterColon_keeps {P : σ → Prop} {E : RdEnv σ} (hx : ExpandKeeps P E.expand) {s : σ} {names : List Str} {grouped : Bool}
    {after lb : Str} {cmd semi : Option Str} (h : P s) : P (afterColon E s names grouped after lb cmd semi).1 := by
  unfold afterColon
  have key : P (if lb = [] then (s, ([] : Str)) else E.expand s (unquoteEquals lb)).1 := by
    split
    · exact h
    · exact hx _ _ h
  simp only
  split
  · exact h
  · split
    · exact key
    · split <;> exact key

theorem colonDone_keeps {P : σ → Prop} {E : RdEnv σ} (hx : ExpandKeeps P E.expand) {semi : Option Str} {s : σ} {r : ColonRes}
    (h : P s) : P (colonDone E semi s r).1 := by
  unfold colonDone
  split
  · exact h
  · simp only
    split
    · exact h
    · exact h
    · exact afterColon_keeps hx h

theorem ruleLine_keeps {P : σ → Prop} {E : RdEnv σ} (hx : ExpandKeeps P E.expand) {s : σ} {line stale : Str} {semi : Option Str}
    (h : P s) : P (ruleLine E s line stale semi).1 := by
  unfold ruleLine
  simp only
  split
  all_goals first
    | exact h
    | exact colonDone_keeps hx (colonLoop_keeps hx _ _ _ _ _ _ (hx _ _ h))

theorem condTest_keeps {P : σ → Prop} {E : EvalEnv σ} (hx : ExpandKeeps P E.expand) {s : σ} {k : CondKind} {line : Str}
    (h : P s) : P (condTest E s k line).1 := by
  unfold condTest
  split
  · simp only
    split
    · exact hx _ _ h
    · exact hx _ _ h
  · split
    · exact h
    · simp only
      split
      · exact hx _ _ h
      · exact hx _ _ (hx _ _ h)

theorem openCond_keeps {P : σ → Prop} {E : EvalEnv σ} (hx : ExpandKeeps P E.expand) {s : σ} {conds : List CondLevel}
    {k : CondKind} {line : Str} (h : P s) : P (openCond E s conds k line).1 := by
  have := condTest_keeps hx (k := k) (line := line) h
  unfold openCond
  split
  · exact h
  · split
    · rename_i e; rw [e] at this; exact this
    · rename_i e; rw [e] at this; exact this

theorem conditionalLine_keeps {P : σ → Prop} {E : EvalEnv σ} (hx : ExpandKeeps P E.expand) {s s' : σ}
    {conds conds' : List CondLevel} {p : Str} (h : P s) (hc : conditionalLine E s conds p = .ok s' conds') : P s' := by
  unfold conditionalLine at hc
  simp only at hc
  split at hc
  · cases hc
  · split at hc
    · cases hc
    · cases hc; exact h
  · split at hc
    · cases hc
    · split at hc
      · cases hc
      · split at hc
        · cases hc; exact h
        · split at hc
          · rename_i k _
            have key : ∀ c t s' o, openCond E s c k t = (s', o) → P s' := by
              intro c t s' o e; have := openCond_keeps hx (conds := c) (k := k) (line := t) h; rw [e] at this; exact this
            split at hc
            · cases hc
            · rename_i e
              cases hc
              exact key _ _ _ _ e
            · rename_i e
              cases hc
              exact key _ _ _ _ e
          · cases hc; exact h
  · rename_i k _
    have key : ∀ c t s' o, openCond E s c k t = (s', o) → P s' := by
      intro c t s' o e; have := openCond_keeps hx (conds := c) (k := k) (line := t) h; rw [e] at this; exact this
    split at hc
    · cases hc
    · rename_i e
      cases hc
      exact key _ _ _ _ e

theorem evalLoop_keeps {P : σ → Prop} {E : EvalEnv σ} (hx : ExpandKeeps P E.expand) (h1 : ∀ s l, P s → P (E.addRecipe s l))
    (h2 : ∀ s l, P s → P (E.doAssign s l)) (h3 : ∀ s l b, P s → P (E.doDefine s l b)) (h4 : ∀ s l p, P s → P (E.other s l p))
    (s : σ) (conds : List CondLevel) (ig inDef : Bool) (ls : List Str) :
    ∀ s1, P s → evalLoop E s conds ig inDef ls = .done s1 → P s1 := by
  fun_induction evalLoop E s conds ig inDef ls with
  | case1 => intro s1 hp h; cases h; exact hp
  | case2 => intro s1 hp h; cases h
  | case3 _ _ _ _ _ ih => intro s1 hp h; exact ih s1 hp h
  | case4 _ _ _ _ _ _ _ ih => intro s1 hp h; exact ih s1 hp h
  | case5 _ _ _ _ _ _ _ _ _ ih => intro s1 hp h; exact ih s1 (h1 _ _ hp) h
  | case6 _ _ _ _ _ _ _ _ _ _ ih => intro s1 hp h; exact ih s1 hp h
  | case7 => intro s1 hp h; cases h
  | case8 _ _ _ _ _ _ _ _ _ _ _ _ _ _ ih => intro s1 hp h; exact ih s1 (h3 _ _ _ hp) h
  | case9 _ _ _ _ _ _ _ _ _ _ _ _ _ ih => intro s1 hp h; exact ih s1 (h2 _ _ hp) h
  | case10 _ _ _ _ _ _ _ _ _ _ _ ih => intro s1 hp h; exact ih s1 hp h
  | case11 _ _ _ _ _ _ _ _ _ _ ih => intro s1 hp h; exact ih s1 hp h
  | case12 => intro s1 hp h; cases h
  | case13 => intro s1 hp h; cases h
  | case14 => intro s1 hp h; cases h
  | case15 _ _ _ _ _ _ _ _ _ _ _ _ _ _ hc ih => intro s1 hp h; exact ih s1 (conditionalLine_keeps hx hp hc) h
  | case16 _ _ _ _ _ _ _ _ _ _ _ _ ih => intro s1 hp h; exact ih s1 hp h
  | case17 _ _ _ _ _ _ _ _ _ _ _ _ _ _ ih => intro s1 hp h; exact ih s1 (h4 _ _ _ hp) h

variable {I : IncEnv σ} {ev ev' : Bool → σ → Str → Option σ}

/-- Make has stopped. -/
def Stopped (s : RdState (Option σ)) : Prop := s.env = none

theorem stopped_flush {s : RdState (Option σ)} (h : Stopped s) : Stopped (flush (incReader I ev) s) := by
  unfold Stopped flush at *
  simp only
  split
  · exact h
  · rw [h]; rfl

theorem stopped_other {s : RdState (Option σ)} (h : Stopped s) (l p : Str) :
    Stopped (otherLine (incReader I ev) s l p) := by
  have hf := stopped_flush (I := I) (ev := ev) h
  have hx : ExpandKeeps (fun s : Option σ => s = none) (incReader I ev).expand := by
    intro s t hs; subst hs; rfl
  unfold otherLine
  split
  · simp only [Stopped] at hf ⊢
    rw [hf]; rfl
  · split
    · exact h
    · have := ruleLine_keeps hx (line := (cutLine (incReader I ev) l).1) (stale := (cutLine (incReader I ev) l).2.1)
        (semi := (cutLine (incReader I ev) l).2.2) hf
      simp only
      split <;> simp only [Stopped] at hf ⊢ <;> first | exact this | skip
      rw [this]; rfl

theorem stopped_loop (s : RdState (Option σ)) (conds : List CondLevel) (ig inDef : Bool) (ls : List Str)
    (s1 : RdState (Option σ)) (h : Stopped s) (he : evalLoop (readerEnv (incReader I ev)) s conds ig inDef ls = .done s1) :
    Stopped s1 := by
  have key : ∀ (s : RdState (Option σ)) (f : RdState (Option σ) → RdState (Option σ)), Stopped s → (Stopped (f s)) →
      Stopped (unlessFailed s f) := by
    intro s f h1 h2; unfold unlessFailed; split
    · exact h1
    · exact h2
  refine evalLoop_keeps (P := Stopped) ?_ ?_ ?_ ?_ ?_ s conds ig inDef ls s1 h he
  · intro s t hs
    simp only [Stopped] at hs
    simp only [readerEnv, Stopped, hs]; rfl
  · intro s l hs
    refine key _ _ hs ?_
    split <;> exact hs
  · intro s p hs
    refine key _ _ hs ?_
    split
    · exact hs
    · have := stopped_flush (I := I) (ev := ev) hs
      simp only [Stopped] at this ⊢
      rw [this]; rfl
  · intro s p b hs
    refine key _ _ hs ?_
    split
    · exact hs
    · have := stopped_flush (I := I) (ev := ev) hs
      simp only [Stopped] at this ⊢
      rw [this]; rfl
  · intro s l p hs
    exact key _ _ hs (stopped_other hs l p)

/-! ## More files that can be opened -/

/-- What `ev` does, `ev'` does. -/
def Extends (ev ev' : Bool → σ → Str → Option σ) : Prop := ∀ d s n s', ev d s n = some s' → ev' d s n = some s'

theorem includeFiles_mono {ev ev' : σ → Str → Option σ} (h : ∀ s n s', ev s n = some s' → ev' s n = some s') :
    ∀ {names : List Str} {s s' : σ}, includeFiles ev s names = some s' → includeFiles ev' s names = some s' := by
  intro names
  induction names with
  | nil => intro s s' h'; exact h'
  | cons n ns ih =>
    intro s s' h'
    unfold includeFiles at h' ⊢
    cases he : ev s n with
    | none => rw [he] at h'; cases h'
    | some s2 =>
      rw [he] at h'
      rw [h _ _ _ he]
      exact ih h'

theorem incDirective_mono (h : Extends ev ev') {s s' : σ} {w t : Str} (hd : incDirective I ev s w t = some s') :
    incDirective I ev' s w t = some s' := by
  unfold incDirective at hd ⊢
  split at hd
  · rename_i hw
    rw [if_pos hw]
    simp only at hd ⊢
    split at hd
    · cases hd
    · exact includeFiles_mono (h _) hd
  · rename_i hw
    rw [if_neg hw]
    exact hd

theorem otherLine_mono (h : Extends ev ev') (s : RdState (Option σ)) (l p : Str) :
    otherLine (incReader I ev) s l p = otherLine (incReader I ev') s l p ∨
      Stopped (otherLine (incReader I ev) s l p) := by
  by_cases hw : tokenPrefix p ∈ directiveWords
  · have e1 : ∀ ev, otherLine (incReader I ev) s l p =
        { flush (incReader I ev) s with
          env := (flush (incReader I ev) s).env.bind fun s => incDirective I ev s (tokenPrefix p) (nextToken (endOfToken p)) } := by
      intro ev; unfold otherLine; rw [if_pos hw]; rfl
    rw [e1, e1]
    have e2 : flush (incReader I ev) s = flush (incReader I ev') s := rfl
    rw [← e2]
    cases he : (flush (incReader I ev) s).env with
    | none => right; rfl
    | some s2 =>
      simp only [Option.bind_some]
      cases hd : incDirective I ev s2 (tokenPrefix p) (nextToken (endOfToken p)) with
      | none => right; rfl
      | some s3 => left; rw [incDirective_mono h hd]
  · left
    unfold otherLine
    rw [if_neg hw, if_neg hw]; rfl

theorem loop_mono (h : Extends ev ev') (s : RdState (Option σ)) (conds : List CondLevel) (ig inDef : Bool) (ls : List Str) :
    ∀ s1, ¬ Stopped s1 → evalLoop (readerEnv (incReader I ev)) s conds ig inDef ls = .done s1 →
      evalLoop (readerEnv (incReader I ev')) s conds ig inDef ls = .done s1 := by
  have ca : ∀ s conds p, conditionalLine (readerEnv (incReader I ev)) s conds p =
      conditionalLine (readerEnv (incReader I ev')) s conds p := fun _ _ _ => rfl
  fun_induction evalLoop (readerEnv (incReader I ev)) s conds ig inDef ls with
  | case1 => intro s1 h1 h; rw [← h, evalLoop.eq_def]; rfl
  | case2 => intro s1 h1 h; cases h
  | case3 s conds ig inDef lines ih =>
    intro s1 h1 h
    rw [evalLoop.eq_def]
    simpa using ih s1 h1 h
  | case4 s conds inDef line lines hne hr ih =>
    intro s1 h1 h
    rw [evalLoop.eq_def]
    replace hr : (readerEnv (incReader I ev')).recipe s line = true := hr
    simpa [hne, hr] using ih s1 h1 h
  | case5 s conds ig inDef line lines hne hr hig ih =>
    intro s1 h1 h
    rw [evalLoop.eq_def]
    replace hr : (readerEnv (incReader I ev')).recipe s line = true := hr
    have hig' : ig = false := by cases ig; rfl; exact absurd rfl hig
    subst hig'
    simp only [hne, hr, if_false, if_true, Bool.false_eq_true]
    exact ih s1 h1 h
  | case6 s conds inDef line lines hne hr p d ha ih =>
    intro s1 h1 h
    rw [evalLoop.eq_def]
    replace hr : ¬ (readerEnv (incReader I ev')).recipe s line = true := hr
    replace ha : (readerEnv (incReader I ev')).assign (evalText (readerEnv (incReader I ev')).posix line) = some d := ha
    simpa [hne, hr, ha] using ih s1 h1 h
  | case7 => intro s1 h1 h; cases h
  | case8 s conds ig inDef line lines hne hr p hig body rest ht ha ih =>
    intro s1 h1 h
    rw [evalLoop.eq_def]
    replace hr : ¬ (readerEnv (incReader I ev')).recipe s line = true := hr
    have ha' : (readerEnv (incReader I ev')).assign (evalText (readerEnv (incReader I ev')).posix line) = some true := by assumption
    have ht' : takeDefine (readerEnv (incReader I ev')).posix ((readerEnv (incReader I ev')).cmdPrefix s) 1 lines = some (body, rest) := ht
    simp only [hne, hr, ha', hig, if_false, if_true, Bool.false_eq_true]
    split
    · rename_i h3; rw [ht'] at h3; cases h3
    · rename_i b r h3
      rw [ht'] at h3; cases h3
      have hig' : ig = false := by cases ig; rfl; exact absurd rfl hig
      subst hig'
      exact ih s1 h1 h
  | case9 s conds ig inDef line lines hne hr p d ha hig hd ih =>
    intro s1 h1 h
    rw [evalLoop.eq_def]
    replace hr : ¬ (readerEnv (incReader I ev')).recipe s line = true := hr
    have ha' : (readerEnv (incReader I ev')).assign (evalText (readerEnv (incReader I ev')).posix line) = some d := ha
    have hig' : ig = false := by cases ig; rfl; exact absurd rfl hig
    subst hig'
    simp only [hne, hr, ha', hd, if_false, if_true, Bool.false_eq_true]
    exact ih s1 h1 h
  | case10 s conds ig inDef line lines hne hr p ha hp ih =>
    intro s1 h1 h
    rw [evalLoop.eq_def]
    replace hr : ¬ (readerEnv (incReader I ev')).recipe s line = true := hr
    have ha' : (readerEnv (incReader I ev')).assign (evalText (readerEnv (incReader I ev')).posix line) = none := ha
    have hp' : evalText (readerEnv (incReader I ev')).posix line = [] := hp
    simp only [hne, hr, ha', if_false, Bool.false_eq_true]
    rw [if_pos hp']
    exact ih s1 h1 h
  | case11 s conds ig line lines hne hr p ha hp ih =>
    intro s1 h1 h
    rw [evalLoop.eq_def]
    replace hr : ¬ (readerEnv (incReader I ev')).recipe s line = true := hr
    have ha' : (readerEnv (incReader I ev')).assign (evalText (readerEnv (incReader I ev')).posix line) = none := ha
    have hp' : ¬ evalText (readerEnv (incReader I ev')).posix line = [] := hp
    simp only [hne, hr, ha', hp', if_false, if_true, Bool.false_eq_true]
    exact ih s1 h1 h
  | case12 => intro s1 h1 h; cases h
  | case13 => intro s1 h1 h; cases h
  | case14 => intro s1 h1 h; cases h
  | case15 s0 conds0 ig inDef line lines hne hr p ha hp hd s conds hc ih =>
    intro s1 h1 h
    rw [evalLoop.eq_def]
    replace hr : ¬ (readerEnv (incReader I ev')).recipe s0 line = true := hr
    have ha' : (readerEnv (incReader I ev')).assign (evalText (readerEnv (incReader I ev')).posix line) = none := ha
    have hp' : ¬ evalText (readerEnv (incReader I ev')).posix line = [] := hp
    have hc' : conditionalLine (readerEnv (incReader I ev')) s0 conds0 (evalText (readerEnv (incReader I ev')).posix line) = .ok s conds := hc
    have hd' : inDef = false := by cases inDef; rfl; exact absurd rfl hd
    subst hd'
    simp only [hne, hr, ha', hp', hc', if_false, if_true, Bool.false_eq_true]
    exact ih s1 h1 h
  | case16 s conds inDef line lines hne hr p ha hp hd hc ih =>
    intro s1 h1 h
    rw [evalLoop.eq_def]
    replace hr : ¬ (readerEnv (incReader I ev')).recipe s line = true := hr
    have ha' : (readerEnv (incReader I ev')).assign (evalText (readerEnv (incReader I ev')).posix line) = none := ha
    have hp' : ¬ evalText (readerEnv (incReader I ev')).posix line = [] := hp
    have hc' : conditionalLine (readerEnv (incReader I ev')) s conds (evalText (readerEnv (incReader I ev')).posix line) = .notCond := hc
    have hd' : inDef = false := by cases inDef; rfl; exact absurd rfl hd
    subst hd'
    simp only [hne, hr, ha', hp', hc', if_false, if_true, Bool.false_eq_true]
    exact ih s1 h1 h
  | case17 s conds ig inDef line lines hne hr p ha hp hd hc hig ih =>
    intro s1 h1 h'
    rw [evalLoop.eq_def]
    replace hr : ¬ (readerEnv (incReader I ev')).recipe s line = true := hr
    have ha' : (readerEnv (incReader I ev')).assign (evalText (readerEnv (incReader I ev')).posix line) = none := ha
    have hp' : ¬ evalText (readerEnv (incReader I ev')).posix line = [] := hp
    have hc' : conditionalLine (readerEnv (incReader I ev')) s conds (evalText (readerEnv (incReader I ev')).posix line) = .notCond := hc
    simp only [hne, hr, ha', hp', hd, hc', hig, if_false, if_true, Bool.false_eq_true]
    have ho : (readerEnv (incReader I ev)).other s line p = (readerEnv (incReader I ev')).other s line p ∨
        Stopped ((readerEnv (incReader I ev)).other s line p) := by
      have e1 : ∀ ev, (readerEnv (incReader I ev)).other s line p =
          unlessFailed s fun s => otherLine (incReader I ev) s line p := fun _ => rfl
      rw [e1, e1]
      unfold unlessFailed
      split
      · exact .inl rfl
      · exact otherLine_mono h s line p
    rcases ho with ho | ho
    · have hig' : ig = false := by cases ig; rfl; exact absurd rfl hig
      have hd' : inDef = false := by cases inDef; rfl; exact absurd rfl hd
      subst hig' hd'
      have := ih s1 h1 h'
      rw [ho] at this
      exact this
    · exact absurd (stopped_loop _ _ _ _ _ _ ho h') h1

theorem readMakefile_mono (h : Extends ev ev') {s s' : σ} {ls : List Str}
    (hr : readMakefile (incReader I ev) (some s) ls = .done (some s')) :
    readMakefile (incReader I ev') (some s) ls = .done (some s') := by
  unfold readMakefile evalLines at hr ⊢
  cases he : evalLoop (readerEnv (incReader I ev)) { env := some s } [] false false (skipBom ls) with
  | fatal => rw [he] at hr; cases hr
  | undef => rw [he] at hr; cases hr
  | done t =>
    rw [he] at hr
    simp only at hr
    have hn : ¬ Stopped t := by
      intro hs
      split at hr
      · cases hr
      · have := stopped_flush (I := I) (ev := ev) hs
        simp only [Stopped] at this
        rw [this] at hr; cases hr
    rw [loop_mono h _ _ _ _ _ t hn he]
    exact hr

theorem evalFile_mono (h : Extends ev ev') {s s' : σ} {ls : List Str}
    (hr : evalFile (incReader I ev) s ls = some s') : evalFile (incReader I ev') s ls = some s' := by
  unfold evalFile at hr ⊢
  cases he : readMakefile (incReader I ev) (some s) ls with
  | fatal => rw [he] at hr; cases hr
  | undef => rw [he] at hr; cases hr
  | done t =>
    rw [he] at hr
    simp only at hr
    subst hr
    rw [readMakefile_mono h he]

theorem evalSlots_mono (n : Nat) : Extends (evalSlots I n) (evalSlots I (n + 1)) := by
  induction n with
  | zero => intro d s m s' h; cases h
  | succ n ih =>
    intro d s m s' h
    unfold evalSlots evalIncluded at h ⊢
    simp only at h ⊢
    split at h
    · exact h
    · exact evalFile_mono ih h

theorem incEnv_mono {n : Nat} {s s' : σ} {ls : List Str}
    (hr : readMakefile (incEnv I n) (some s) ls = .done (some s')) :
    readMakefile (incEnv I (n + 1)) (some s) ls = .done (some s') :=
  readMakefile_mono (evalSlots_mono n) hr

end Remake
