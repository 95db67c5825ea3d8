import Verif.Where.Spec
set_option linter.unusedVariables false
set_option linter.unusedSimpArgs false
/-!
# C141: messages about the directory
-/
namespace Remake
open Spec

theorem bal_append {a b : List WdMark} (ha : WdBalanced a) (hb : WdBalanced b) : WdBalanced (a ++ b) := by
  induction ha with
  | nil => exact hb
  | text m l hm _ ih => exact .text m _ hm ih
  | group d d' x y hx hy _ ihy =>
    have := WdBalanced.group d d' x (y ++ b) hx ihy
    simpa [List.append_assoc] using this

theorem bal_texts {l : List WdMark} (h : ∀ m ∈ l, WdText m) : WdBalanced l := by
  induction l with
  | nil => exact .nil
  | cons m l ih => exact .text m l (h m (by simp)) (ih fun x hx => h x (by simp [hx]))

theorem bal_snoc {a : List WdMark} {m : WdMark} (ha : WdBalanced a) (hm : WdText m) : WdBalanced (a ++ [m]) :=
  bal_append ha (.text m [] hm .nil)

theorem bal_wrap {a : List WdMark} (d d' : Option Str) (ha : WdBalanced a) : WdBalanced (.enter d :: a ++ [.leave d']) :=
  .group d d' a [] ha .nil

/-- The invariant: the files hold text, and what has been written is balanced, but for one "Entering" if
`traced`. -/
structure WdInv (st : WdSt) : Prop where
  files : ∀ i, ∀ m ∈ st.tmp i, WdText m
  term : if st.traced then ∃ a d b, st.term = a ++ .enter d :: b ∧ WdBalanced a ∧ WdBalanced b else WdBalanced st.term

theorem wd_add {traced : Bool} {l m : List WdMark} (hm : WdBalanced m)
    (h : if traced then ∃ a d b, l = a ++ .enter d :: b ∧ WdBalanced a ∧ WdBalanced b else WdBalanced l) :
    if traced then ∃ a d b, l ++ m = a ++ .enter d :: b ∧ WdBalanced a ∧ WdBalanced b else WdBalanced (l ++ m) := by
  cases traced with
  | false => exact bal_append h hm
  | true =>
    obtain ⟨a, d, b, he, ha, hb⟩ := h
    exact ⟨a, d, b ++ m, by simp [he], ha, bal_append hb hm⟩

theorem wd_start_inv {st : WdSt} (h : WdInv st) : WdInv (wdStart st) := by
  unfold wdStart
  split
  · next hc =>
    refine ⟨h.files, ?_⟩
    have ht := h.term
    rw [hc.2.1] at ht
    simp only [Bool.false_eq_true, if_false] at ht
    simp only [if_true]
    exact ⟨st.term, st.dir, [], rfl, ht, .nil⟩
  · exact h

theorem wd_put_inv {st : WdSt} (h : WdInv st) (ctx : Option Nat) {m : WdMark} (hm : WdText m) : WdInv (wdPut st ctx m) := by
  cases ctx with
  | none => exact ⟨h.files, wd_add (.text m [] hm .nil) h.term⟩
  | some i =>
    refine ⟨?_, h.term⟩
    intro k x hx
    simp only [wdPut] at hx
    split at hx
    · rcases List.mem_append.1 hx with hx | hx
      · exact h.files i x hx
      · rw [List.mem_singleton.1 hx]; exact hm
    · exact h.files k x hx

theorem wd_dump_inv {st : WdSt} (h : WdInv st) (i : Nat) : WdInv (wdDump st i) := by
  unfold wdDump
  split
  · exact h
  · refine ⟨?_, ?_⟩
    · intro k x hx
      simp only at hx
      split at hx
      · cases hx
      · exact h.files k x hx
    · simp only [List.append_assoc]
      refine wd_add ?_ h.term
      split
      · exact bal_wrap _ _ (bal_texts (h.files i))
      · simpa using bal_texts (h.files i)

theorem wd_step_inv {st st' : WdSt} (h : WdInv st) {o : WdOp} (ho : o.run st = some st') (hd : o ≠ .die) : WdInv st' := by
  unfold WdOp.run at ho
  split at ho
  · cases ho
  cases o with
  | opts m pd => cases ho; exact ⟨h.files, h.term⟩
  | setDir d => cases ho; exact ⟨h.files, h.term⟩
  | message ctx s =>
    simp only at ho
    split at ho
    · cases ho; exact h
    · cases ho; exact wd_put_inv (wd_start_inv h) ctx trivial
  | raw s => cases ho; exact ⟨h.files, wd_add (.text _ [] trivial .nil) h.term⟩
  | start ctx => cases ho; exact ⟨(wd_start_inv h).files, (wd_start_inv h).term⟩
  | write ctx s =>
    simp only at ho
    split at ho
    · cases ho; exact wd_put_inv h ctx trivial
    · cases ho
  | finish ctx =>
    simp only at ho
    split at ho
    · cases ho; exact ⟨h.files, h.term⟩
    · cases ho
  | dump i => cases ho; exact wd_dump_inv h i
  | restart m pd =>
    simp only at ho
    split at ho
    · cases ho; exact ⟨fun i x (hx : x ∈ []) => (by cases hx), h.term⟩
    · cases ho
  | die => exact absurd rfl hd
  | kill => cases ho; exact ⟨h.files, h.term⟩

theorem wd_over {st st' : WdSt} (h : st.over = true) : ∀ {os}, wdRun st os = some st' → os = []
  | [], _ => rfl
  | o :: os, hr => by
    simp only [wdRun, WdOp.run, h, if_true] at hr
    cases hr

theorem wd_die_over {st st' : WdSt} (h : WdOp.die.run st = some st') : st'.over = true := by
  unfold WdOp.run at h
  split at h
  · cases h
  · simp only at h
    split at h
    · cases h; rfl
    · cases h

theorem wd_run_inv {st st' : WdSt} : ∀ {os : List WdOp}, WdInv st → (∀ o ∈ os, o ≠ .die) → wdRun st os = some st' → WdInv st'
  | [], h, _, hr => by cases hr; exact h
  | o :: os, h, hd, hr => by
    simp only [wdRun] at hr
    split at hr
    · cases hr
    · next st1 h1 => exact wd_run_inv (wd_step_inv h h1 (hd o (by simp))) (fun x hx => hd x (by simp [hx])) hr

theorem wd_run_append (st : WdSt) (a b : List WdOp) :
    wdRun st (a ++ b) = (wdRun st a).bind fun st => wdRun st b := by
  induction a generalizing st with
  | nil => rfl
  | cons o a ih =>
    simp only [List.cons_append, wdRun]
    cases o.run st with
    | none => rfl
    | some st1 => exact ih st1

theorem wd_no_die {a b : List WdOp} {st st' : WdSt} (h : wdRun st (a ++ b) = some st') (hb : b ≠ []) : ∀ o ∈ a, o ≠ .die := by
  induction a generalizing st with
  | nil => simp
  | cons o a ih =>
    simp only [List.cons_append, wdRun] at h
    split at h
    · cases h
    · next st1 h1 =>
      intro x hx
      rcases List.mem_cons.1 hx with rfl | hx
      · intro he
        subst he
        have := wd_over (wd_die_over h1) h
        simp at this
        exact hb this.2
      · exact ih h x hx

/-- C141: whatever make does, and however options change on the way, when it ends every "Entering" has
been followed by its "Leaving", and they nest.  Partial: it is not killed (`C141_killed`); the names of the
two may differ (`C141_moved`). -/
theorem C141_balanced_partial (os : List WdOp) (st : WdSt) (h : wdRun .init (os ++ [.die]) = some st) : WdBalanced st.term := by
  have hno := wd_no_die h (by simp)
  rw [wd_run_append] at h
  cases h1 : wdRun WdSt.init os with
  | none => rw [h1] at h; cases h
  | some s1 =>
    rw [h1] at h
    simp only [Option.bind_some, wdRun] at h
    have hinv := wd_run_inv (st := .init) ⟨fun i x (hx : x ∈ []) => (by cases hx), WdBalanced.nil⟩ hno h1
    split at h
    · cases h
    · next s2 h2 =>
      cases h
      unfold WdOp.run at h2
      split at h2
      · cases h2
      · simp only at h2
        split at h2
        · cases h2
          have ht := hinv.term
          simp only
          cases htr : s1.traced with
          | false =>
            rw [htr] at ht
            simpa using ht
          | true =>
            rw [htr] at ht
            simp only [if_true] at ht ⊢
            obtain ⟨a, d, b, he, ha, hb⟩ := ht
            rw [he, List.append_assoc]
            exact bal_append ha (bal_wrap d _ hb)
        · cases h2

/-- A history for the examples: a message, then a command that writes, and the end. -/
def demoWd (m : WdMode) (ctx : Option Nat) : List WdOp :=
  [.opts m true, .setDir "/p".toList, .message ctx "gcc".toList, .start ctx, .write ctx "warning".toList, .finish ctx, .dump 0]

example : (wdRun .init (demoWd .none none ++ [.restart .none true, .die])).map (·.term) =
    some [.enter (some "/p".toList), .own "gcc".toList, .cmd "warning".toList, .leave (some "/p".toList)] := by decide

example : (wdRun .init (demoWd .target (some 0) ++ [.die])).map (·.term) =
    some [.enter (some "/p".toList), .own "gcc".toList, .cmd "warning".toList, .leave (some "/p".toList)] := by decide

/-! ### Everything between them -/

/-- The steps of a make that prints its directory and does not collect the output of each command or target: the
options stay, the directory is `d`, and messages are written with `outputs`. -/
def WdPlainOp (m : WdMode) (d : Str) (o : WdOp) : Prop :=
  match o with
  | .opts m' pd => m' = m ∧ pd = true
  | .setDir d' => d' = d
  | .restart m' pd => m' = m ∧ pd = true
  | .raw _ => False
  | .die => False
  | .kill => False
  | .message ctx _ => if m = .none then ctx = none else True
  | .start ctx => if m = .none then ctx = none else True
  | _ => True

structure WdInvOne (m : WdMode) (d : Str) (st : WdSt) : Prop where
  mode : st.mode = m
  pd : st.pd = true
  dir : st.dir = some d
  run : st.traced = false → st.running = [] ∧ st.term = [] ∧ ∀ i, st.tmp i = []
  term : st.traced = true → ∃ a, (∀ x ∈ a, WdText x) ∧ st.term = .enter (some d) :: a
  files : ∀ i, ∀ x ∈ st.tmp i, WdText x
  ctx : m = .none → (∀ i, st.tmp i = []) ∧ ∀ c ∈ st.running, c = none

theorem wd_one_start {m : WdMode} {d : Str} {st : WdSt} (hm : m = .none ∨ m = .recurse) (h : WdInvOne m d st) :
    WdInvOne m d (wdStart st) ∧ (wdStart st).traced = true ∧ (wdStart st).running = st.running := by
  unfold wdStart
  cases ht : st.traced with
  | true =>
    rw [if_neg (by simp)]
    exact ⟨h, ht, rfl⟩
  | false =>
    obtain ⟨h1, h2, h3⟩ := h.run ht
    rw [if_pos ⟨by rw [h.mode]; exact hm, rfl, h.pd⟩]
    refine ⟨⟨h.mode, h.pd, h.dir, fun hh => (Bool.noConfusion hh), fun _ => ⟨[], by simp, by simp [h2, h.dir]⟩, h.files, h.ctx⟩, rfl, rfl⟩

theorem wd_one_put {m : WdMode} {d : Str} {st : WdSt} (h : WdInvOne m d st) (ht : st.traced = true) (ctx : Option Nat)
    (hc : m = .none → ctx = none) {x : WdMark} (hx : WdText x) : WdInvOne m d (wdPut st ctx x) := by
  cases ctx with
  | none =>
    refine ⟨h.mode, h.pd, h.dir, fun hh => ?_, fun _ => ?_, h.files, h.ctx⟩
    · have : st.traced = false := hh
      rw [ht] at this; cases this
    · obtain ⟨a, ha, he⟩ := h.term ht
      refine ⟨a ++ [x], ?_, by simp [wdPut, he]⟩
      intro y hy
      rcases List.mem_append.1 hy with hy | hy
      · exact ha y hy
      · rw [List.mem_singleton.1 hy]; exact hx
  | some i =>
    refine ⟨h.mode, h.pd, h.dir, fun hh => ?_, h.term, ?_, fun hm => ?_⟩
    · have : st.traced = false := hh
      rw [ht] at this; cases this
    · intro k y hy
      simp only [wdPut] at hy
      split at hy
      · rcases List.mem_append.1 hy with hy | hy
        · exact h.files i y hy
        · rw [List.mem_singleton.1 hy]; exact hx
      · exact h.files k y hy
    · cases hc hm

theorem wd_one_step {m : WdMode} {d : Str} {st st' : WdSt} (hm : m = .none ∨ m = .recurse) (h : WdInvOne m d st) {o : WdOp}
    (hp : WdPlainOp m d o) (ho : o.run st = some st') : WdInvOne m d st' := by
  unfold WdOp.run at ho
  split at ho
  · cases ho
  cases o with
  | opts m' pd => obtain ⟨rfl, rfl⟩ := hp; cases ho; exact ⟨rfl, rfl, h.dir, h.run, h.term, h.files, h.ctx⟩
  | setDir d' => cases hp; cases ho; exact ⟨h.mode, h.pd, rfl, h.run, h.term, h.files, h.ctx⟩
  | message ctx s =>
    simp only at ho
    split at ho
    · cases ho; exact h
    · cases ho
      obtain ⟨h1, h2, _⟩ := wd_one_start hm h
      refine wd_one_put h1 h2 ctx (fun hn => ?_) trivial
      simpa [WdPlainOp, hn] using hp
  | raw s => cases hp
  | start ctx =>
    cases ho
    obtain ⟨h1, h2, h3⟩ := wd_one_start hm h
    refine ⟨h1.mode, h1.pd, h1.dir, fun hh => ?_, h1.term, h1.files, fun hn => ⟨(h1.ctx hn).1, fun c hc => ?_⟩⟩
    · have : (wdStart st).traced = false := hh
      rw [h2] at this; cases this
    · rcases List.mem_cons.1 hc with rfl | hc
      · simpa [WdPlainOp, hn] using hp
      · exact (h1.ctx hn).2 c hc
  | write ctx s =>
    simp only at ho
    split at ho
    · next hr =>
      cases ho
      refine wd_one_put h ?_ ctx (fun hn => (h.ctx hn).2 ctx hr) trivial
      cases ht : st.traced with
      | true => rfl
      | false => rw [(h.run ht).1] at hr; cases hr
    · cases ho
  | finish ctx =>
    simp only at ho
    split at ho
    · cases ho
      refine ⟨h.mode, h.pd, h.dir, fun ht => ?_, h.term, h.files, fun hn => ⟨(h.ctx hn).1, fun c hc => (h.ctx hn).2 c (List.mem_of_mem_erase hc)⟩⟩
      obtain ⟨h1, h2⟩ := h.run ht
      exact ⟨by simp [h1], h2⟩
    · cases ho
  | dump i =>
    cases ho
    unfold wdDump
    split
    · exact h
    · next hne =>
      rcases hm with rfl | rfl
      · exact absurd ((h.ctx rfl).1 i) hne
      · have hlog : ¬ (st.pd = true ∧ st.mode ≠ .recurse) := fun hh => hh.2 h.mode
        simp only [if_neg hlog, List.append_nil]
        have ht : st.traced = true := by
          cases ht : st.traced with
          | true => rfl
          | false => exact absurd ((h.run ht).2.2 i) hne
        refine ⟨h.mode, h.pd, h.dir, fun hh => ?_, fun _ => ?_, ?_, fun hn => by cases hn⟩
        · have : st.traced = false := hh
          rw [ht] at this; cases this
        · obtain ⟨a, ha, he⟩ := h.term ht
          refine ⟨a ++ st.tmp i, ?_, by simp [he]⟩
          intro y hy
          rcases List.mem_append.1 hy with hy | hy
          · exact ha y hy
          · exact h.files i y hy
        · intro k y hy
          simp only at hy
          split at hy
          · cases hy
          · exact h.files k y hy
  | restart m' pd =>
    obtain ⟨rfl, rfl⟩ := hp
    simp only at ho
    split at ho
    · cases ho
      exact ⟨rfl, rfl, h.dir, fun ht => ⟨(h.run ht).1, (h.run ht).2.1, fun _ => rfl⟩, h.term, fun i x (hx : x ∈ []) => (by cases hx),
        fun hn => ⟨fun _ => rfl, (h.ctx hn).2⟩⟩
    · cases ho
  | die => cases hp
  | kill => cases hp

theorem wd_one_run {m : WdMode} {d : Str} {st st' : WdSt} (hm : m = .none ∨ m = .recurse) :
    ∀ {os : List WdOp}, WdInvOne m d st → (∀ o ∈ os, WdPlainOp m d o) → wdRun st os = some st' → WdInvOne m d st'
  | [], h, _, hr => by cases hr; exact h
  | o :: os, h, hp, hr => by
    simp only [wdRun] at hr
    split at hr
    · cases hr
    · next st1 h1 => exact wd_one_run hm (wd_one_step hm h (hp o (by simp)) h1) (fun x hx => hp x (by simp [hx])) hr

/-- C141: with `-w`, without `-O` or with `-O recurse`, everything that make and its commands write is between one
"Entering" and one "Leaving" which name the directory; if nothing is written, neither are they.  Partial: the
messages are written by `outputs` and after the directory is known, and the options stay. -/
theorem C141_one_partial (m : WdMode) (hm : m = .none ∨ m = .recurse) (d : Str) (os : List WdOp) (st : WdSt)
    (hp : ∀ o ∈ os, WdPlainOp m d o) (h : wdRun .init (.opts m true :: .setDir d :: os ++ [.die]) = some st) :
    st.term = [] ∨ WdOne d st.term := by
  rw [List.cons_append, List.cons_append, ← List.singleton_append, ← List.singleton_append (x := WdOp.setDir d), ← List.append_assoc,
    ← List.append_assoc, wd_run_append] at h
  cases h1 : wdRun WdSt.init ([WdOp.opts m true] ++ [WdOp.setDir d] ++ os) with
  | none => rw [h1] at h; cases h
  | some s1 =>
    rw [h1] at h
    rw [wd_run_append] at h1
    have hinv : WdInvOne m d s1 := by
      refine wd_one_run hm (st := { WdSt.init with
        mode := m
        pd := true
        dir := some d }) ?_ hp h1
      exact ⟨rfl, rfl, rfl, fun _ => ⟨rfl, rfl, fun _ => rfl⟩, fun hh => Bool.noConfusion hh, fun i x (hx : x ∈ []) => (by cases hx),
        fun _ => ⟨fun _ => rfl, fun c (hc : c ∈ []) => (by cases hc)⟩⟩
    simp only [Option.bind_some, wdRun] at h
    split at h
    · cases h
    · next s2 h2 =>
      cases h
      unfold WdOp.run at h2
      split at h2
      · cases h2
      · simp only at h2
        split at h2
        · cases h2
          cases ht : s1.traced with
          | false => left; simp [(hinv.run ht).2.1]
          | true =>
            right
            obtain ⟨a, ha, he⟩ := hinv.term ht
            exact ⟨a, ha, by simp [he, hinv.dir]⟩
        · cases h2

example : ∀ o ∈ (demoWd .none none).tail, WdPlainOp .none "/p".toList o := by
  intro o ho
  simp only [demoWd, List.tail_cons, List.mem_cons, List.not_mem_nil, or_false] at ho
  rcases ho with rfl | rfl | rfl | rfl | rfl | rfl <;> simp [WdPlainOp]

/-- The steps of a make that prints its directory and collects the output of each line or target: every
message and every command has a context. -/
def WdCaughtOp (m : WdMode) (d : Str) (o : WdOp) : Prop :=
  match o with
  | .opts m' pd => m' = m ∧ pd = true
  | .setDir d' => d' = d
  | .message ctx _ => ctx ≠ none
  | .start ctx => ctx ≠ none
  | .restart m' pd => m' = m ∧ pd = true
  | .raw _ => False
  | .die => False
  | .kill => False
  | _ => True

structure WdInvGroups (m : WdMode) (d : Str) (st : WdSt) : Prop where
  mode : st.mode = m
  pd : st.pd = true
  dir : st.dir = some d
  traced : st.traced = false
  running : ∀ c ∈ st.running, c ≠ none
  term : WdGroups d st.term
  files : ∀ i, ∀ x ∈ st.tmp i, WdText x

theorem groups_append {d : Str} {a b : List WdMark} (ha : WdGroups d a) (hb : WdGroups d b) : WdGroups d (a ++ b) := by
  induction ha with
  | nil => exact hb
  | group x y hne hx _ ih =>
    have := WdGroups.group x (y ++ b) hne hx ih
    simpa [List.append_assoc] using this

theorem wd_groups_start {m : WdMode} {d : Str} {st : WdSt} (hm : m = .line ∨ m = .target) (h : WdInvGroups m d st) : wdStart st = st := by
  unfold wdStart
  rw [if_neg]
  rw [h.mode]
  rcases hm with rfl | rfl <;> simp

theorem wd_groups_put {m : WdMode} {d : Str} {st : WdSt} (h : WdInvGroups m d st) (ctx : Option Nat) (hc : ctx ≠ none) {x : WdMark}
    (hx : WdText x) : WdInvGroups m d (wdPut st ctx x) := by
  cases ctx with
  | none => exact absurd rfl hc
  | some i =>
    refine ⟨h.mode, h.pd, h.dir, h.traced, h.running, h.term, ?_⟩
    intro k y hy
    simp only [wdPut] at hy
    split at hy
    · rcases List.mem_append.1 hy with hy | hy
      · exact h.files i y hy
      · rw [List.mem_singleton.1 hy]; exact hx
    · exact h.files k y hy

theorem wd_groups_step {m : WdMode} {d : Str} {st st' : WdSt} (hm : m = .line ∨ m = .target) (h : WdInvGroups m d st) {o : WdOp}
    (hp : WdCaughtOp m d o) (ho : o.run st = some st') : WdInvGroups m d st' := by
  unfold WdOp.run at ho
  split at ho
  · cases ho
  cases o with
  | opts m' pd => obtain ⟨rfl, rfl⟩ := hp; cases ho; exact ⟨rfl, rfl, h.dir, h.traced, h.running, h.term, h.files⟩
  | setDir d' => cases hp; cases ho; exact ⟨h.mode, h.pd, rfl, h.traced, h.running, h.term, h.files⟩
  | message ctx s =>
    simp only at ho
    split at ho
    · cases ho; exact h
    · cases ho
      rw [wd_groups_start hm h]
      exact wd_groups_put h ctx hp trivial
  | raw s => cases hp
  | start ctx =>
    cases ho
    rw [wd_groups_start hm h]
    refine ⟨h.mode, h.pd, h.dir, h.traced, fun c hc => ?_, h.term, h.files⟩
    rcases List.mem_cons.1 hc with rfl | hc
    · exact hp
    · exact h.running c hc
  | write ctx s =>
    simp only at ho
    split at ho
    · next hr => cases ho; exact wd_groups_put h ctx (h.running ctx hr) trivial
    · cases ho
  | finish ctx =>
    simp only at ho
    split at ho
    · cases ho
      exact ⟨h.mode, h.pd, h.dir, h.traced, fun c hc => h.running c (List.mem_of_mem_erase hc), h.term, h.files⟩
    · cases ho
  | dump i =>
    cases ho
    unfold wdDump
    split
    · exact h
    · next hne =>
      have hlog : st.pd = true ∧ st.mode ≠ .recurse := ⟨h.pd, by rw [h.mode]; rcases hm with rfl | rfl <;> simp⟩
      simp only [if_pos hlog]
      refine ⟨h.mode, h.pd, h.dir, h.traced, h.running, ?_, ?_⟩
      · have := groups_append h.term (.group (st.tmp i) [] hne (h.files i) .nil)
        simpa [h.dir, List.append_assoc] using this
      · intro k y hy
        simp only at hy
        split at hy
        · cases hy
        · exact h.files k y hy
  | restart m' pd =>
    obtain ⟨rfl, rfl⟩ := hp
    simp only at ho
    split at ho
    · cases ho; exact ⟨rfl, rfl, h.dir, h.traced, h.running, h.term, fun i x (hx : x ∈ []) => (by cases hx)⟩
    · cases ho
  | die => cases hp
  | kill => cases hp

theorem wd_groups_run {m : WdMode} {d : Str} {st st' : WdSt} (hm : m = .line ∨ m = .target) :
    ∀ {os : List WdOp}, WdInvGroups m d st → (∀ o ∈ os, WdCaughtOp m d o) → wdRun st os = some st' → WdInvGroups m d st'
  | [], h, _, hr => by cases hr; exact h
  | o :: os, h, hp, hr => by
    simp only [wdRun] at hr
    split at hr
    · cases hr
    · next st1 h1 => exact wd_groups_run hm (wd_groups_step hm h (hp o (by simp)) h1) (fun x hx => hp x (by simp [hx])) hr

/-- C141: with `-w` and `-O line` or `-O target`, what is written comes in pieces, each between an "Entering" and a
"Leaving" for the directory.  Partial: as far as the output is collected (`C141_direct`). -/
theorem C141_groups_partial (m : WdMode) (hm : m = .line ∨ m = .target) (d : Str) (os : List WdOp) (st : WdSt)
    (hp : ∀ o ∈ os, WdCaughtOp m d o) (h : wdRun .init (.opts m true :: .setDir d :: os) = some st) : WdGroups d st.term := by
  rw [← List.singleton_append, ← List.singleton_append (x := WdOp.setDir d), ← List.append_assoc, wd_run_append] at h
  refine (wd_groups_run hm (st := { WdSt.init with
        mode := m
        pd := true
        dir := some d }) ?_ hp h).term
  exact ⟨rfl, rfl, rfl, rfl, fun c (hc : c ∈ []) => (by cases hc), .nil, fun i x (hx : x ∈ []) => (by cases hx)⟩

example : ∀ o ∈ (demoWd .target (some 0)).tail, WdCaughtOp .target "/p".toList o := by
  intro o ho
  simp only [demoWd, List.tail_cons, List.mem_cons, List.not_mem_nil, or_false] at ho
  rcases ho with rfl | rfl | rfl | rfl | rfl | rfl <;> simp [WdCaughtOp]

/-- C141: without `-w` no message about the directory is written, whatever else happens. -/
theorem C141_quiet (os : List WdOp) (st : WdSt) (hp : ∀ o ∈ os, ∀ m pd, o = .opts m pd ∨ o = .restart m pd → pd = false)
    (h : wdRun .init os = some st) : ∀ x ∈ st.term, WdText x := by
  have hgen : ∀ (os : List WdOp) (s : WdSt), (∀ o ∈ os, ∀ m pd, o = .opts m pd ∨ o = .restart m pd → pd = false) → s.pd = false → s.traced = false →
      (∀ x ∈ s.term, WdText x) → (∀ i, ∀ x ∈ s.tmp i, WdText x) → wdRun s os = some st → ∀ x ∈ st.term, WdText x := by
    intro os
    induction os with
    | nil => intro s _ _ _ ht _ hr; cases hr; exact ht
    | cons o os ih =>
      intro s hp h1 h2 h3 h4 hr
      simp only [wdRun] at hr
      split at hr
      · cases hr
      next s1 hs =>
      have hstart : wdStart s = s := by
        unfold wdStart
        rw [if_neg (by simp [h1])]
      have hput : ∀ ctx x, WdText x → (wdPut s ctx x).pd = false ∧ (wdPut s ctx x).traced = false ∧
          (∀ y ∈ (wdPut s ctx x).term, WdText y) ∧ ∀ i, ∀ y ∈ (wdPut s ctx x).tmp i, WdText y := by
        intro ctx x hx
        cases ctx with
        | none =>
          refine ⟨h1, h2, ?_, h4⟩
          intro y hy
          rcases List.mem_append.1 hy with hy | hy
          · exact h3 y hy
          · rw [List.mem_singleton.1 hy]; exact hx
        | some i =>
          refine ⟨h1, h2, h3, ?_⟩
          intro k y hy
          simp only [wdPut] at hy
          split at hy
          · rcases List.mem_append.1 hy with hy | hy
            · exact h4 i y hy
            · rw [List.mem_singleton.1 hy]; exact hx
          · exact h4 k y hy
      have hall : s1.pd = false ∧ s1.traced = false ∧ (∀ y ∈ s1.term, WdText y) ∧ ∀ i, ∀ y ∈ s1.tmp i, WdText y := by
        unfold WdOp.run at hs
        split at hs
        · cases hs
        cases o with
        | opts m pd => cases hs; exact ⟨hp _ (by simp) m pd (Or.inl rfl), h2, h3, h4⟩
        | setDir d => cases hs; exact ⟨h1, h2, h3, h4⟩
        | message ctx t =>
          simp only at hs
          split at hs
          · cases hs; exact ⟨h1, h2, h3, h4⟩
          · cases hs; rw [hstart]; exact hput ctx _ trivial
        | raw t => cases hs; exact hput none (.own t) trivial
        | start ctx => cases hs; rw [hstart]; exact ⟨h1, h2, h3, h4⟩
        | write ctx t =>
          simp only at hs
          split at hs
          · cases hs; exact hput ctx _ trivial
          · cases hs
        | finish ctx =>
          simp only at hs
          split at hs
          · cases hs; exact ⟨h1, h2, h3, h4⟩
          · cases hs
        | dump i =>
          cases hs
          unfold wdDump
          split
          · exact ⟨h1, h2, h3, h4⟩
          · have hlog : ¬ (s.pd = true ∧ s.mode ≠ .recurse) := by simp [h1]
            simp only [if_neg hlog, List.append_nil]
            refine ⟨h1, h2, ?_, ?_⟩
            · intro y hy
              rcases List.mem_append.1 hy with hy | hy
              · exact h3 y hy
              · exact h4 i y hy
            · intro k y hy
              split at hy
              · cases hy
              · exact h4 k y hy
        | restart m pd =>
          simp only at hs
          split at hs
          · cases hs; exact ⟨hp _ (by simp) m pd (Or.inr rfl), h2, h3, fun i y (hy : y ∈ []) => (by cases hy)⟩
          · cases hs
        | die =>
          simp only at hs
          split at hs
          · cases hs; exact ⟨h1, h2, by simpa [h2] using h3, h4⟩
          · cases hs
        | kill => cases hs; exact ⟨h1, h2, h3, h4⟩
      exact ih s1 (fun x hx => hp x (by simp [hx])) hall.1 hall.2.1 hall.2.2.1 hall.2.2.2 hr
  exact hgen os .init hp rfl rfl (by intro x hx; cases hx) (by intro i x hx; cases hx) h

example : (wdRun .init [.opts .none false, .message none ['a'], .die]).map (·.term) = some [.own ['a']] := by decide

/-- C141: the directory is printed with `-w`, in sub-makes and with `-C` unless `-s` is given, and never with
`--no-print-directory`. -/
theorem C141_when (w s c : Bool) (level : Nat) (n : Bool) :
    wdPrint w s c level n = true ↔ n = false ∧ (w = true ∨ (s = false ∧ (c = true ∨ 0 < level))) := by
  unfold wdPrint
  cases n <;> cases w <;> cases s <;> cases c <;> simp

/-! ### Where it goes wrong -/

/-- The number of "Entering". -/
def wdEnters : List WdMark → Nat
  | [] => 0
  | .enter _ :: ms => wdEnters ms + 1
  | _ :: ms => wdEnters ms

/-- The number of "Leaving". -/
def wdLeaves : List WdMark → Nat
  | [] => 0
  | .leave _ :: ms => wdLeaves ms + 1
  | _ :: ms => wdLeaves ms

theorem enters_append (a b : List WdMark) : wdEnters (a ++ b) = wdEnters a + wdEnters b := by
  induction a with
  | nil => simp [wdEnters]
  | cons m a ih => cases m <;> simp [wdEnters, ih] <;> omega

theorem leaves_append (a b : List WdMark) : wdLeaves (a ++ b) = wdLeaves a + wdLeaves b := by
  induction a with
  | nil => simp [wdLeaves]
  | cons m a ih => cases m <;> simp [wdLeaves, ih] <;> omega

theorem bal_count {l : List WdMark} (h : WdBalanced l) : wdEnters l = wdLeaves l := by
  induction h with
  | nil => rfl
  | text m l hm _ ih =>
    cases m with
    | enter d => cases hm
    | leave d => cases hm
    | own s => exact ih
    | cmd s => exact ih
  | group d d' a b _ _ iha ihb =>
    rw [List.cons_append]
    simp only [wdEnters, wdLeaves, enters_append, leaves_append, iha, ihb]
    omega

/-- C141 is violated here: a make that is killed leaves no directory. -/
theorem C141_killed : (wdRun .init [.opts .none true, .setDir "/p".toList, .message none "gcc".toList, .kill]).map (·.term) =
    some [.enter (some "/p".toList), .own "gcc".toList] ∧
    ¬ WdBalanced [.enter (some "/p".toList), .own "gcc".toList] := by
  refine ⟨by decide, ?_⟩
  intro h
  have := bal_count h
  simp [wdEnters, wdLeaves] at this

/-- C141 is violated here: a message before the options `-C` are obeyed (as the warning that the
jobserver is not available, main.c 1546) names the old directory; the "Leaving" names the new one, which has never been entered. -/
theorem C141_moved (p q w s : Str) (hw : w ≠ []) (hs : s ≠ []) :
    (wdRun .init [.opts .none true, .setDir p, .message none w, .setDir q, .message none s, .die]).map (·.term) =
      some [.enter (some p), .own w, .own s, .leave (some q)] := by
  simp [wdRun, WdOp.run, WdSt.init, wdStart, wdPut, hw, hs]

/-- C141 is violated here: what is printed without `outputs`, as for `-d`, may come before the "Entering". -/
theorem C141_raw (d t s : Str) (hs : s ≠ []) :
    (wdRun .init [.opts .none true, .setDir d, .raw t, .message none s, .die]).map (·.term) =
      some [.own t, .enter (some d), .own s, .leave (some d)] := by
  simp [wdRun, WdOp.run, WdSt.init, wdStart, wdPut, hs]

/-- C141 is violated here: with `-O target` (or `line`) the output of a command marked as recursive and of make's messages
after the makefiles are read has no message about the directory around it. -/
theorem C141_direct (m : WdMode) (hm : m = .line ∨ m = .target) (d s t : Str) (hs : s ≠ []) :
    (wdRun .init [.opts m true, .setDir d, .start none, .write none t, .finish none, .message none s, .die]).map (·.term) =
      some [.cmd t, .own s] := by
  rcases hm with rfl | rfl <;> simp [wdRun, WdOp.run, WdSt.init, wdStart, wdPut, hs]

end Remake
