import Verif.Debugger.StepLemmas
import Verif.Debugger.Lemmas
/-!
# Stops of the debugger: property theorems (C118)

In each theorem the program has stopped at a place `p0`; the user types some commands `cs` that leave the
prompt, with the state `s1`, and then one that resumes.  The program comes to the places `l`, and then
to `p`.
-/
namespace Remake
set_option linter.unusedVariables false
set_option linter.unusedSimpArgs false
open Spec

variable {user : Nat → List DbgCmd} {k : Nat} {st0 st : List Nat} {l rest : List (Place × List Nat)} {p0 p : Place}
  {s s0 s1 : DbgState} {cs : List DbgCmd}

/-- Without options for the debugger it never stops, except where a makefile calls it, and changes
nothing. -/
theorem C118_free (flags : Str) (h : ∀ x ∈ l, x.1 ≠ .called) :
    session user k l (DbgState.init flags) = (List.replicate l.length false, .finished (DbgState.init flags)) := by
  have := session_pass (user := user) (k := k) (rest := []) (s := DbgState.init flags) l (fun x hx => by
    obtain ⟨p, st⟩ := x
    have h0 := h _ hx
    have ht : ∀ t, (DbgState.init flags).tracing t = 0 := fun _ => rfl
    cases p <;> simp_all [visit, Place.call, DbgState.init])
  rw [List.append_nil] at this
  rw [this]
  simp [session]

/-- A breakpoint stops the program, whatever is counted; if it is a temporary one it is removed, and the
others are left. -/
theorem C118_breakpoint (hq : s.quit = false) (hb : BreakpointAt s.tracing p) :
    (session user k ((p, st) :: rest) s).1.head? = some true ∧
    (user k = [.cont] → ∃ s3, session user k ((p, st) :: rest) s = (true :: (session user (k + 1) rest s3).1, (session user (k + 1) rest s3).2) ∧
      ∃ t, targetOf p = some t ∧ ((s.tracing t).testBit 3 = true → s3.tracing t = 0) ∧ ∀ x, x ≠ t → s3.tracing x = s.tracing x) := by
  obtain ⟨s', h1, t, h2, h3, h4⟩ := visit_break hq hb
  refine ⟨session_stop h1, fun hu => ?_⟩
  exact ⟨({ s' with stepping := 0, nexting := 0 } : DbgState).flags [], session_resume h1 (by rw [hu]; rfl), t, h2, h3, h4⟩

theorem resumed (hp0 : Ordinary p0) (h0 : visit s p0 = .stop s0) (hc : Prompts st0 cs s0 s1) {c : DbgCmd} {s2 : DbgState}
    (hu : user k = cs ++ [c]) (hr : c.run st0 s1 = .resume s2) :
    session user k ((p0, st0) :: rest) s = (true :: (session user (k + 1) rest s2).1, (session user (k + 1) rest s2).2) :=
  session_resume h0 (by rw [hu]; exact readLoop_prompts hc hr)

/-- `continue`: the next stop is at the next breakpoint. -/
theorem C118_continue (hp0 : Ordinary p0) (h0 : visit s p0 = .stop s0) (hc : Prompts st0 cs s0 s1) (hu : user k = cs ++ [.cont])
    (hl : ∀ x ∈ l, Ordinary x.1 ∧ ¬ BreakpointAt s1.tracing x.1) (hp : BreakpointAt s1.tracing p) :
    ∃ tail, (session user k ((p0, st0) :: (l ++ (p, st) :: rest)) s).1 = true :: (List.replicate l.length false ++ true :: tail) := by
  have hq := prompts_quit hc (visit_stop h0 hp0).2.1
  rw [resumed hp0 h0 hc hu rfl]
  have hgo : ∀ x ∈ l, visit ({ s1 with stepping := 0, nexting := 0 }.flags []) x.1 = .go ({ s1 with stepping := 0, nexting := 0 }.flags []) := by
    intro x hx
    rcases visit_quiet (s := { s1 with stepping := 0, nexting := 0 }.flags []) hq rfl rfl (hl x hx).1 with h | h
    · exact absurd h.1 (hl x hx).2
    · exact h.2
  rw [session_pass l hgo]
  obtain ⟨s', h1, _⟩ := visit_break (s := { s1 with stepping := 0, nexting := 0 }.flags []) (p := p) hq hp
  obtain ⟨tail, ht⟩ := session_head (session_stop (user := user) (k := k + 1) (stack := st) (ps := rest) h1)
  exact ⟨tail, by rw [ht]⟩

/-- `continue` without a breakpoint ahead: no stop. -/
theorem C118_continue_end (hp0 : Ordinary p0) (h0 : visit s p0 = .stop s0) (hc : Prompts st0 cs s0 s1) (hu : user k = cs ++ [.cont])
    (hl : ∀ x ∈ l, Ordinary x.1 ∧ ¬ BreakpointAt s1.tracing x.1) :
    (session user k ((p0, st0) :: l) s).1 = true :: List.replicate l.length false := by
  have hq := prompts_quit hc (visit_stop h0 hp0).2.1
  rw [resumed hp0 h0 hc hu rfl]
  have hgo : ∀ x ∈ l, visit ({ s1 with stepping := 0, nexting := 0 }.flags []) x.1 = .go ({ s1 with stepping := 0, nexting := 0 }.flags []) := by
    intro x hx
    rcases visit_quiet (s := { s1 with stepping := 0, nexting := 0 }.flags []) hq rfl rfl (hl x hx).1 with h | h
    · exact absurd h.1 (hl x hx).2
    · exact h.2
  have := session_pass (user := user) (k := k + 1) (rest := []) l hgo
  rw [List.append_nil] at this
  rw [this]
  simp [session]

/-- `step n`: the next stop is at the `n`-th of the places that are counted, unless a target with a
breakpoint comes before. -/
theorem C118_step_partial (hp0 : Ordinary p0) (h0 : visit s p0 = .stop s0) (hc : Prompts st0 cs s0 s1) {a : NumArg} {n : Nat}
    (hu : user k = cs ++ [.step a]) (ha : (a = .absent ∧ n = 1) ∨ (a = .num n ∧ n < 2 ^ 32))
    (hl : ∀ x ∈ l, Ordinary x.1 ∧ ¬ Traced s1.tracing x.1) (hn : (l.countP fun x => decide (StepPlace x.1)) + 1 = n) (hp : StepPlace p) :
    ∃ tail, (session user k ((p0, st0) :: (l ++ (p, st) :: rest)) s).1 = true :: (List.replicate l.length false ++ true :: tail) := by
  have hq := prompts_quit hc (visit_stop h0 hp0).2.1
  have hr : (DbgCmd.step a).run st0 s1 = .resume ({ s1 with stepping := n, nexting := 0 }.flags ['X']) := by
    rcases ha with ⟨rfl, rfl⟩ | ⟨rfl, h⟩
    · rfl
    · rw [DbgCmd.run, Nat.mod_eq_of_lt h]
  rw [resumed hp0 h0 hc hu hr]
  have hs := session_steps (user := user) (k := k + 1) (rest := (p, st) :: rest) (s := ({ s1 with stepping := n, nexting := 0 } : DbgState).flags ['X']) l hq rfl hl hn.symm
  rw [hs]
  obtain ⟨s', h1⟩ := visit_last_step (s := { ({ s1 with stepping := n, nexting := 0 }.flags ['X']) with stepping := 1 }) (p := p) hq rfl rfl hp
  obtain ⟨tail, ht⟩ := session_head (session_stop (user := user) (k := k + 1) (stack := st) (ps := rest) h1)
  exact ⟨tail, by rw [ht]⟩

/-- `next n`, if the program was not resumed with `step`: the next stop is at the `n`-th of the targets
that do not exist and have recipes, unless a target with a breakpoint comes before. -/
theorem C118_next_partial (hp0 : Ordinary p0) (h0 : visit s p0 = .stop s0) (hc : Prompts st0 cs s0 s1) {a : NumArg} {n : Nat}
    (hu : user k = cs ++ [.next a]) (ha : (a = .absent ∧ n = 1) ∨ (a = .num n ∧ n < 2 ^ 32 ∧ s1.stepping = 0))
    (hl : ∀ x ∈ l, Ordinary x.1 ∧ ¬ Traced s1.tracing x.1) (hn : (l.countP fun x => decide (NextPlace x.1)) + 1 = n) (hp : NextPlace p) :
    ∃ tail, (session user k ((p0, st0) :: (l ++ (p, st) :: rest)) s).1 = true :: (List.replicate l.length false ++ true :: tail) := by
  have hq := prompts_quit hc (visit_stop h0 hp0).2.1
  obtain ⟨f, hr⟩ : ∃ f, (DbgCmd.next a).run st0 s1 = .resume { s1 with stepping := 0, nexting := n, makeflags := f } := by
    rcases ha with ⟨rfl, rfl⟩ | ⟨rfl, h, h'⟩
    · exact ⟨[], rfl⟩
    · refine ⟨s1.makeflags, ?_⟩
      rw [DbgCmd.run, Nat.mod_eq_of_lt h]
      cases s1; simp_all
  rw [resumed hp0 h0 hc hu hr]
  have hs := session_nexts (user := user) (k := k + 1) (rest := (p, st) :: rest) (s := { s1 with stepping := 0, nexting := n, makeflags := f }) l hq rfl hl hn.symm
  rw [hs]
  obtain ⟨s', h1⟩ := visit_last_next (s := { s1 with stepping := 0, nexting := 1, makeflags := f }) (p := p) hq rfl rfl hp
  obtain ⟨tail, ht⟩ := session_head (session_stop (user := user) (k := k + 1) (stack := st) (ps := rest) h1)
  exact ⟨tail, by rw [ht]⟩

/-- `continue t` and then `continue`, without other breakpoints: exactly one stop, where the target gets
to the first place of those that were asked for. -/
theorem C118_once_partial (hp0 : Ordinary p0) (h0 : visit s p0 = .stop s0) (hc : Prompts st0 cs s0 s1) {t m : Nat} {b : BpState}
    (hu : user k = cs ++ [.contTo (some t) m]) (hu' : user (k + 1) = [.cont]) (hb : addBreakpoint s1.bp t (m ||| 8) = some b)
    (ht : ∀ x, s1.tracing x = 0)
    (hl : ∀ x ∈ l, Ordinary x.1 ∧ ¬ BreakpointAt (fun x => if x = t then m else 0) x.1)
    (hp : BreakpointAt (fun x => if x = t then m else 0) p) (hrest : ∀ x ∈ rest, Ordinary x.1) :
    (session user k ((p0, st0) :: (l ++ (p, st) :: rest)) s).1 =
      true :: (List.replicate l.length false ++ true :: List.replicate rest.length false) := by
  have hq := prompts_quit hc (visit_stop h0 hp0).2.1
  have htr : ∀ x, b.tracing x = if x = t then m ||| 8 else 0 := by
    intro x
    have hh : ∀ x, s1.bp.tracing x = 0 := ht
    unfold addBreakpoint at hb
    simp only [Option.map_eq_some_iff] at hb
    obtain ⟨c, hc1, hc2⟩ := hb
    have hct : ∀ x, c.tracing x = 0 := by
      intro x
      split at hc1
      · cases hc1; exact hh x
      · split at hc1
        · cases hc1
        · simp only [BpState.setNext, Option.map_eq_some_iff] at hc1
          obtain ⟨_, _, e⟩ := hc1
          rw [← e]; exact hh x
    rw [← hc2]
    show (if x = t then m ||| 8 else c.tracing x) = _
    rw [hct]
  have hr : (DbgCmd.contTo (some t) m).run st0 s1 = .resume ({ s1 with bp := b, stepping := 0, nexting := 0 }.flags []) := by
    have hb' : addBreakpoint s1.bp t (m ||| brkTemp) = some b := hb
    simp only [DbgCmd.run, hb']
  have bits : ∀ q, BreakpointAt (({ s1 with bp := b, stepping := 0, nexting := 0 } : DbgState).flags []).tracing q ↔
      BreakpointAt (fun x => if x = t then m else 0) q := by
    have e : ∀ x i, i < 3 → ((({ s1 with bp := b, stepping := 0, nexting := 0 } : DbgState).flags []).tracing x).testBit i =
        (if x = t then m else 0).testBit i := by
      intro x i hi
      show (b.tracing x).testBit i = _
      rw [htr]
      by_cases h : x = t
      · rw [if_pos h, if_pos h, Nat.testBit_or]
        have : Nat.testBit 8 i = false := by
          have : i = 0 ∨ i = 1 ∨ i = 2 := by omega
          rcases this with rfl | rfl | rfl <;> decide
        simp [this]
      · rw [if_neg h, if_neg h]
    intro q
    cases q <;> simp only [BreakpointAt, e _ 0 (by omega), e _ 1 (by omega), e _ 2 (by omega)]
  rw [resumed hp0 h0 hc hu hr]
  have hgo : ∀ x ∈ l, visit ({ s1 with bp := b, stepping := 0, nexting := 0 }.flags []) x.1 = .go ({ s1 with bp := b, stepping := 0, nexting := 0 }.flags []) := by
    intro x hx
    rcases visit_quiet (s := { s1 with bp := b, stepping := 0, nexting := 0 }.flags []) hq rfl rfl (hl x hx).1 with h | h
    · exact absurd ((bits _).mp h.1) (hl x hx).2
    · exact h.2
  rw [session_pass l hgo]
  obtain ⟨s', h1, t', ht', h2, h3⟩ := visit_break (s := { s1 with bp := b, stepping := 0, nexting := 0 }.flags []) (p := p) hq ((bits p).mpr hp)
  have htt : t' = t := by
    refine Decidable.byContradiction (fun h => ?_)
    cases p <;> simp [BreakpointAt, targetOf] at hp ht' <;> subst ht' <;> simp [h] at hp
  subst htt
  have hz : ∀ x, s'.tracing x = 0 := by
    intro x
    by_cases hx : x = t'
    · subst hx
      refine h2 ?_
      show (b.tracing x).testBit 3 = true
      rw [htr, if_pos rfl, Nat.testBit_or]
      have : Nat.testBit 8 3 = true := by decide
      simp [this]
    · rw [h3 x hx]
      show b.tracing x = 0
      rw [htr, if_neg hx]
  have hop : Ordinary p := by cases p <;> first | trivial | exact absurd hp (fun h => h)
  have hq' := (visit_stop h1 hop).2.1
  rw [session_resume (s'' := { s' with stepping := 0, nexting := 0 }.flags []) h1 (by rw [hu']; rfl)]
  have hgo' : ∀ x ∈ rest, visit ({ s' with stepping := 0, nexting := 0 }.flags []) x.1 = .go ({ s' with stepping := 0, nexting := 0 }.flags []) := by
    intro x hx
    rcases visit_quiet (s := { s' with stepping := 0, nexting := 0 }.flags []) hq' rfl rfl (hrest x hx) with h | h
    · refine absurd h.1 ?_
      have hz' : ∀ x, ({ s' with stepping := 0, nexting := 0 }.flags [] : DbgState).tracing x = 0 := hz
      obtain ⟨q, w⟩ := x
      cases q <;> simp [BreakpointAt, hz']
    · exact h.2
  have := session_pass (user := user) (k := k + 1 + 1) (rest := []) rest hgo'
  rw [List.append_nil] at this
  rw [this]
  simp [session]

/-- `finish` without breakpoints: the next stop is at the end of the target the frame is that of. -/
theorem C118_finish (hp0 : Ordinary p0) (h0 : visit s p0 = .stop s0) (hc : Prompts st0 cs s0 s1) {t : Nat}
    (hu : user k = cs ++ [.finish .absent]) (hf : st0[s1.frame]? = some t) (ht : ∀ x, s1.tracing x = 0)
    (hl : ∀ x ∈ l, Ordinary x.1 ∧ x.1 ≠ .ended t) :
    ∃ tail, (session user k ((p0, st0) :: (l ++ (.ended t, st) :: rest)) s).1 = true :: (List.replicate l.length false ++ true :: tail) := by
  have hq := prompts_quit hc (visit_stop h0 hp0).2.1
  have hr : (DbgCmd.finish .absent).run st0 s1 = .resume (({ s1 with stepping := 0, nexting := 0 }.trace t (s1.tracing t ||| brkEnd)).flags []) := by
    simp only [DbgCmd.run, hf]
  rw [resumed hp0 h0 hc hu hr]
  have htr : ∀ x, (({ s1 with stepping := 0, nexting := 0 }.trace t (s1.tracing t ||| brkEnd)).flags [] : DbgState).tracing x = if x = t then 4 else 0 := by
    intro x
    show (if x = t then s1.tracing t ||| brkEnd else s1.tracing x) = _
    rw [ht, ht]; rfl
  have hgo : ∀ x ∈ l, visit (({ s1 with stepping := 0, nexting := 0 }.trace t (s1.tracing t ||| brkEnd)).flags []) x.1 =
      .go (({ s1 with stepping := 0, nexting := 0 }.trace t (s1.tracing t ||| brkEnd)).flags []) := by
    intro x hx
    rcases visit_quiet (s := ({ s1 with stepping := 0, nexting := 0 }.trace t (s1.tracing t ||| brkEnd)).flags []) hq rfl rfl (hl x hx).1 with h | h
    · refine absurd h.1 ?_
      have h2 := (hl x hx).2
      obtain ⟨q, w⟩ := x
      have b0 : ∀ y, ¬ (if y = t then 4 else 0 : Nat).testBit 0 = true := by intro y; split <;> decide
      have b1 : ∀ y, ¬ (if y = t then 4 else 0 : Nat).testBit 1 = true := by intro y; split <;> decide
      cases q with
      | before y c => simp only [BreakpointAt, htr]; exact b0 y
      | after y => simp only [BreakpointAt, htr]; exact b1 y
      | ended y =>
        have : y ≠ t := fun e => h2 (by simp [e])
        simp [BreakpointAt, htr, this]
      | _ => exact fun h => h
    · exact h.2
  rw [session_pass l hgo]
  obtain ⟨s', h1, _⟩ := visit_break (s := ({ s1 with stepping := 0, nexting := 0 }.trace t (s1.tracing t ||| brkEnd)).flags []) (p := .ended t) hq
    (by simp only [BreakpointAt, htr]; simp; decide)
  obtain ⟨tail, hh⟩ := session_head (session_stop (user := user) (k := k + 1) (stack := st) (ps := rest) h1)
  exact ⟨tail, by rw [hh]⟩

/-- With the debugger asked for on errors only: no stop before the first error, and one there. -/
theorem C118_post_mortem (hq : s.quit = false) (hs : s.stepping = 0) (hn : s.nexting = 0) (he : s.onError = true)
    (hl : ∀ x ∈ l, Ordinary x.1 ∧ ¬ BreakpointAt s.tracing x.1) (t : Option Nat) :
    ∃ tail, (session user k (l ++ (.error t, st) :: rest) s).1 = List.replicate l.length false ++ true :: tail := by
  have hgo : ∀ x ∈ l, visit s x.1 = .go s := by
    intro x hx
    rcases visit_quiet hq hs hn (hl x hx).1 with h | h
    · exact absurd h.1 (hl x hx).2
    · exact h.2
  rw [session_pass l hgo]
  have h1 : visit s (.error t) = .stop (stopAt s t (-1) .other) := by
    simp [visit, Place.call, he, enterDebugger, hq, hs, hn]
  obtain ⟨tail, hh⟩ := session_head (session_stop (user := user) (k := k) (stack := st) (ps := rest) h1)
  exact ⟨tail, by rw [hh]⟩

/-- After `quit`, or at the end of the input, make ends. -/
theorem C118_quit (hp0 : Ordinary p0) (h0 : visit s p0 = .stop s0) (hu : user k = [] ∨ ∃ c, user k = .quit :: c) :
    (session user k ((p0, st0) :: rest) s).1 = [true] ∧ ∃ s', (session user k ((p0, st0) :: rest) s).2 = .died s' := by
  rw [session]
  unfold visit at h0
  split at h0
  · cases h0
  · rename_i t code r e
    rw [e]
    rcases hu with hu | ⟨c, hu⟩ <;> simp [h0, hu, readLoop, DbgCmd.run]

/-- Whatever is typed at the prompt, the frame stays one of the stack. -/
theorem C118_frame (hp0 : Ordinary p0) (h0 : visit s p0 = .stop s0) (hc : Prompts st0 cs s0 s1) (hs : st0 ≠ []) :
    ∃ t, st0[s1.frame]? = some t := by
  have key : s1.frame < st0.length := by
    have hf : s0.frame < st0.length := by
      rw [(visit_stop h0 hp0).2.2.1]; exact List.length_pos_iff.mpr hs
    clear h0
    induction hc with
    | none => exact hf
    | command hr _ ih =>
      refine ih ?_
      rename_i c _ a b _ _
      unfold DbgCmd.run at hr
      split at hr <;> (try dsimp only at hr) <;> (try split at hr) <;> (try dsimp only at hr) <;> (try split at hr) <;> (try split at hr) <;> (try split at hr) <;> first
        | (cases hr; done)
        | (cases hr; exact hf)
        | (cases hr; assumption)
  exact ⟨_, List.getElem?_eq_getElem key⟩

/-- `delete` without a number, after any commands about breakpoints: none is left. -/
theorem C118_delete_all {cmds : List BpCmd} (hc : cmds.length < 2 ^ 32 - 1) (h : bpRun cmds = some s.bp) :
    ∃ s', DbgCmd.deleteAll.run st0 s = .again s' ∧ shown s'.bp = some [] := by
  obtain ⟨b, l, h1, hr, _, _⟩ := bpRun_rep cmds hc
  rw [h] at h1; cases h1
  obtain ⟨b', l', e, hr', _, hm⟩ := rep_deleteFrom (n := s.bp.count) hr 1
  refine ⟨{ s with bp := b' }, by simp only [DbgCmd.run, e], ?_⟩
  rw [show ({ s with bp := b' } : DbgState).bp = b' from rfl, rep_shown hr', hm]
  congr 1
  rw [List.filter_eq_nil_iff]
  intro b hb
  obtain ⟨x, hx, rfl⟩ := List.mem_map.mp hb
  have := hr.num x hx
  simp [bpOf]; omega

/-- `break t` and `continue t` without other words: the breakpoint is for all three places of the target. -/
theorem C118_break_default (t : Nat) (m : Nat) (hm : m = breakMask [] ∨ m = contMask []) (q : Place) :
    BreakpointAt (fun x => if x = t then m else 0) q ↔ (∃ c, q = .before t c) ∨ q = .after t ∨ q = .ended t := by
  have hm : m = 7 := by
    rcases hm with rfl | rfl
    · rfl
    · decide +kernel
  subst hm
  have h0 : Nat.testBit 7 0 = true := by decide
  have h1 : Nat.testBit 7 1 = true := by decide
  have h2 : Nat.testBit 7 2 = true := by decide
  cases q <;> simp only [BreakpointAt] <;> (try split) <;> simp_all

/-! ## Where the code does not do what it says -/

/-- `step 2` followed by a call of the function `debugger`: a null pointer is followed. -/
theorem C118_null : (session (fun _ => [.step (.num 2)]) 0 [(.before 0 true, [0]), (.called, [0])] (DbgState.debug [])).2 = .undef := by
  rfl

/-- `next 2` after `step` stops already at the first target that does not exist. -/
theorem C118_next_early : ∃ l : List (Place × List Nat), (l.countP fun x => decide (NextPlace x.1)) = 1 ∧
    (session (fun _ => [.next (.num 2)]) 0 ((.before 0 true, [0]) :: l) (DbgState.debug [])).1 = [true, false, true] :=
  ⟨[(.before 1 true, [1, 0]), (.missing 1 true, [1, 0])], by decide, by decide⟩

/-- `step 3` stops early at a target that has a breakpoint for something else. -/
theorem C118_step_early : ∃ l : List (Place × List Nat), (∀ x ∈ l, x.1 ≠ .ended 1) ∧ l.length = 1 ∧
    (session (fun _ => [.breakAt 1 4, .step (.num 3)]) 0 ((.before 0 true, [0]) :: l) (DbgState.debug [])).1 = [true, true] :=
  ⟨[(.before 1 true, [1, 0])], by simp, rfl, by decide⟩

/-- Commands that resume make the flags that sub-makes get forgotten. -/
theorem C118_makeflags (hp0 : Ordinary p0) (h0 : visit s p0 = .stop s0) (hc : Prompts st0 cs s0 s1) {c : DbgCmd}
    (hu : user k = cs ++ [c]) (h : c = .cont ∨ c = .step .absent ∨ c = .next .absent) :
    ∃ b s2, session user k [(p0, st0)] s = (b, .finished s2) ∧ (s2.makeflags = [] ∨ s2.makeflags = ['X']) := by
  rcases h with rfl | rfl | rfl
  · exact ⟨_, _, resumed hp0 h0 hc hu rfl, .inl rfl⟩
  · exact ⟨_, _, resumed hp0 h0 hc hu rfl, .inr rfl⟩
  · exact ⟨_, _, resumed hp0 h0 hc hu rfl, .inl rfl⟩

/-- `continue t run end` stops only before the commands of the recipe; `break t run end` at both. -/
theorem C118_continue_modifiers : contMask "run end".toList = 2 ∧ breakMask "run end".toList = 6 := by
  decide +kernel

/-- `break t temp` sets a breakpoint at which the program never stops. -/
theorem C118_break_temp (t : Nat) (q : Place) : breakMask "temp".toList = 8 ∧ ¬ BreakpointAt (fun x => if x = t then 8 else 0) q := by
  refine ⟨by decide +kernel, ?_⟩
  have : ∀ y i, i < 3 → ¬ (if y = t then 8 else 0 : Nat).testBit i = true := by
    intro y i hi
    have : i = 0 ∨ i = 1 ∨ i = 2 := by omega
    split <;> rcases this with rfl | rfl | rfl <;> decide
  cases q <;> simp only [BreakpointAt] <;> first | exact this _ _ (by omega) | exact fun h => h

/-! ## The hypotheses can be met -/

/-- A run with target 0 made from 1: started with `-X`. -/
def exampleRun : List (Place × List Nat) :=
  [(.before 0 true, [0]), (.before 1 true, [1, 0]), (.missing 1 true, [1, 0]), (.after 1, [1, 0]), (.command 1, [1, 0]),
    (.ended 1, [1, 0]), (.missing 0 true, [0]), (.after 0, [0]), (.command 0, [0]), (.ended 0, [0])]

example : (session (fun k => if k = 0 then [.other, .step (.num 3)] else [.cont]) 0 exampleRun (DbgState.debug [])).1 =
    [true, false, false, false, false, true, false, false, false, false] := by decide
example : (session (fun k => if k = 0 then [.next .absent] else [.next (.num 1)]) 0 exampleRun (DbgState.debug [])).1 =
    [true, false, true, false, false, false, true, false, false, false] := by decide
example : (session (fun k => if k = 0 then [.contTo (some 1) 7] else [.cont]) 0 exampleRun (DbgState.debug [])).1 =
    [true, true, false, false, false, false, false, false, false, false] := by decide
example : (session (fun k => if k = 0 then [.step .absent] else [.finish .absent]) 0 exampleRun (DbgState.debug [])).1 =
    [true, true, false, false, false, true, false, false, false, false] := by decide
example : (session (fun k => if k = 0 then [.breakAt 1 2, .cont] else [.cont]) 0 exampleRun (DbgState.debug [])).1 =
    [true, false, false, true, false, false, false, false, false, false] := by decide
example : ∃ s0, visit (DbgState.debug []) (.before 0 true) = .stop s0 ∧ Prompts [0] [.other, .frame 0] s0 s0 ∧ s0.tracing 0 = 0 :=
  ⟨_, rfl, .command rfl (.command rfl .none), rfl⟩
example : (bpRun [.break_ 1 7, .break_ 2 2, .delete 1]).bind shown = some [⟨2, 2, 2⟩] := by decide

end Remake
