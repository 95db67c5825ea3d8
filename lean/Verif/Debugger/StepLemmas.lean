import Verif.Debugger.StepSpec
/-!
# Stops of the debugger: lemmas (C118)
-/
namespace Remake
set_option linter.unusedVariables false
set_option linter.unusedSimpArgs false
open Spec

/-! ## Lemmas -/

theorem and_two_pow_ne {n : Nat} (i : Nat) : (n &&& 2 ^ i ≠ 0) ↔ n.testBit i = true := by
  constructor
  · intro h
    obtain ⟨j, hj⟩ := Nat.exists_testBit_of_ne_zero h
    rw [Nat.testBit_and, Bool.and_eq_true, Nat.testBit_two_pow] at hj
    have : i = j := by simpa using hj.2
    rw [this]; exact hj.1
  · intro h e
    have : (n &&& 2 ^ i).testBit i = true := by
      rw [Nat.testBit_and, h, Nat.testBit_two_pow]; simp
    rw [e] at this
    simp at this

theorem bit_before (n : Nat) : (n &&& brkBefore ≠ 0) ↔ n.testBit 0 = true := and_two_pow_ne 0
theorem bit_after (n : Nat) : (n &&& brkAfter ≠ 0) ↔ n.testBit 1 = true := and_two_pow_ne 1
theorem bit_end (n : Nat) : (n &&& brkEnd ≠ 0) ↔ n.testBit 2 = true := and_two_pow_ne 2
theorem bit_temp (n : Nat) : (n &&& brkTemp ≠ 0) ↔ n.testBit 3 = true := and_two_pow_ne 3

theorem testBit_ne_zero {n i : Nat} (h : n.testBit i = true) : n ≠ 0 := by
  intro e; rw [e] at h; simp at h

/-- What happens at a place. -/
def visit (s : DbgState) (p : Place) : Entry :=
  match p.call s with
  | none => .go s
  | some (t, code, r) => enterDebugger s t code r

variable {user : Nat → List DbgCmd} {k : Nat} {stack : List Nat} {ps rest : List (Place × List Nat)} {p : Place} {s s' : DbgState}

theorem session_go (h : visit s p = .go s') :
    session user k ((p, stack) :: ps) s = (false :: (session user k ps s').1, (session user k ps s').2) := by
  rw [session]
  unfold visit at h
  split at h
  · rename_i e
    rw [e]; cases h; rfl
  · rename_i t code r e
    rw [e]
    simp only [h]

theorem session_stop (h : visit s p = .stop s') : (session user k ((p, stack) :: ps) s).1.head? = some true := by
  rw [session]
  unfold visit at h
  split at h
  · cases h
  · rename_i t code r e
    rw [e]
    simp only [h]
    split <;> rfl

theorem session_resume {s'' : DbgState} (h : visit s p = .stop s') (hu : readLoop stack (user k) s' = .resume s'') :
    session user k ((p, stack) :: ps) s = (true :: (session user (k + 1) ps s'').1, (session user (k + 1) ps s'').2) := by
  rw [session]
  unfold visit at h
  split at h
  · cases h
  · rename_i t code r e
    rw [e]
    simp only [h, hu]

theorem session_head {b : Bool} {l : List Bool} (h : l.head? = some b) : ∃ tail, l = b :: tail := by
  cases l with
  | nil => cases h
  | cons a l => exact ⟨l, by cases h; rfl⟩

/-- Nothing is counted: a stop at breakpoints only. -/
theorem visit_quiet (hq : s.quit = false) (hs : s.stepping = 0) (hn : s.nexting = 0) (ho : Ordinary p) :
    (BreakpointAt s.tracing p ∧ ∃ s', visit s p = .stop s') ∨ (¬ BreakpointAt s.tracing p ∧ visit s p = .go s) := by
  unfold visit
  cases p with
  | before t cmds =>
    simp only [Place.call, hs, bit_before, BreakpointAt]
    by_cases h : (s.tracing t).testBit 0 = true
    · refine .inl ⟨h, ?_⟩
      have := testBit_ne_zero h
      simp [h, enterDebugger, hq, hs, hn, this]
    · refine .inr ⟨h, ?_⟩
      simp [h]
  | missing t cmds => exact .inr ⟨fun h => h, by simp [Place.call, hn]⟩
  | after t =>
    simp only [Place.call, bit_after, BreakpointAt]
    by_cases h : (s.tracing t).testBit 1 = true
    · refine .inl ⟨h, ?_⟩
      have := testBit_ne_zero h
      simp [h, enterDebugger, hq, hs, hn, this]
    · refine .inr ⟨h, ?_⟩
      simp [h]
  | ended t =>
    simp only [Place.call, hs, bit_end, BreakpointAt]
    by_cases h : (s.tracing t).testBit 2 = true
    · refine .inl ⟨h, ?_⟩
      have := testBit_ne_zero h
      simp [h, enterDebugger, hq, hs, hn, this]
    · refine .inr ⟨h, ?_⟩
      simp [h]
  | command t => exact .inr ⟨fun h => h, by simp [Place.call, hs]⟩
  | _ => exact absurd ho (fun h => h)

theorem session_pass (l : List (Place × List Nat)) (hl : ∀ x ∈ l, visit s x.1 = .go s) :
    session user k (l ++ rest) s = (List.replicate l.length false ++ (session user k rest s).1, (session user k rest s).2) := by
  induction l with
  | nil => rfl
  | cons x l ih =>
    obtain ⟨p, st⟩ := x
    rw [List.cons_append, session_go (hl (p, st) (List.mem_cons_self ..)), ih (fun y hy => hl y (List.mem_cons_of_mem _ hy))]
    rfl

/-- Steps are counted. -/
theorem visit_step (hq : s.quit = false) (hn : s.nexting = 0) (ho : Ordinary p) (hp : ¬ Traced s.tracing p) (hs : s.stepping ≠ 0) :
    (StepPlace p ∧ s.stepping = 1 ∧ ∃ s', visit s p = .stop s') ∨
    (StepPlace p ∧ 1 < s.stepping ∧ visit s p = .go { s with stepping := s.stepping - 1 }) ∨
    (¬ StepPlace p ∧ visit s p = .go s) := by
  have zero : ∀ t, targetOf p = some t → s.tracing t = 0 := fun t ht => Decidable.not_not.mp (fun h => hp ⟨t, ht, h⟩)
  unfold visit
  have go : ∀ t code r, s.tracing t = 0 → 1 < s.stepping → enterDebugger s (some t) code r = .go { s with stepping := s.stepping - 1 } := by
    intro t code r ht h1
    have ht' : s.bp.tracing t = 0 := ht
    simp [enterDebugger, hq, hn, h1, DbgState.tracing, ht']
  have stop : ∀ t code r, s.stepping = 1 → ∃ s', enterDebugger s (some t) code r = .stop s' := by
    intro t code r h1
    simp [enterDebugger, hq, hn, h1]
  cases p with
  | before t cmds =>
    have ht := zero t rfl
    simp only [Place.call, hs, bit_before, StepPlace]
    cases cmds with
    | true =>
      by_cases h1 : s.stepping = 1
      · exact .inl ⟨rfl, h1, by simpa [hs] using stop t 0 .breakpoint h1⟩
      · exact .inr (.inl ⟨rfl, by omega, by simpa [hs] using go t 0 .breakpoint ht (by omega)⟩)
    | false => exact .inr (.inr ⟨by simp, by simp [ht]⟩)
  | missing t cmds => exact .inr (.inr ⟨fun h => h, by simp [Place.call, hn]⟩)
  | after t =>
    have ht := zero t rfl
    exact .inr (.inr ⟨fun h => h, by simp [Place.call, ht]⟩)
  | ended t =>
    have ht := zero t rfl
    simp only [Place.call, hs]
    by_cases h1 : s.stepping = 1
    · exact .inl ⟨trivial, h1, by simpa [hs] using stop t 0 .breakpoint h1⟩
    · exact .inr (.inl ⟨trivial, by omega, by simpa [hs] using go t 0 .breakpoint ht (by omega)⟩)
  | command t =>
    have ht := zero t rfl
    simp only [Place.call, hs]
    by_cases h1 : s.stepping = 1
    · exact .inl ⟨trivial, h1, by simpa [hs] using stop t 0 .other h1⟩
    · exact .inr (.inl ⟨trivial, by omega, by simpa [hs] using go t 0 .other ht (by omega)⟩)
  | _ => exact absurd ho (fun h => h)

/-- Places for `next` are counted. -/
theorem visit_next (hq : s.quit = false) (hs : s.stepping = 0) (ho : Ordinary p) (hp : ¬ Traced s.tracing p) (hn : s.nexting ≠ 0) :
    (NextPlace p ∧ s.nexting = 1 ∧ ∃ s', visit s p = .stop s') ∨
    (NextPlace p ∧ 1 < s.nexting ∧ visit s p = .go { s with nexting := s.nexting - 1 }) ∨
    (¬ NextPlace p ∧ visit s p = .go s) := by
  have zero : ∀ t, targetOf p = some t → s.tracing t = 0 := fun t ht => Decidable.not_not.mp (fun h => hp ⟨t, ht, h⟩)
  unfold visit
  cases p with
  | before t cmds =>
    have ht := zero t rfl
    exact .inr (.inr ⟨fun h => h, by simp [Place.call, hs, ht]⟩)
  | missing t cmds =>
    have ht := zero t rfl
    have ht' : s.bp.tracing t = 0 := ht
    simp only [Place.call, hn, NextPlace]
    cases cmds with
    | true =>
      by_cases h1 : s.nexting = 1
      · exact .inl ⟨rfl, h1, by simp [enterDebugger, hq, hs, h1]⟩
      · exact .inr (.inl ⟨rfl, by omega, by
        have h2 : 1 < s.nexting := by omega
        simp [hn]; simp [enterDebugger, hq, hs, h2, DbgState.tracing, ht']⟩)
    | false => exact .inr (.inr ⟨by simp, by simp⟩)
  | after t =>
    have ht := zero t rfl
    exact .inr (.inr ⟨fun h => h, by simp [Place.call, ht]⟩)
  | ended t =>
    have ht := zero t rfl
    exact .inr (.inr ⟨fun h => h, by simp [Place.call, hs, ht]⟩)
  | command t => exact .inr (.inr ⟨fun h => h, by simp [Place.call, hs]⟩)
  | _ => exact absurd ho (fun h => h)

theorem session_steps (l : List (Place × List Nat)) (hq : s.quit = false) (hn : s.nexting = 0)
    (hl : ∀ x ∈ l, Ordinary x.1 ∧ ¬ Traced s.tracing x.1) (hc : s.stepping = (l.countP fun x => decide (StepPlace x.1)) + 1) :
    session user k (l ++ rest) s = (List.replicate l.length false ++ (session user k rest { s with stepping := 1 }).1,
      (session user k rest { s with stepping := 1 }).2) := by
  induction l generalizing s with
  | nil =>
    have : s = { s with stepping := 1 } := by
      cases s; simp only [List.countP_nil] at hc; simp_all
    rw [← this]; rfl
  | cons x l ih =>
    obtain ⟨p, st⟩ := x
    have hx := hl (p, st) (List.mem_cons_self ..)
    have hl' := fun y hy => hl y (List.mem_cons_of_mem _ hy)
    rw [List.countP_cons] at hc
    rw [List.cons_append]
    rcases visit_step hq hn hx.1 hx.2 (by omega) with ⟨h1, h2, _⟩ | ⟨h1, h2, h3⟩ | ⟨h1, h3⟩
    · simp [h1] at hc; omega
    · rw [session_go h3, ih (s := { s with stepping := s.stepping - 1 }) hq hn hl' (by simp [h1] at hc; show s.stepping - 1 = _; omega)]
      rfl
    · rw [session_go h3, ih hq hn hl' (by simpa [h1] using hc)]
      rfl

theorem session_nexts (l : List (Place × List Nat)) (hq : s.quit = false) (hs : s.stepping = 0)
    (hl : ∀ x ∈ l, Ordinary x.1 ∧ ¬ Traced s.tracing x.1) (hc : s.nexting = (l.countP fun x => decide (NextPlace x.1)) + 1) :
    session user k (l ++ rest) s = (List.replicate l.length false ++ (session user k rest { s with nexting := 1 }).1,
      (session user k rest { s with nexting := 1 }).2) := by
  induction l generalizing s with
  | nil =>
    have : s = { s with nexting := 1 } := by
      cases s; simp only [List.countP_nil] at hc; simp_all
    rw [← this]; rfl
  | cons x l ih =>
    obtain ⟨p, st⟩ := x
    have hx := hl (p, st) (List.mem_cons_self ..)
    have hl' := fun y hy => hl y (List.mem_cons_of_mem _ hy)
    rw [List.countP_cons] at hc
    rw [List.cons_append]
    rcases visit_next hq hs hx.1 hx.2 (by omega) with ⟨h1, h2, _⟩ | ⟨h1, h2, h3⟩ | ⟨h1, h3⟩
    · simp [h1] at hc; omega
    · rw [session_go h3, ih (s := { s with nexting := s.nexting - 1 }) hq hs hl' (by simp [h1] at hc; show s.nexting - 1 = _; omega)]
      rfl
    · rw [session_go h3, ih hq hs hl' (by simpa [h1] using hc)]
      rfl

/-- What a stop leaves of the state. -/
theorem visit_stop (h : visit s p = .stop s') (ho : Ordinary p) : s.quit = false ∧ s'.quit = false ∧ s'.frame = 0 ∧
    s'.bp.heap = s.bp.heap ∧ (∀ t, targetOf p ≠ some t → s'.tracing t = s.tracing t) ∧
    ∀ t, targetOf p = some t → s'.tracing t = s.tracing t ∨ (s'.tracing t = 0 ∧ (s.tracing t).testBit 3 = true) := by
  have key : ∀ t code r s0, (∀ x, s0.tracing x = s.tracing x) → s0.bp.heap = s.bp.heap → s0.quit = false → code = 0 →
      s' = stopAt s0 (some t) code r → targetOf p = some t → s'.quit = false ∧ s'.frame = 0 ∧
      s'.bp.heap = s.bp.heap ∧ (∀ t, targetOf p ≠ some t → s'.tracing t = s.tracing t) ∧
      ∀ t, targetOf p = some t → s'.tracing t = s.tracing t ∨ (s'.tracing t = 0 ∧ (s.tracing t).testBit 3 = true) := by
    intro t code r s0 h1 h1' h2 h3 h4 h5
    subst h4
    simp only [stopAt, bit_temp, h1]
    by_cases hc : (s.tracing t).testBit 3 = true ∧ r = .breakpoint
    · rw [if_pos hc]
      refine ⟨by simp [DbgState.trace, h2, h3], by simp, h1', fun x hx => ?_, fun x hx => ?_⟩
      · have : x ≠ t := fun e => hx (e ▸ h5)
        simp [DbgState.tracing, DbgState.trace, this]
        exact h1 x
      · have : x = t := by rw [h5] at hx; exact (Option.some.inj hx).symm
        subst this
        exact .inr ⟨by simp [DbgState.tracing, DbgState.trace], hc.1⟩
    · rw [if_neg hc]
      exact ⟨by simp [h2, h3], by simp, h1', fun x _ => h1 x, fun x _ => .inl (h1 x)⟩
  have ent : ∀ t code r, code = 0 → targetOf p = some t → enterDebugger s (some t) code r = .stop s' → s.quit = false ∧ s'.quit = false ∧ s'.frame = 0 ∧
      s'.bp.heap = s.bp.heap ∧ (∀ t, targetOf p ≠ some t → s'.tracing t = s.tracing t) ∧
      ∀ t, targetOf p = some t → s'.tracing t = s.tracing t ∨ (s'.tracing t = 0 ∧ (s.tracing t).testBit 3 = true) := by
    intro t code r hc ht he
    unfold enterDebugger at he
    split at he
    · cases he
    · rename_i hq
      have hq : s.quit = false := by simpa using hq
      refine ⟨hq, ?_⟩
      split at he
      · simp only at he
        split at he
        · cases he
        · cases he
          exact key t code r { s with stepping := s.stepping - 1, nexting := s.nexting - 1 } (fun _ => rfl) rfl hq hc rfl ht
      · simp only at he
        split at he
        · cases he
        · cases he
          exact key t code r s (fun _ => rfl) rfl hq hc rfl ht
  unfold visit at h
  cases p with
  | before t cmds =>
    simp only [Place.call] at h
    split at h
    · cases h
    · rename_i a b c d
      split at d
      · cases d; exact ent t 0 .breakpoint rfl rfl h
      · cases d
  | missing t cmds =>
    simp only [Place.call] at h
    split at h
    · cases h
    · rename_i a b c d
      split at d
      · cases d; exact ent t 0 .other rfl rfl h
      · cases d
  | after t =>
    simp only [Place.call] at h
    split at h
    · cases h
    · rename_i a b c d
      split at d
      · cases d; exact ent t 0 .breakpoint rfl rfl h
      · cases d
  | ended t =>
    simp only [Place.call] at h
    split at h
    · cases h
    · rename_i a b c d
      split at d
      · cases d; exact ent t 0 .breakpoint rfl rfl h
      · cases d
  | command t =>
    simp only [Place.call] at h
    split at h
    · cases h
    · rename_i a b c d
      split at d
      · cases d; exact ent t 0 .other rfl rfl h
      · cases d
  | _ => exact absurd ho (fun h => h)

theorem readLoop_prompts {cs : List DbgCmd} {c : DbgCmd} {s1 s2 : DbgState} (h : Prompts stack cs s s1) (hr : c.run stack s1 = .resume s2) :
    readLoop stack (cs ++ [c]) s = .resume s2 := by
  induction h with
  | none => rw [List.nil_append, readLoop, hr]
  | command h1 _ ih => rw [List.cons_append, readLoop, h1]; exact ih hr

theorem prompts_quit {cs : List DbgCmd} {s1 : DbgState} (h : Prompts stack cs s s1) (hq : s.quit = false) : s1.quit = false := by
  induction h with
  | none => exact hq
  | @command c cs s s1 s2 h1 _ ih =>
    refine ih ?_
    cases c with
    | step a => cases a <;> simp [DbgCmd.run] at h1; exact h1 ▸ hq
    | next a => cases a <;> simp [DbgCmd.run] at h1
    | cont => simp [DbgCmd.run] at h1
    | contTo t m =>
      cases t with
      | none => simp [DbgCmd.run] at h1; exact h1 ▸ hq
      | some t => simp only [DbgCmd.run] at h1; split at h1 <;> cases h1
    | finish a =>
      cases a <;> simp only [DbgCmd.run] at h1
      · split at h1 <;> cases h1; exact hq
      · split at h1 <;> cases h1; exact hq
      · cases h1; exact hq
    | skip => simp [DbgCmd.run] at h1
    | frame k => simp only [DbgCmd.run] at h1; split at h1 <;> cases h1 <;> exact hq
    | breakAt t m => simp only [DbgCmd.run] at h1; split at h1 <;> cases h1; exact hq
    | delete i => simp only [DbgCmd.run] at h1; split at h1 <;> cases h1; exact hq
    | deleteAll => simp only [DbgCmd.run] at h1; split at h1 <;> cases h1; exact hq
    | quit => simp [DbgCmd.run] at h1
    | other => simp [DbgCmd.run] at h1; exact h1 ▸ hq

/-- A breakpoint stops whatever is counted; if it is a temporary one, it is gone then. -/
theorem visit_break (hq : s.quit = false) (hb : BreakpointAt s.tracing p) : ∃ s', visit s p = .stop s' ∧ ∃ t, targetOf p = some t ∧
    ((s.tracing t).testBit 3 = true → s'.tracing t = 0) ∧ (∀ x, x ≠ t → s'.tracing x = s.tracing x) := by
  have key : ∀ t, s.tracing t ≠ 0 → ∃ s', enterDebugger s (some t) 0 .breakpoint = .stop s' ∧
      ((s.tracing t).testBit 3 = true → s'.tracing t = 0) ∧ (∀ x, x ≠ t → s'.tracing x = s.tracing x) := by
    intro t ht
    have stp : ∀ s0 : DbgState, (∀ x, s0.tracing x = s.tracing x) → ((s.tracing t).testBit 3 = true → (stopAt s0 (some t) 0 .breakpoint).tracing t = 0) ∧
        (∀ x, x ≠ t → (stopAt s0 (some t) 0 .breakpoint).tracing x = s.tracing x) := by
      intro s0 h0
      simp only [stopAt, bit_temp, h0]
      by_cases h3 : (s.tracing t).testBit 3 = true
      · rw [if_pos ⟨h3, trivial⟩]
        refine ⟨fun _ => by simp [DbgState.tracing, DbgState.trace], fun x hx => ?_⟩
        simp [DbgState.tracing, DbgState.trace, hx]
        exact h0 x
      · rw [if_neg (fun h => h3 h.1)]
        exact ⟨fun h => absurd h h3, fun x hx => h0 x⟩
    unfold enterDebugger
    rw [if_neg (by simp [hq])]
    by_cases hc : s.stepping > 1 ∨ s.nexting > 1
    · refine ⟨stopAt { s with stepping := s.stepping - 1, nexting := s.nexting - 1 } (some t) 0 .breakpoint, ?_, stp _ (fun _ => rfl)⟩
      have : ({ s with stepping := s.stepping - 1, nexting := s.nexting - 1 } : DbgState).tracing t ≠ 0 := ht
      rw [if_pos hc]
      simp only [if_neg this]
    · refine ⟨stopAt s (some t) 0 .breakpoint, ?_, stp _ (fun _ => rfl)⟩
      simp [hc, ht]
  unfold visit
  cases p with
  | before t cmds =>
    simp only [BreakpointAt] at hb
    obtain ⟨s', h1, h2⟩ := key t (testBit_ne_zero hb)
    exact ⟨s', by simp only [Place.call, bit_before, hb]; simpa using h1, t, rfl, h2⟩
  | after t =>
    simp only [BreakpointAt] at hb
    obtain ⟨s', h1, h2⟩ := key t (testBit_ne_zero hb)
    exact ⟨s', by simp only [Place.call, bit_after, hb]; simpa using h1, t, rfl, h2⟩
  | ended t =>
    simp only [BreakpointAt] at hb
    obtain ⟨s', h1, h2⟩ := key t (testBit_ne_zero hb)
    exact ⟨s', by simp only [Place.call, bit_end, hb]; simpa using h1, t, rfl, h2⟩
  | _ => exact absurd hb (fun h => h)

/-- The last place that is counted stops. -/
theorem visit_last_step (hq : s.quit = false) (hn : s.nexting = 0) (hs : s.stepping = 1) (hp : StepPlace p) : ∃ s', visit s p = .stop s' := by
  unfold visit
  cases p with
  | before t cmds => simp only [StepPlace] at hp; simp [Place.call, hs, hp, enterDebugger, hq, hn]
  | ended t => simp [Place.call, hs, enterDebugger, hq, hn]
  | command t => simp [Place.call, hs, enterDebugger, hq, hn]
  | _ => exact absurd hp (fun h => h)

theorem visit_last_next (hq : s.quit = false) (hn : s.nexting = 1) (hs : s.stepping = 0) (hp : NextPlace p) : ∃ s', visit s p = .stop s' := by
  unfold visit
  cases p with
  | missing t cmds => simp only [NextPlace] at hp; simp [Place.call, hs, hp, enterDebugger, hq, hn]
  | _ => exact absurd hp (fun h => h)

end Remake
