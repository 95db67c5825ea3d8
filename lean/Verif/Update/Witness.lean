import Verif.Update.Props3
/-!
# Updating targets: examples, and what does not hold

Runs of the model on particular graphs, computed by the kernel.
-/
namespace Remake
set_option linter.unusedVariables false
open Spec

/-- A world in which no file exists and every recipe succeeds. -/
def calmWorld : Env where
  keepGoing := false
  alwaysMake := false
  question := false
  justPrint := false
  serial := false
  hasDefault := false
  newMtime := 1000
  stat := fun _ _ _ => 1
  reap := fun _ => []
  lone := fun _ => .ok
  launch := fun _ _ => .spawned

/-- A target with a recipe. -/
def made (pre : List Nat) : Rule := { prereqs := pre.map fun x => (x, false), cmds := true, isTarget := true }

/-- The first depends on the second and the third, they on the fourth and it on the second: a diamond
with a cycle. -/
def diamond : Graph := [made [1, 2], made [3], made [3], made [1]]

/-- C43, C44, C47: the hypotheses hold of this graph; the recipe of the fourth is started once
although there are two ways to it, and one dependency is dropped. -/
example : Simple diamond ∧ NoIntermediate diamond ∧
    trace (run calmWorld diamond [0] 50 20) = [.dropped 3 1, .start 3, .done 3 .success, .start 1, .start 2, .done 2 .success,
      .done 1 .success, .start 0, .done 0 .success] := by
  refine ⟨fun r hr => ?_, fun r hr => ?_, by decide +kernel⟩ <;>
    · simp only [diamond, List.mem_cons, List.not_mem_nil, or_false] at hr
      rcases hr with rfl | rfl | rfl | rfl <;> simp [made]

/-- The first depends on a file with two double-colon entries and on an intermediate one, and is made
together with the second, which has a prerequisite of its own; the last two are a cycle of their own. -/
def mixed : Graph := [{ made [2, 4] with group := some 0 }, { made [5] with group := some 0 },
  { made [] with colons := some 0 }, { made [5] with colons := some 0 }, { made [5] with intermediate := true }, made [], made [7], made [6]]

/-- C117: all kinds of files are made for the first goal; nothing happens to the last two. -/
example : trace (run calmWorld mixed [0] 60 20) = [.start 2, .start 5, .done 5 .success, .start 4,
      .done 4 .success, .done 2 .success, .start 3, .done 3 .success, .start 0, .done 0 .success, .done 1 .success, .done 0 .success] ∧
    ¬ (∃ g ∈ [0], Leads mixed g 6) := by
  have same : ∀ x y, y = 6 ∨ y = 7 → SameFile mixed x y → x = y := by
    intro x y h h'
    rcases h' with h' | ⟨h1, h2⟩
    · exact h'
    · rcases h with rfl | rfl <;> exact absurd h2 h1
  have pre : ∀ x y, y = 6 ∨ y = 7 → DependsOn mixed x y → x = 6 ∨ x = 7 := by
    rintro x y h ⟨z, h1, h2⟩
    have hz : z = 6 ∨ z = 7 := by
      match z with
      | 0 | 1 | 2 | 3 | 4 | 5 => rcases h with rfl | rfl <;> exact absurd h2 (by decide)
      | 6 => exact .inl rfl
      | 7 => exact .inr rfl
      | z + 8 => exact absurd h2 (by simp [Graph.pre, Graph.rule, mixed])
    rcases h1 with h1 | ⟨h1, h3⟩
    · exact h1 ▸ hz
    · rcases hz with rfl | rfl <;> exact absurd h3 h1
  have key : ∀ w, Leads mixed 0 w → ¬ (w = 6 ∨ w = 7) := by
    intro w h
    induction h with
    | refl a => intro b; have := same _ _ b a; omega
    | step _ a b ih => intro c; have := same _ _ c b; exact ih (pre _ _ (this ▸ c) a)
  refine ⟨by decide +kernel, ?_⟩
  rintro ⟨g, hg, hl⟩
  rw [List.mem_singleton.mp hg] at hl
  exact key 6 hl (.inl rfl)

/-- C46: with `-k` and a recipe that fails there is a result, a failure; what depends on it is not
started, the rest is. -/
example : Simple [made [1, 2], made [], made []] ∧
    (∃ s, run { calmWorld with keepGoing := true, serial := true, lone := fun t => if t = 4 then .fail else .ok } [made [1, 2], made [], made []] [0] 50 20 = .ok .failed s) ∧
    trace (run { calmWorld with keepGoing := true, serial := true, lone := fun t => if t = 4 then .fail else .ok } [made [1, 2], made [], made []] [0] 50 20) =
      [.start 1, .done 1 .failed, .start 2, .done 2 .success, .done 0 .failed] := by
  refine ⟨fun r hr => ?_, ?_, by decide +kernel⟩
  · simp only [List.mem_cons, List.not_mem_nil, or_false] at hr
    rcases hr with rfl | rfl | rfl <;> simp [made]
  · have : (match run { calmWorld with keepGoing := true, serial := true, lone := fun t => if t = 4 then .fail else .ok } [made [1, 2], made [], made []] [0] 50 20 with
      | .ok .failed _ => true | _ => false) = true := by decide +kernel
    split at this
    · rename_i s h; exact ⟨s, h⟩
    · cases this

/-- C46: without `-k` nothing is started after the failure, and there is no result. -/
example : trace (run { calmWorld with serial := true, lone := fun _ => .fail } [made [1, 2], made [], made []] [0] 50 20) =
    [.start 1, .done 1 .failed] := by decide +kernel

/-- The first file depends on the second, and on the third as an order-only prerequisite. -/
def tree : Graph := [{ made [] with prereqs := [(1, false), (2, true)] }, made [], made [3], {}]

/-- C45: all the files exist; only the last one is newer than what is made from it. -/
def treeTimes (x : Nat) : Nat := if x = 3 then 20 else 10

/-- These times do not change. -/
def treeWorld : Env := { calmWorld with stat := fun _ _ => treeTimes }

/-- C45: the hypotheses hold of this tree; the third file is remade, the first is not. -/
example : Simple tree ∧ (∀ i l x, ¬ Stale treeWorld tree treeTimes x → treeWorld.stat i l x = treeTimes x) ∧
    ¬ Stale treeWorld tree treeTimes 0 ∧
    trace (run treeWorld tree [0] 50 20) =
      [.done 1 .success, .done 3 .success, .start 2, .done 2 .success, .done 0 .success] := by
  refine ⟨fun r hr => ?_, fun i l x _ => rfl, fun h => ?_, by decide +kernel⟩
  · simp only [tree, List.mem_cons, List.not_mem_nil, or_false] at hr
    rcases hr with rfl | rfl | rfl | rfl <;> simp [made]
  · have key : ∀ x, Stale treeWorld tree treeTimes x → x ≠ 0 ∧ x ≠ 1 := by
      intro x hx
      induction hx with
      | always h => cases h
      | missing h => simp only [treeTimes] at h; split at h <;> omega
      | @phony f h => 
        match f with
        | 0 | 1 | 2 | 3 => cases h
        | f + 4 => omega
      | @newer f p h h2 =>
        match f with
        | 0 =>
          simp [tree, Graph.rule] at h
          subst h
          exact absurd h2 (by decide)
        | 1 => simp [tree, Graph.rule, made] at h
        | f + 2 => omega
      | @after f p h _ ih =>
        match f with
        | 0 =>
          simp [tree, Graph.rule] at h
          subst h
          exact absurd rfl ih.2
        | 1 => simp [tree, Graph.rule, made] at h
        | f + 2 => omega
    exact (key 0 h).1 rfl

/-- C45: a world in which recipes renew their targets. -/
def renewWorld : Env := { calmWorld with stat := fun _ l x => if UEvent.done x .success ∈ l ∧ UEvent.start x ∈ l then 500 else treeTimes x }

theorem treeTimes_lt (x : Nat) : treeTimes x < 500 := by unfold treeTimes; split <;> omega

/-- The first file depends on the second and the third; the second depends on the fourth, which is
newer. -/
def steps : Graph := [made [1, 2], made [3], made [], {}]

/-- C45: the hypotheses of the theorems hold of this graph, in which the first and the second file are
out of date and the third is not; the run is as they say. -/
example : Simple steps ∧ (∀ f d, DependsOn steps f d → ¬ Leads steps d f) ∧ Renews renewWorld treeTimes ∧
    HasRecipe steps 0 ∧ OutOfDate renewWorld steps treeTimes (fun _ _ => False) 0 ∧ HasRecipe steps 2 ∧
    ¬ OutOfDate renewWorld steps treeTimes (fun _ _ => False) 2 ∧ Leads steps 0 2 ∧
    (∃ s, run renewWorld steps [0] 50 20 = .ok .none s) ∧
    trace (run renewWorld steps [0] 50 20) =
      [.done 3 .success, .start 1, .done 2 .success, .done 1 .success, .start 0, .done 0 .success] := by
  have simple : Simple steps := by
    intro r hr
    simp only [steps, List.mem_cons, List.not_mem_nil, or_false] at hr
    rcases hr with rfl | rfl | rfl | rfl <;> simp [made]
  have rule : ∀ x, (steps.rule x).colons = none ∧ (steps.rule x).group = none := Graph.Plain.rule simple
  have same : ∀ x y, SameFile steps x y → x = y := fun x y a => a.resolve_right (fun b => b.1 (rule x).1)
  have edge : ∀ x y, DependsOn steps x y → x < y := by
    rintro x y ⟨z, hz, hm⟩
    have : x = z := hz.resolve_right (fun b => b.1 (rule x).2)
    subst this
    match x with
    | 0 => simp [steps, Graph.pre, Graph.rule, made] at hm; omega
    | 1 => simp [steps, Graph.pre, Graph.rule, made] at hm; omega
    | 2 => simp [steps, Graph.pre, Graph.rule, made] at hm
    | 3 => simp [steps, Graph.pre, Graph.rule] at hm
    | x + 4 => simp [steps, Graph.pre, Graph.rule] at hm
  have leads : ∀ x y, Leads steps x y → x ≤ y := by
    intro x y h
    induction h with
    | refl a => exact Nat.le_of_eq (same _ _ a)
    | step _ b c ih =>
      have := edge _ _ b
      have := same _ _ c
      omega
  refine ⟨simple, fun f d a b => ?_, ⟨fun i l x a => ?_, fun i l x a b => .inr (fun y => ?_), by decide, fun y => ?_⟩, ⟨by decide, by decide⟩, ?_,
    ⟨by decide, by decide⟩, fun a => ?_, ?_, ?_, by decide +kernel⟩
  · have := edge _ _ a
    have := leads _ _ b
    omega
  · exact if_neg (fun c => a c.2)
  · have : renewWorld.stat i l x = 500 := if_pos ⟨b, a⟩
    rw [this]; exact treeTimes_lt y
  · exact Nat.lt_trans (treeTimes_lt y) (by decide)
  · refine .after (p := 1) (by decide) id ⟨by decide, by decide⟩ (.newer (p := 3) (by decide) id (by decide))
  · cases a with
    | always a => cases a
    | missing a => exact a ⟨by decide, by decide⟩
    | absent a => cases a
    | newer a => cases a
    | after a => cases a
  · exact .step (.refl (.inl rfl)) ⟨0, .inl rfl, by decide⟩ (.inl rfl)
  · have : (match run renewWorld steps [0] 50 20 with | .ok .none _ => true | _ => false) = true := by decide +kernel
    split at this
    · rename_i s h; exact ⟨s, h⟩
    · cases this

/-! ### What does not hold -/

/-- **C45** does not hold as stated: a prerequisite that has been remade, but whose time is as before,
does not cause the target to be remade. -/
theorem C45_unchanged : ∃ (e : Env) (G : Graph), Simple G ∧ G.pre 0 = [1] ∧ .start 1 ∈ trace (run e G [0] 50 20) ∧
    .done 0 .success ∈ trace (run e G [0] 50 20) ∧ .start 0 ∉ trace (run e G [0] 50 20) :=
  ⟨{ calmWorld with stat := fun _ _ f => if f = 2 then 20 else 10 }, [made [1], made [2], {}], by
    refine fun r hr => ?_
    simp only [List.mem_cons, List.not_mem_nil, or_false] at hr
    rcases hr with rfl | rfl | rfl <;> simp [made], rfl, by decide +kernel, by decide +kernel, by decide +kernel⟩


/-- Two targets that depend on a double-colon target, of which the second recipe fails. -/
def doubleColon : Graph := [made [1, 2], made [3], made [3], { made [] with colons := some 0 }, { made [] with colons := some 0 }]

/-- **C44, C46** do not hold with double-colon rules: with `-k`, the second target that depends on a
double-colon target is made although one of the recipes of that has failed (`update_file` looks only
at the status of the first entry if it has been considered before, remake.c 318-333). -/
theorem C44_double_colon : ∃ (e : Env) (before after : List UEvent),
    trace (run e doubleColon [0] 50 20) = before ++ .start 2 :: after ∧ 3 ∈ doubleColon.pre 2 ∧ SameFile doubleColon 3 4 ∧
    .done 4 .failed ∈ before :=
  ⟨{ calmWorld with keepGoing := true, serial := true, lone := fun _ => .fail, launch := fun _ f => if f = 3 then .nothing else .spawned },
    [.start 3, .done 3 .success, .start 4, .done 4 .failed, .done 1 .failed], [.done 2 .failed, .done 0 .failed],
    by decide +kernel, by decide, .inr ⟨by decide, by decide⟩, by decide⟩

/-- **C44** does not hold with double-colon rules and parallel recipes: a target is made although the
second recipe of its prerequisite has not even been started. -/
theorem C44_double_colon_early : ∃ (e : Env) (G : Graph) (before after : List UEvent),
    trace (run e G [0] 50 20) = before ++ .start 3 :: after ∧ 4 ∈ G.pre 3 ∧ SameFile G 4 5 ∧ .start 5 ∈ after :=
  ⟨{ calmWorld with reap := fun _ => [(4, .ok)] },
    [made [1, 2, 3], made [4], made [], made [4], { made [] with colons := some 0 }, { made [] with colons := some 0 }],
    [.start 4, .done 4 .success, .start 2],
    [.done 3 .success, .start 5, .done 5 .success, .start 1, .done 1 .success, .done 2 .success, .start 0, .done 0 .success],
    by decide +kernel, by decide, .inr ⟨by decide, by decide⟩, by decide⟩

/-- **C43**: the one recipe of grouped targets can be started twice, for two of the targets, if there
is a cycle through them. -/
theorem C43_group_twice : ∃ (e : Env) (G : Graph), MadeTogether G 0 1 ∧
    UEvent.start 0 ∈ trace (run e G [0] 50 20) ∧ UEvent.start 1 ∈ trace (run e G [0] 50 20) :=
  ⟨{ calmWorld with serial := true }, [{ made [2] with group := some 0 }, { made [] with group := some 0 }, made [1]],
    .inr ⟨by decide, by decide⟩, by decide +kernel, by decide +kernel⟩

/-- **C44** does not hold with intermediate files: the recipe of grouped targets is started although
a prerequisite of the second target does not exist and is never made (the second loop of
`update_file_1`, remake.c 643-694, goes only over the prerequisites of the first). -/
theorem C44_group_intermediate : ∃ (e : Env) (G : Graph), MadeTogether G 0 1 ∧ 2 ∈ G.pre 1 ∧ e.stat = (fun _ _ _ => 1) ∧
    UEvent.start 0 ∈ trace (run e G [0] 50 20) ∧ UEvent.start 2 ∉ trace (run e G [0] 50 20) :=
  ⟨calmWorld, [{ made [] with group := some 0 }, { made [2] with group := some 0 }, { made [] with intermediate := true }],
    .inr ⟨by decide, by decide⟩, by decide, rfl, by decide +kernel, by decide +kernel⟩

/-- A goal with one double-colon entry and one with two. -/
def askTwo : Graph := [{ made [] with colons := some 0 }, { made [] with colons := some 1 }, { made [] with colons := some 1 }]

/-- `-q`, and no recipe is marked as recursive. -/
def askWorld : Env := { calmWorld with question := true, launch := fun _ _ => .asked }

/-- The second goal's first entry is finished, its second one never gets its turn. -/
structure Hangs (s : UState) : Prop where
  run : s.running = []
  h1 : (s.file 1).head = 1
  h2 : (s.file 2).head = 1
  c1 : (s.file 1).chain = [1, 2]
  u1 : (s.file 1).updated = true
  s1 : (s.file 1).ustatus = .question
  f1 : (s.file 1).cstate = .finished
  u2 : (s.file 2).updated = false
  con : (s.file 1).considered < s.considered

theorem hangs_pass (n : Nat) (s : UState) (h : Hangs s) :
    ∃ s', goalPass askWorld (n + 3) [1] .question s = .ok (.question, [1], false) s' ∧
      s'.considered = s.considered ∧ Hangs { s' with considered := s.considered + 1 } := by
  have hne : ¬ (s.file 1).considered = s.considered := Nat.ne_of_lt h.con
  have key : updateFile askWorld (n + 3) 1 s = .ok .question (s.setFile 1 fun y => { y with considered := s.considered }) := by
    simp [updateFile, updateEntries, updateFile1, Bind.bind, Pure.pure, UM.get, UM.modify, h.h1, hne, h.c1, UState.setFile, h.u1, h.s1,
      UStatus.rank, askWorld, calmWorld]
  have t1 : ((s.setFile 1 fun y => { y with considered := s.considered }).file 1) = { s.file 1 with considered := s.considered } := rfl
  have t2 : ((s.setFile 1 fun y => { y with considered := s.considered }).file 2) = s.file 2 := rfl
  have t3 : (s.setFile 1 fun y => { y with considered := s.considered }).considered = s.considered := rfl
  have t4 : (s.setFile 1 fun y => { y with considered := s.considered }).running = s.running := rfl
  refine ⟨s.setFile 1 fun y => { y with considered := s.considered }, ?_, rfl, ?_⟩
  · generalize (s.setFile 1 fun y => { y with considered := s.considered }) = t at *
    have key2 : updateFile askWorld (n + 3) 2 t = .ok .question t := by
      simp [updateFile, Bind.bind, Pure.pure, UM.get, t1, t2, t3, h.h2, h.f1, h.s1]
    simp [goalPass, goalEntries, Bind.bind, Pure.pure, UM.get, h.h1, h.c1, key, key2, t1, t2, h.u1, h.u2, h.s1, UStatus.rank]
  · exact ⟨h.run, h.h1, h.h2, h.c1, h.u1, h.s1, h.f1, h.u2, Nat.lt_succ_self _⟩

theorem hangs_loop (n k : Nat) (s : UState) (h : Hangs s) :
    ∃ s', goalLoop askWorld (n + 3) k [1] .question s = .fuel s' ∧ s'.considered = s.considered + k := by
  induction k generalizing s with
  | zero => exact ⟨s, rfl, rfl⟩
  | succ k ih =>
    have h1 : Hangs { s with tick := s.tick + 1 } := ⟨h.run, h.h1, h.h2, h.c1, h.u1, h.s1, h.f1, h.u2, h.con⟩
    have hr : reapBlock askWorld s = .ok () { s with tick := s.tick + 1 } := by
      simp [reapBlock, reapSome, finishJobs, Bind.bind, Pure.pure, UM.get, UM.modify, askWorld, calmWorld, h.run]
    obtain ⟨s2, hp, hc, h2⟩ := hangs_pass n _ h1
    obtain ⟨s', h3, h4⟩ := ih _ h2
    refine ⟨s', ?_, ?_⟩
    · rw [goalLoop]
      simp only [Bind.bind, hr, hp]
      have hc : s2.considered = s.considered := hc
      simpa [UM.modify, Pure.pure, hc] using h3
    · rw [h4]
      show s.considered + 1 + k = s.considered + (k + 1)
      omega

/-- A check that the state is that of `Hangs`. -/
def hangsB (s : UState) : Bool :=
  decide (s.running = [] ∧ (s.file 1).head = 1 ∧ (s.file 2).head = 1 ∧ (s.file 1).chain = [1, 2] ∧ (s.file 1).updated = true ∧
    (s.file 1).ustatus = .question ∧ (s.file 1).cstate = .finished ∧ (s.file 2).updated = false ∧ (s.file 1).considered < s.considered)

/-- **C47** does not hold with double-colon rules under `-q`: however often the goals are looked at,
the second one is never done.  The depth of the recursion is not what is exceeded: each of the `k`
looks is finished. -/
theorem C47_question_hangs (k : Nat) : ∃ s, run askWorld askTwo [0, 1] 100 k = .fuel s ∧ k ≤ s.considered := by
  match k with
  | 0 => exact ⟨{ askTwo.initial with considered := 1 }, rfl, Nat.zero_le _⟩
  | 1 =>
    have : (match run askWorld askTwo [0, 1] 100 1 with | .fuel s => decide (1 ≤ s.considered) | _ => false) = true := by decide +kernel
    split at this
    · rename_i s h; exact ⟨s, h, by simpa using this⟩
    · cases this
  | k + 2 =>
    have two : ∃ s, (∀ k, run askWorld askTwo [0, 1] 100 (k + 2) = goalLoop askWorld 100 k [1] .question s) ∧ Hangs s ∧ 2 ≤ s.considered := by
      have : (match (do
            reapBlock askWorld
            let r ← goalPass askWorld 100 [0, 1] .none
            reapBlock askWorld
            let q ← goalPass askWorld 100 r.2.1 r.1
            pure (r, q) : UM _) { askTwo.initial with considered := 1 } with
          | .ok (r, q) s => decide (r.2.1 = [1] ∧ r.2.2 = true ∧ q.1 = .question ∧ q.2.1 = [1] ∧ q.2.2 = false) &&
              hangsB { s with considered := s.considered + 1 } && decide (1 ≤ s.considered)
          | _ => false) = true := by decide +kernel
      split at this
      · rename_i r q s h
        simp only [Bool.and_eq_true, decide_eq_true_eq, hangsB] at this
        obtain ⟨⟨⟨a1, a2, a3, a4, a5⟩, b1, b2, b3, b4, b5, b6, b7, b8, b9⟩, c⟩ := this
        refine ⟨{ s with considered := s.considered + 1 }, fun k => ?_, ⟨b1, b2, b3, b4, b5, b6, b7, b8, b9⟩, by show 2 ≤ s.considered + 1; omega⟩
        unfold run updateGoals
        simp only [Bind.bind, UM.modify]
        have e0 : askTwo.initial.considered + 1 = 1 := rfl
        rw [e0, goalLoop]
        simp only [Bind.bind] at h ⊢
        cases hb : reapBlock askWorld { askTwo.initial with considered := 1 } with
        | ok u t =>
          rw [hb] at h
          simp only at h ⊢
          cases hp : goalPass askWorld 100 [0, 1] .none t with
          | ok r' t' =>
            rw [hp] at h
            simp only at h ⊢
            cases hb2 : reapBlock askWorld t' with
            | ok u2 t2 =>
              rw [hb2] at h
              simp only at h
              cases hp2 : goalPass askWorld 100 r'.2.1 r'.1 t2 with
              | ok q' t3 =>
                rw [hp2] at h
                simp only [Pure.pure, UOut.ok.injEq, Prod.mk.injEq] at h
                obtain ⟨⟨rfl, rfl⟩, rfl⟩ := h
                rw [a2]
                show goalLoop askWorld 100 (k + 1) r'.2.1 r'.1 t' = _
                rw [a1] at hp2 ⊢
                rw [goalLoop]
                simp only [Bind.bind, hb2]
                rw [hp2]
                simp only
                rw [a5, a4, a3]
                rfl
              | dead => rw [hp2] at h; cases h
              | undef => rw [hp2] at h; cases h
              | fuel => rw [hp2] at h; cases h
            | dead => rw [hb2] at h; cases h
            | undef => rw [hb2] at h; cases h
            | fuel => rw [hb2] at h; cases h
          | dead => rw [hp] at h; cases h
          | undef => rw [hp] at h; cases h
          | fuel => rw [hp] at h; cases h
        | dead => rw [hb] at h; cases h
        | undef => rw [hb] at h; cases h
        | fuel => rw [hb] at h; cases h
      · cases this
    obtain ⟨s, hs, hh, hc⟩ := two
    obtain ⟨s', h1, h2⟩ := hangs_loop 97 k s hh
    exact ⟨s', by rw [hs k]; exact h1, by omega⟩

end Remake
