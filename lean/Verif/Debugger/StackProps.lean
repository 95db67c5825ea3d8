import Verif.Debugger.Stack
/-! **C122** The stack that the debugger shows. -/
set_option linter.unusedVariables false
set_option linter.unusedSimpArgs false
namespace Remake

namespace Spec

/-- The targets that are being looked at, the innermost first. -/
def beingMade : List Nat → TEvent → List Nat
  | a, .enter t => t :: a
  | a, .leave _ => a.tail
  | a, _ => a

/-- What should be seen at the stops: the targets that are being looked at. -/
def shouldSee : List Nat → List TEvent → List (List Nat)
  | _, [] => []
  | a, .stop :: es => a :: shouldSee a es
  | a, .command _ :: es => a :: shouldSee a es
  | a, .called :: es => a :: shouldSee a es
  | a, e :: es => shouldSee (beingMade a e) es

end Spec
open Spec

/-- The nodes of the calls that are going on: each is allocated, was made before, and has the next one as parent. -/
inductive Linked (s : TState) : List Nat → List Nat → Prop where
  | nil : Linked s [] []
  | cons (i : Nat) (cs : List Nat) (ts : List Nat) (h1 : i < s.count) (h2 : s.alive i = true)
      (h3 : (s.node i).parent = cs.head?) (h4 : ∀ j ∈ cs, j < i) (h : Linked s cs ts) : Linked s (i :: cs) ((s.node i).target :: ts)

theorem Linked.walk {s : TState} {cs ts : List Nat} (h : Linked s cs ts) (fuel : Nat) (hf : ∀ i ∈ cs, i < fuel) :
    walkStack s fuel cs.head? = some ts := by
  induction h generalizing fuel with
  | nil => cases fuel <;> rfl
  | cons i cs ts h1 h2 h3 h4 h ih =>
    obtain ⟨k, rfl⟩ : ∃ k, fuel = k + 1 := ⟨fuel - 1, by have := hf i (by simp); omega⟩
    simp only [List.head?_cons, walkStack, h2, if_true, h3]
    rw [ih k fun j hj => by have := hf i (by simp); have := h4 j hj; omega]
    rfl

theorem Linked.lt {s : TState} {cs ts : List Nat} (h : Linked s cs ts) : ∀ i ∈ cs, i < s.count := by
  induction h with
  | nil => simp
  | cons i cs ts h1 h2 h3 h4 h ih =>
    intro j hj
    rcases List.mem_cons.mp hj with rfl | hj
    · exact h1
    · exact ih j hj

theorem Linked.congr {s s' : TState} {cs ts : List Nat} (h : Linked s cs ts) (hc : s.count ≤ s'.count)
    (hn : ∀ i ∈ cs, s'.node i = s.node i ∧ s'.alive i = s.alive i) : Linked s' cs ts := by
  induction h with
  | nil => exact .nil
  | cons i cs ts h1 h2 h3 h4 h ih =>
    have hi := hn i (by simp)
    rw [← hi.1]
    exact .cons i cs ts (by omega) (by rw [hi.2]; exact h2) (by rw [hi.1]; exact h3) h4 (ih fun j hj => hn j (by simp [hj]))

theorem Linked.push {s : TState} {ts : List Nat} (h : Linked s s.calls ts) (t : Nat) :
    Linked (pushTarget s t) (pushTarget s t).calls (t :: ts) := by
  have hl := h.lt
  have hrest : Linked (pushTarget s t) s.calls ts := h.congr (by simp [pushTarget]) fun i hi => by
    have : i ≠ s.count := by have := hl i hi; omega
    simp [pushTarget, this]
  have : (pushTarget s t).calls = s.count :: s.calls := rfl
  rw [this]
  have ht : ((pushTarget s t).node s.count).target = t := by simp [pushTarget]
  have := Linked.cons (s := pushTarget s t) s.count s.calls ts (by simp [pushTarget]) (by simp [pushTarget]) (by simp [pushTarget])
    hl hrest
  rwa [ht] at this

theorem Linked.pop {s : TState} {ts : List Nat} (h : Linked s s.calls ts) (p : Bool) :
    ∃ s', popTarget s p = some s' ∧ Linked s' s'.calls ts.tail := by
  generalize hc : s.calls = cs at h
  cases h with
  | nil => exact ⟨s, by simp [popTarget, hc], by rw [hc]; exact .nil⟩
  | cons i cs ts h1 h2 h3 h4 h =>
    cases p with
    | false =>
      refine ⟨{ s with calls := cs }, by simp [popTarget, hc], ?_⟩
      exact h.congr (Nat.le_refl _) fun _ _ => ⟨rfl, rfl⟩
    | true =>
      refine ⟨{ s with alive := fun j => if j = i then false else s.alive j, calls := cs }, by simp [popTarget, hc, h2], ?_⟩
      refine h.congr (Nat.le_refl _) fun j hj => ⟨rfl, ?_⟩
      have : j ≠ i := by have := h4 j hj; omega
      simp [this]

theorem trun_sees (es : List TEvent) (s : TState) (ts : List Nat) (h : Linked s s.calls ts) (hn : TEvent.called ∉ es) :
    ∃ s' obs, trun s es = some (s', obs) ∧ obs.map (·.2) = shouldSee ts es ∧
      Linked s' s'.calls (es.foldl beingMade ts) := by
  induction es generalizing s ts with
  | nil => exact ⟨s, [], rfl, rfl, h⟩
  | cons e es ih =>
    have hn' : TEvent.called ∉ es := fun hm => hn (by simp [hm])
    have hstop : Linked { s with top := s.calls.head? } s.calls ts := h.congr (Nat.le_refl _) fun _ _ => ⟨rfl, rfl⟩
    have hw : walkStack { s with top := s.calls.head? } (s.count + 1) s.calls.head? = some ts :=
      hstop.walk _ fun i hi => by have := h.lt i hi; omega
    cases e with
    | enter t =>
      obtain ⟨s', obs, h1, h2, h3⟩ := ih (pushTarget s t) (t :: ts) (h.push t) hn'
      exact ⟨s', obs, by simp [trun, tstep, h1], by simpa [shouldSee, beingMade] using h2, h3⟩
    | leave p =>
      obtain ⟨s1, g1, g2⟩ := h.pop p
      obtain ⟨s', obs, h1, h2, h3⟩ := ih s1 ts.tail g2 hn'
      exact ⟨s', obs, by simp [trun, tstep, g1, h1], by simpa [shouldSee, beingMade] using h2, h3⟩
    | stop =>
      obtain ⟨s', obs, h1, h2, h3⟩ := ih { s with top := s.calls.head? } ts hstop hn'
      exact ⟨s', (none, ts) :: obs, by simp [trun, tstep, hw, h1], by simp [shouldSee, h2], h3⟩
    | command t =>
      obtain ⟨s', obs, h1, h2, h3⟩ := ih { s with top := s.calls.head? } ts hstop hn'
      exact ⟨s', (some t, ts) :: obs, by simp [trun, tstep, hw, h1], by simp [shouldSee, h2], h3⟩
    | called => simp at hn

/-- **C122** (partial: without the function `debugger`) However a run goes, at every stop the debugger shows exactly the targets
that are being looked at, each one needed by the next, down to the goal; no memory is used after it was freed or freed
twice, also where targets that have failed before leave their nodes behind. -/
theorem C122_stack_partial (es : List TEvent) (hn : TEvent.called ∉ es) :
    ∃ s obs, trun TState.init es = some (s, obs) ∧ obs.map (·.2) = shouldSee [] es := by
  obtain ⟨s, obs, h1, h2, -⟩ := trun_sees es TState.init [] .nil hn
  exact ⟨s, obs, h1, h2⟩

example : ∃ s, trun TState.init [.enter 5, .stop, .enter 6, .leave true, .enter 7, .stop, .leave false, .command 5, .leave true] =
    some (s, [(none, [5]), (none, [7, 5]), (some 5, [5])]) := ⟨_, rfl⟩

/-- **C122** (partial: the function `debugger` is called while no prerequisite has been looked at since the target was
entered, a command started or the debugger stopped) Then it shows the targets that are being looked at. -/
theorem C122_called_partial (es : List TEvent) (hn : TEvent.called ∉ es) (e : TEvent)
    (he : e = .stop ∨ (∃ t, e = .enter t) ∨ ∃ t, e = .command t) :
    ∃ s obs, trun TState.init (es ++ [e, .called]) = some (s, obs) ∧ obs.map (·.2) = shouldSee [] (es ++ [e, .called]) := by
  have happ : ∀ (es es' : List TEvent) (s : TState), trun s (es ++ es') =
      (trun s es).bind fun r => (trun r.1 es').map fun r' => (r'.1, r.2 ++ r'.2) := by
    intro es es'
    induction es with
    | nil =>
      intro s
      simp only [List.nil_append, trun, Option.bind_some, List.nil_append]
      cases trun s es' <;> rfl
    | cons e es ih =>
      intro s
      simp only [List.cons_append, trun]
      cases tstep s e with
      | none => rfl
      | some r =>
        simp only [ih]
        cases trun r.1 es with
        | none => rfl
        | some q => cases h : trun q.1 es' <;> simp [h]
  have hsee : ∀ (es es' : List TEvent) (a : List Nat), shouldSee a (es ++ es') = shouldSee a es ++ shouldSee (es.foldl beingMade a) es' := by
    intro es es'
    induction es with
    | nil => intro a; rfl
    | cons e es ih =>
      intro a
      cases e <;> simp [shouldSee, beingMade, ih]
  obtain ⟨s, obs, h1, h2, h3⟩ := trun_sees es TState.init [] .nil hn
  have key : ∃ s' o, trun s [e, .called] = some (s', o) ∧ o.map (·.2) = shouldSee (es.foldl beingMade []) [e, .called] := by
    generalize es.foldl beingMade [] = ts at h3
    have hstop : Linked { s with top := s.calls.head? } s.calls ts := h3.congr (Nat.le_refl _) fun _ _ => ⟨rfl, rfl⟩
    have hw : walkStack { s with top := s.calls.head? } (s.count + 1) s.calls.head? = some ts :=
      hstop.walk _ fun i hi => by have := h3.lt i hi; omega
    rcases he with rfl | ⟨t, rfl⟩ | ⟨t, rfl⟩
    · exact ⟨{ s with top := s.calls.head? }, [(none, ts), (none, ts)], by simp [trun, tstep, hw], by simp [shouldSee]⟩
    · have hp := h3.push t
      have hw' := hp.walk ((pushTarget s t).count + 1) fun i hi => by have := hp.lt i hi; omega
      have ht : (pushTarget s t).top = (pushTarget s t).calls.head? := rfl
      rw [← ht] at hw'
      exact ⟨pushTarget s t, [(none, t :: ts)], by simp only [trun, tstep, hw', Option.map_some]; rfl,
        by simp [shouldSee, beingMade]⟩
    · exact ⟨{ s with top := s.calls.head? }, [(some t, ts), (none, ts)], by simp [trun, tstep, hw], by simp [shouldSee]⟩
  obtain ⟨s', o, k1, k2⟩ := key
  refine ⟨s', obs ++ o, by rw [happ, h1]; simp [k1], ?_⟩
  rw [List.map_append, h2, k2, hsee]

/-- **C122** (a deviation) Whenever a prerequisite has been looked at, the pointer to the top of the stack is to freed memory:
the function `debugger` in the recipe of the target then reads it. -/
theorem C122_dangling (es : List TEvent) (hn : TEvent.called ∉ es) (t : Nat) (rest : List TEvent) :
    trun TState.init (es ++ [.enter t, .leave true, .called] ++ rest) = none := by
  have hpre : ∀ (es es' : List TEvent) (s : TState), (∀ r, trun s es = some r → trun r.1 es' = none) →
      trun s (es ++ es') = none := by
    intro es es'
    induction es with
    | nil =>
      intro s h
      exact h _ rfl
    | cons e es ih =>
      intro s h
      simp only [List.cons_append, trun]
      cases hs : tstep s e with
      | none => rfl
      | some r =>
        simp only
        rw [ih r.1 fun q hq => h (q.1, r.2 ++ q.2) (by simp [trun, hs, hq])]
        rfl
  rw [List.append_assoc]
  apply hpre
  obtain ⟨s, obs, h1, h2, h3⟩ := trun_sees es TState.init [] .nil hn
  intro r hr
  rw [h1] at hr
  cases hr
  have hal : (pushTarget s t).alive s.count = true := by simp [pushTarget]
  have hpop : popTarget (pushTarget s t) true =
      some { pushTarget s t with alive := fun j => if j = s.count then false else (pushTarget s t).alive j, calls := s.calls } := by
    have hc : (pushTarget s t).calls = s.count :: s.calls := rfl
    simp only [popTarget, hc, hal, if_true]
  simp only [List.cons_append, List.nil_append, trun, tstep, hpop, Option.map_some]
  have htop : (pushTarget s t).top = some s.count := rfl
  simp [htop, walkStack]

/-- **C122** (a deviation) With parallel jobs a command is started while another target is looked at: the debugger stops for a
command of target 2 and shows the stack of target 3. -/
theorem C122_other_job : ∃ s, trun TState.init [.enter 1, .enter 2, .command 2, .leave true, .enter 3, .command 2] =
    some (s, [(some 2, [2, 1]), (some 2, [3, 1])]) := ⟨_, rfl⟩

/-- **C122** (a deviation) A target that has failed before leaves its node: after it was looked at again, the function `debugger` shows it on
top of the stack. -/
theorem C122_failed_stays : ∃ s, trun TState.init [.enter 1, .enter 2, .leave false, .called] = some (s, [(none, [2, 1])]) ∧
    shouldSee [] [.enter 1, .enter 2, .leave false, .called] = [[1]] := ⟨_, rfl, rfl⟩

end Remake
