import Verif.Profile.Lemmas2

set_option linter.unusedVariables false
set_option linter.unusedSimpArgs false
namespace Remake
open Remake.Spec

/-! ## What is called -/

theorem consideredFor_append (n : Str) (a b : List PEvent) : consideredFor n (a ++ b) = consideredFor n a ++ consideredFor n b := by
  induction a with
  | nil => rfl
  | cons e es ih =>
    rw [List.cons_append]
    cases e with
    | push t parent now =>
      cases parent with
      | none => simpa [consideredFor] using ih
      | some p =>
        simp only [consideredFor]
        split
        · rw [ih, List.cons_append]
        · exact ih
    | pop t now => simpa [consideredFor] using ih
    | stamp t now => simpa [consideredFor] using ih

theorem calls_stepAt (n : Str) (o : Option PEntry) (ev : PEvent) :
    ((stepAt n o ev).map (·.calls)).getD [] = (consideredFor n [ev]).reverse ++ (o.map (·.calls)).getD [] := by
  have hs : ∀ now u st e, (addStamp now u st e).calls = e.calls := fun now u st e => (addStamp_same now u st e).2.1
  have hf : ∀ t, (fresh t).calls = [] := fun t => rfl
  have hr : ∀ t e, (relocate t e).calls = e.calls := fun t e => rfl
  have hg : ∀ t, (o.getD (fresh t)).calls = (o.map (·.calls)).getD [] := by
    intro t; cases o <;> rfl
  cases ev with
  | push t parent now =>
    cases parent with
    | none =>
      simp only [stepAt, consideredFor]
      split <;> simp [hs, hg]
    | some p =>
      simp only [stepAt, consideredFor]
      by_cases h1 : t.name = n <;> by_cases h2 : p.name = n <;> simp [h1, h2, hs, hg]
  | pop t now =>
    simp only [stepAt, consideredFor]
    split <;> simp [hs, hg, hr]
  | stamp t now =>
    simp only [stepAt, consideredFor]
    split <;> simp [hs, hg]

theorem calls_run (n : Str) (evs : List PEvent) :
    ((evs.foldl (stepAt n) none).map (·.calls)).getD [] = (consideredFor n evs).reverse := by
  induction evs using list_snoc_induction with
  | h0 => rfl
  | hs evs ev ih =>
    rw [List.foldl_append]
    simp only [List.foldl_cons, List.foldl_nil]
    rw [calls_stepAt, ih, consideredFor_append, List.reverse_append]

/-! ## When -/

theorem firstIn_append (n : Str) (st : CmdState) (a b : List PEvent) (h : ∀ ev ∈ a, 0 < ev.now) :
    firstIn n st (a ++ b) = if firstIn n st a = 0 then firstIn n st b else firstIn n st a := by
  induction a with
  | nil => simp [firstIn]
  | cons e es ih =>
    have h0 := h e (List.mem_cons_self ..)
    rw [List.cons_append]
    simp only [firstIn]
    split
    · rw [if_neg (by omega)]
    · exact ih fun ev hev => h ev (List.mem_cons_of_mem _ hev)

theorem addStamp_stamps (now : Nat) (u : Bool) (st : CmdState) (e : PEntry) (hu : u = true → st = .finished) :
    (addStamp now u st e).start = (if st = .notStarted ∧ e.start = 0 then now else e.start) ∧
    (addStamp now u st e).deps = (if st = .depsRunning ∧ e.deps = 0 then now else e.deps) ∧
    (addStamp now u st e).recipe = (if st = .running ∧ e.recipe = 0 then now else e.recipe) ∧
    (addStamp now u st e).stop = (if st = .finished ∧ e.stop = 0 then now else e.stop) := by
  have hu' : st ≠ .finished → u = false := by
    intro h
    cases u
    · rfl
    · exact absurd (hu rfl) h
  unfold addStamp putStamp
  cases st with
  | notStarted =>
    have := hu' (by decide)
    by_cases h : e.start = 0
    · simp [h, setElapsed_same]
    · simp [h, this]
  | depsRunning =>
    have := hu' (by decide)
    by_cases h : e.deps = 0
    · simp [h, setElapsed_same]
    · simp [h, this]
  | running =>
    have := hu' (by decide)
    by_cases h : e.recipe = 0
    · simp [h, setElapsed_same]
    · simp [h, this]
  | finished =>
    by_cases h : e.stop = 0
    · simp [h, setElapsed_same]
    · simp [h]

/-- The stamps of an entry that may not be there. -/
def stampsOf (o : Option PEntry) : Nat × Nat × Nat × Nat :=
  (o.map fun e => (e.start, e.deps, e.recipe, e.stop)).getD (0, 0, 0, 0)

theorem stamps_stepAt (n : Str) (o : Option PEntry) (ev : PEvent) (hu : ev.target.updated = true → ev.target.state = .finished) :
    stampsOf (stepAt n o ev) =
      let f := fun st old => if old = 0 then firstIn n st [ev] else old
      (f .notStarted (stampsOf o).1, f .depsRunning (stampsOf o).2.1, f .running (stampsOf o).2.2.1, f .finished (stampsOf o).2.2.2) := by
  have key : ∀ (t : PTarget) (now : Nat), (t.updated = true → t.state = .finished) → t.name = n →
      stampsOf (some (addStamp now t.updated t.state (o.getD (fresh t)))) =
        let f := fun st old => if old = 0 then (if t.name = n ∧ t.state = st then now else 0) else old
        (f .notStarted (stampsOf o).1, f .depsRunning (stampsOf o).2.1, f .running (stampsOf o).2.2.1, f .finished (stampsOf o).2.2.2) := by
    intro t now hu hn
    obtain ⟨h1, h2, h3, h4⟩ := addStamp_stamps now t.updated t.state (o.getD (fresh t)) hu
    have hg : stampsOf o = ((o.getD (fresh t)).start, (o.getD (fresh t)).deps, (o.getD (fresh t)).recipe, (o.getD (fresh t)).stop) := by
      cases o <;> rfl
    rw [hg]
    simp only [stampsOf, Option.map_some, Option.getD_some, h1, h2, h3, h4, hn, true_and]
    refine Prod.ext ?_ (Prod.ext ?_ (Prod.ext ?_ ?_)) <;> simp only <;> grind
  have keep : ∀ (t : PTarget) (now : Nat), t.name ≠ n →
      stampsOf o = (let f := fun st old => if old = 0 then (if t.name = n ∧ t.state = st then now else 0) else old
        (f .notStarted (stampsOf o).1, f .depsRunning (stampsOf o).2.1, f .running (stampsOf o).2.2.1, f .finished (stampsOf o).2.2.2)) := by
    intro t now hn
    simp only [hn, false_and, if_false]
    refine Prod.ext ?_ (Prod.ext ?_ (Prod.ext ?_ ?_)) <;> simp only <;> grind
  have hr : ∀ t e, stampsOf (some (relocate t e)) = stampsOf (some e) := fun t e => rfl
  cases ev with
  | push t parent now =>
    cases parent with
    | none =>
      simp only [stepAt, firstIn, PEvent.target, PEvent.now] at hu ⊢
      by_cases h : t.name = n
      · rw [if_pos h]; exact key t now hu h
      · rw [if_neg h]; exact keep t now h
    | some p =>
      simp only [stepAt, firstIn, PEvent.target, PEvent.now] at hu ⊢
      have hc : ∀ (o' : Option PEntry), stampsOf (if p.name = n then some { (o'.getD (fresh p)) with
          calls := t.name :: (o'.getD (fresh p)).calls } else o') = stampsOf o' := by
        intro o'
        split
        · cases o' <;> rfl
        · rfl
      rw [hc]
      by_cases h : t.name = n
      · rw [if_pos h]; exact key t now hu h
      · rw [if_neg h]; exact keep t now h
  | pop t now =>
    simp only [stepAt, firstIn, PEvent.target, PEvent.now] at hu ⊢
    by_cases h : t.name = n
    · rw [if_pos h, hr]; exact key t now hu h
    · rw [if_neg h]; exact keep t now h
  | stamp t now =>
    simp only [stepAt, firstIn, PEvent.target, PEvent.now] at hu ⊢
    by_cases h : t.name = n
    · rw [if_pos h]; exact key t now hu h
    · rw [if_neg h]; exact keep t now h

theorem stamps_run (n : Str) (evs : List PEvent) (h : ∀ ev ∈ evs, 0 < ev.now ∧ (ev.target.updated = true → ev.target.state = .finished)) :
    stampsOf (evs.foldl (stepAt n) none) =
      (firstIn n .notStarted evs, firstIn n .depsRunning evs, firstIn n .running evs, firstIn n .finished evs) := by
  induction evs using list_snoc_induction with
  | h0 => rfl
  | hs evs ev ih =>
    have h0 : ∀ x ∈ evs, 0 < x.now := fun x hx => (h x (List.mem_append_left _ hx)).1
    rw [List.foldl_append]
    simp only [List.foldl_cons, List.foldl_nil]
    rw [stamps_stepAt n _ ev (h ev (by simp)).2, ih fun x hx => h x (List.mem_append_left _ hx)]
    simp only [firstIn_append _ _ _ _ h0]

theorem firstIn_mem (n : Str) (st : CmdState) (evs : List PEvent) (h : firstIn n st evs ≠ 0) :
    ∃ ev ∈ evs, ev.target.name = n ∧ ev.target.state = st ∧ ev.now = firstIn n st evs := by
  induction evs with
  | nil => exact absurd rfl h
  | cons e es ih =>
    simp only [firstIn] at h ⊢
    split
    · rename_i hc
      exact ⟨e, List.mem_cons_self .., hc.1, hc.2, rfl⟩
    · rename_i hc
      rw [if_neg hc] at h
      obtain ⟨x, hx, h1⟩ := ih h
      exact ⟨x, List.mem_cons_of_mem _ hx, h1⟩

theorem firstIn_le (n : Str) (a b : CmdState) (hab : a.rank < b.rank) (evs : List PEvent)
    (hm : evs.Pairwise fun x y => x.now ≤ y.now)
    (hr : evs.Pairwise fun x y => x.target.name = n → y.target.name = n → x.target.state.rank ≤ y.target.state.rank)
    (ha : firstIn n a evs ≠ 0) (hb : firstIn n b evs ≠ 0) : firstIn n a evs ≤ firstIn n b evs := by
  induction evs with
  | nil => exact absurd rfl ha
  | cons e es ih =>
    rw [List.pairwise_cons] at hm hr
    simp only [firstIn] at ha hb ⊢
    by_cases h1 : e.target.name = n ∧ e.target.state = b
    · have h2 : ¬ (e.target.name = n ∧ e.target.state = a) := by
        rintro ⟨-, h⟩
        rw [h1.2] at h
        rw [h] at hab
        omega
      rw [if_neg h2] at ha
      obtain ⟨x, hx, hn, hs, -⟩ := firstIn_mem n a es ha
      have := hr.1 x hx h1.1 hn
      rw [h1.2, hs] at this
      omega
    · rw [if_neg h1] at hb ⊢
      obtain ⟨y, hy, -, -, hy2⟩ := firstIn_mem n b es hb
      by_cases h2 : e.target.name = n ∧ e.target.state = a
      · rw [if_pos h2, ← hy2]
        exact hm.1 y hy
      · rw [if_neg h2] at ha ⊢
        exact ih hm.2 hr.2 ha hb

/-! ## How long -/

/-- The elapsed times are those between the stamps. -/
def ElapsedOk (e : PEntry) : Prop :=
  (0 < e.start → 0 < e.stop → e.total = stampElapsed e.start e.stop) ∧ (0 < e.recipe → 0 < e.stop → e.inRecipe = stampElapsed e.recipe e.stop)

theorem setElapsed_ok (e : PEntry) : ElapsedOk (setElapsed e) := by
  obtain ⟨-, -, -, -, h1, h2, h3, h4⟩ := setElapsed_same e
  unfold ElapsedOk
  rw [h1, h3, h4]
  unfold setElapsed
  by_cases c1 : e.start > 0 ∧ e.stop > 0
  · rw [if_pos c1]
    by_cases c2 : e.recipe > 0 ∧ e.stop > 0
    · simp only [if_pos c2]; simp
    · simp only [if_neg c2]
      refine ⟨fun _ _ => by trivial, fun a b => absurd ⟨a, b⟩ c2⟩
  · rw [if_neg c1]
    by_cases c2 : e.recipe > 0 ∧ e.stop > 0
    · simp only [if_pos c2]
      refine ⟨fun a b => absurd ⟨a, b⟩ c1, fun _ _ => by trivial⟩
    · simp only [if_neg c2]
      refine ⟨fun a b => absurd ⟨a, b⟩ c1, fun a b => absurd ⟨a, b⟩ c2⟩

theorem addStamp_elapsed (now : Nat) (u : Bool) (st : CmdState) (e : PEntry) (h : ElapsedOk e) : ElapsedOk (addStamp now u st e) := by
  unfold addStamp
  cases putStamp now u st e with
  | none => exact h
  | some e' => exact setElapsed_ok e'

theorem stepAt_elapsed (n : Str) (o : Option PEntry) (ev : PEvent) (h : ∀ e, o = some e → ElapsedOk e) :
    ∀ e, stepAt n o ev = some e → ElapsedOk e := by
  have hg : ∀ t, ElapsedOk (o.getD (fresh t)) := by
    intro t
    cases o with
    | none => exact ⟨fun h => absurd h (Nat.lt_irrefl 0), fun h => absurd h (Nat.lt_irrefl 0)⟩
    | some e => exact h e rfl
  cases ev with
  | push t parent now =>
    cases parent with
    | none =>
      simp only [stepAt]
      intro e he
      split at he
      · simp only [Option.some.injEq] at he
        rw [← he]; exact addStamp_elapsed _ _ _ _ (hg t)
      · exact h e he
    | some p =>
      simp only [stepAt]
      intro e he
      split at he
      · simp only [Option.some.injEq] at he
        rw [← he]
        split
        · exact addStamp_elapsed _ _ _ _ (hg t)
        · exact hg p
      · split at he
        · simp only [Option.some.injEq] at he
          rw [← he]; exact addStamp_elapsed _ _ _ _ (hg t)
        · exact h e he
  | pop t now =>
    simp only [stepAt]
    intro e he
    split at he
    · simp only [Option.some.injEq] at he
      rw [← he]; exact addStamp_elapsed _ _ _ _ (hg t)
    · exact h e he
  | stamp t now =>
    simp only [stepAt]
    intro e he
    split at he
    · simp only [Option.some.injEq] at he
      rw [← he]; exact addStamp_elapsed _ _ _ _ (hg t)
    · exact h e he

theorem run_elapsed (n : Str) (evs : List PEvent) : ∀ e, evs.foldl (stepAt n) none = some e → ElapsedOk e := by
  induction evs using list_snoc_induction with
  | h0 => intro e he; simp at he
  | hs evs ev ih =>
    rw [List.foldl_append]
    exact stepAt_elapsed n _ ev ih

theorem stampElapsed_eq (a b : Time) (ha : a.inRange) (hb : b.inRange) (h : ¬ b.before a) :
    stampElapsed (timestampCons a.sec a.ns) (timestampCons b.sec b.ns) =
      (((b.sec - a.sec) * 2 ^ 30 + b.ns - a.ns) / 1000).toNat := by
  obtain ⟨h1, -, -⟩ := stamp_parts a ha
  obtain ⟨h2, -, -⟩ := stamp_parts b hb
  rw [h1, h2]
  have hna := a.ok
  have hnb := b.ok
  obtain ⟨ha1, ha2⟩ := ha
  obtain ⟨hb1, hb2⟩ := hb
  unfold Time.before at h
  unfold stampElapsed stampSub stampMod
  generalize a.sec = s at *
  generalize b.sec = t at *
  generalize a.ns = x at *
  generalize b.ns = y at *
  obtain ⟨s, rfl⟩ := Int.eq_ofNat_of_zero_le ha1
  obtain ⟨t, rfl⟩ := Int.eq_ofNat_of_zero_le hb1
  have e1 : (t * 2 ^ 30 + 3 + y + 2 ^ 64 - (s * 2 ^ 30 + 3 + x)) % 2 ^ 64 = t * 2 ^ 30 + y - (s * 2 ^ 30 + x) := by omega
  simp only [Int.toNat_natCast]
  rw [e1]
  omega

/-! ## Where things come from -/

/-- A property of names, places and times that holds of a target. -/
structure GoodTarget (t : PTarget) : Prop where
  name : SoftJson t.name
  file : ∀ f, t.file = some f → PlainJson f
  line : t.line < 2 ^ 32

/-- The same for an event. -/
structure GoodEvent (ev : PEvent) : Prop where
  target : GoodTarget ev.target
  parent : ∀ t p now, ev = .push t (some p) now → GoodTarget p
  now : IsStamp ev.now

theorem addStamp_good (now : Nat) (u : Bool) (st : CmdState) (e : PEntry) (h : GoodEntry e) (hn : IsStamp now) : GoodEntry (addStamp now u st e) := by
  obtain ⟨h1, h2, h3, h4⟩ := addStamp_same now u st e
  have hs : IsStamp (addStamp now u st e).start ∧ IsStamp (addStamp now u st e).deps ∧ IsStamp (addStamp now u st e).recipe ∧
      IsStamp (addStamp now u st e).stop := by
    unfold addStamp
    cases hp : putStamp now u st e with
    | none => exact ⟨h.start, h.deps, h.recipe, h.stop⟩
    | some e' =>
      obtain ⟨-, -, -, -, i1, i2, i3, i4⟩ := setElapsed_same e'
      simp only
      rw [i1, i2, i3, i4]
      unfold putStamp at hp
      repeat' split at hp
      all_goals simp only [Option.some.injEq, reduceCtorEq] at hp
      · subst hp; exact ⟨hn, h.deps, h.recipe, h.stop⟩
      · subst hp; exact ⟨h.start, hn, h.recipe, h.stop⟩
      · subst hp; exact ⟨h.start, h.deps, hn, h.stop⟩
      · subst hp; exact ⟨h.start, h.deps, h.recipe, hn⟩
  exact ⟨h1 ▸ h.name, h3 ▸ h.file, h4 ▸ h.line, hs.1, hs.2.1, hs.2.2.1, hs.2.2.2, h2 ▸ h.calls⟩

theorem fresh_good (t : PTarget) (h : GoodTarget t) : GoodEntry (fresh t) :=
  ⟨h.name, h.file, h.line, .inl rfl, .inl rfl, .inl rfl, .inl rfl, fun n hn => by cases hn⟩

theorem stepAt_good (n : Str) (o : Option PEntry) (ev : PEvent) (hev : GoodEvent ev) (h : ∀ e, o = some e → GoodEntry e) :
    ∀ e, stepAt n o ev = some e → GoodEntry e := by
  have hg : ∀ t, GoodTarget t → GoodEntry (o.getD (fresh t)) := by
    intro t ht
    cases o with
    | none => exact fresh_good t ht
    | some e => exact h e rfl
  cases ev with
  | push t parent now =>
    cases parent with
    | none =>
      simp only [stepAt]
      intro e he
      split at he
      · simp only [Option.some.injEq] at he
        rw [← he]; exact addStamp_good _ _ _ _ (hg t hev.target) hev.now
      · exact h e he
    | some p =>
      simp only [stepAt]
      intro e he
      have hp := hev.parent t p now rfl
      split at he
      · simp only [Option.some.injEq] at he
        have key : ∀ x, GoodEntry x → GoodEntry { x with calls := t.name :: x.calls } := by
          intro x hx
          refine ⟨hx.name, hx.file, hx.line, hx.start, hx.deps, hx.recipe, hx.stop, ?_⟩
          intro m hm
          rcases List.mem_cons.1 hm with rfl | hm
          · exact hev.target.name
          · exact hx.calls m hm
        rw [← he]
        apply key
        split
        · exact addStamp_good _ _ _ _ (hg t hev.target) hev.now
        · exact hg p hp
      · split at he
        · simp only [Option.some.injEq] at he
          rw [← he]; exact addStamp_good _ _ _ _ (hg t hev.target) hev.now
        · exact h e he
  | pop t now =>
    simp only [stepAt]
    intro e he
    split at he
    · simp only [Option.some.injEq] at he
      rw [← he]
      have hx := addStamp_good now t.updated t.state _ (hg t hev.target) hev.now
      exact ⟨hx.name, hev.target.file, hev.target.line, hx.start, hx.deps, hx.recipe, hx.stop, hx.calls⟩
    · exact h e he
  | stamp t now =>
    simp only [stepAt]
    intro e he
    split at he
    · simp only [Option.some.injEq] at he
      rw [← he]; exact addStamp_good _ _ _ _ (hg t hev.target) hev.now
    · exact h e he

theorem run_good (n : Str) (evs : List PEvent) (h : ∀ ev ∈ evs, GoodEvent ev) : ∀ e, evs.foldl (stepAt n) none = some e → GoodEntry e := by
  induction evs using list_snoc_induction with
  | h0 => intro e he; simp at he
  | hs evs ev ih =>
    rw [List.foldl_append]
    exact stepAt_good n _ ev (h ev (by simp)) (ih fun x hx => h x (List.mem_append_left _ hx))

/-- The place of an entry that may not be there. -/
def placeOf (o : Option PEntry) : Option (Option Str × Nat) := o.map fun e => (e.file, e.line)

theorem firstNamed_append (n : Str) (a b : List PEvent) : firstNamed n (a ++ b) = (firstNamed n a).or (firstNamed n b) := by
  induction a with
  | nil => simp [firstNamed]
  | cons e es ih =>
    rw [List.cons_append]
    simp only [firstNamed]
    split
    · rfl
    · cases e with
      | push t parent now =>
        cases parent with
        | none => exact ih
        | some p =>
          simp only
          split
          · rfl
          · exact ih
      | pop t now => exact ih
      | stamp t now => exact ih

theorem place_stepAt (n : Str) (o : Option PEntry) (ev : PEvent) :
    placeOf (stepAt n o ev) = (((lastLeft n [ev]).map fun t => (t.file, t.line)).or (placeOf o)).or
      ((firstNamed n [ev]).map fun t => (t.file, t.line)) := by
  have hs : ∀ now u st e, placeOf (some (addStamp now u st e)) = placeOf (some e) := by
    intro now u st e
    obtain ⟨-, -, h1, h2⟩ := addStamp_same now u st e
    simp [placeOf, h1, h2]
  have hg : ∀ t, placeOf (some (o.getD (fresh t))) = (placeOf o).or (some (t.file, t.line)) := by
    intro t; cases o <;> rfl
  have hr : ∀ t e, placeOf (some (relocate t e)) = some (t.file, t.line) := fun t e => rfl
  cases ev with
  | push t parent now =>
    cases parent with
    | none =>
      simp only [stepAt, lastLeft, firstNamed, PEvent.target]
      by_cases h : t.name = n
      · simp [h, hs, hg]
      · simp [h]
    | some p =>
      simp only [stepAt, lastLeft, firstNamed, PEvent.target]
      have hc : ∀ (o' : Option PEntry), placeOf (if p.name = n then some { (o'.getD (fresh p)) with
          calls := t.name :: (o'.getD (fresh p)).calls } else o') = if p.name = n then (placeOf o').or (some (p.file, p.line)) else placeOf o' := by
        intro o'
        split
        · cases o' <;> rfl
        · rfl
      rw [hc]
      by_cases h : t.name = n <;> by_cases h2 : p.name = n
      · simp [h, h2, hs, hg, Option.or_assoc]
      · simp [h, h2, hs, hg]
      · simp [h, h2]
      · simp [h, h2]
  | pop t now =>
    simp only [stepAt, lastLeft, firstNamed, PEvent.target]
    by_cases h : t.name = n
    · simp [h, hr]
    · simp [h]
  | stamp t now =>
    simp only [stepAt, lastLeft, firstNamed, PEvent.target]
    by_cases h : t.name = n
    · simp [h, hs, hg]
    · simp [h]

theorem lastLeft_append (n : Str) (a : List PEvent) (ev : PEvent) : lastLeft n (a ++ [ev]) = (lastLeft n [ev]).or (lastLeft n a) := by
  unfold lastLeft
  rw [List.filterMap_append, List.getLast?_append]

theorem place_run (n : Str) (evs : List PEvent) :
    placeOf (evs.foldl (stepAt n) none) = ((lastLeft n evs).or (firstNamed n evs)).map fun t => (t.file, t.line) := by
  induction evs using list_snoc_induction with
  | h0 => rfl
  | hs evs ev ih =>
    rw [List.foldl_append]
    simp only [List.foldl_cons, List.foldl_nil]
    rw [place_stepAt, ih, lastLeft_append, firstNamed_append]
    cases lastLeft n [ev] <;> cases lastLeft n evs <;> cases firstNamed n evs <;> simp

theorem pSteps_some (tab : List PEntry) (fd : Bool) (evs : List PEvent) : pSteps ⟨fd, some tab⟩ evs = some ⟨fd, some (evs.foldl pStep tab)⟩ := by
  induction evs generalizing tab with
  | nil => rfl
  | cons e es ih =>
    simp only [pSteps, List.foldl_cons]
    exact ih _

/-! ## Callgrind -/

theorem cgDefined_calls (es : List PEntry) (e : PEntry) (ns : List Str) (file : Str) (rest : List CgLine) :
    cgDefined file (cgCalls es e ns ++ rest) = cgDefined file rest := by
  induction ns with
  | nil => rfl
  | cons n ns ih =>
    unfold cgCalls
    cases es.find? (·.name = n) with
    | none => simpa using ih
    | some t =>
      cases hf : t.file with
      | none => simpa [cgDefined, hf] using ih
      | some f => simpa [cgDefined, hf] using ih

theorem cgDefined_mem (dir : Str) (all es : List PEntry) (file : Str) (x : Str × Str) :
    x ∈ cgDefined file (es.flatMap (cgEntry dir all)) → ∃ e ∈ es, ∃ f, e.file = some f ∧ x = (dir ++ '/' :: f, e.name) := by
  induction es generalizing file with
  | nil => intro h; simp [cgDefined] at h
  | cons e es ih =>
    rw [List.flatMap_cons]
    generalize hrest : es.flatMap (cgEntry dir all) = rest at *
    unfold cgEntry
    cases hf : e.file with
    | none =>
      intro h
      obtain ⟨e', he', h'⟩ := ih file (by simpa using h)
      exact ⟨e', List.mem_cons_of_mem _ he', h'⟩
    | some f =>
      intro h
      simp only [List.cons_append, List.nil_append, cgDefined] at h
      rw [cgDefined_calls] at h
      rcases List.mem_cons.1 h with rfl | h
      · exact ⟨e, List.mem_cons_self .., f, hf, rfl⟩
      · obtain ⟨e', he', h'⟩ := ih _ h
        exact ⟨e', List.mem_cons_of_mem _ he', h'⟩

/-- What is called: an entry of the table, in its file, or without a file in the file of the caller. -/
def Called (dir : Str) (all : List PEntry) (x : Str × Str) : Prop :=
  ∃ t ∈ all, x.2 = t.name ∧ (t.file = some x.1 ∨ t.file = none)

theorem cgCalled_calls (dir : Str) (es : List PEntry) (e : PEntry) (ns : List Str) (file : Str) (rest : List CgLine) (x : Str × Str)
    (h : x ∈ cgCalled file none (cgCalls es e ns ++ rest)) : Called dir es x ∨ x ∈ cgCalled file none rest := by
  induction ns with
  | nil => exact .inr h
  | cons n ns ih =>
    unfold cgCalls at h
    cases hs : es.find? (·.name = n) with
    | none =>
      rw [hs] at h
      exact ih (by simpa using h)
    | some t =>
      have ht := List.mem_of_find?_eq_some hs
      rw [hs] at h
      cases hf : t.file with
      | none =>
        simp only [hf, List.nil_append, List.cons_append, cgCalled] at h
        rcases List.mem_cons.1 h with rfl | h
        · exact .inl ⟨t, ht, rfl, .inr hf⟩
        · exact ih h
      | some f =>
        simp only [hf, List.nil_append, List.cons_append, cgCalled] at h
        rcases List.mem_cons.1 h with rfl | h
        · exact .inl ⟨t, ht, rfl, .inl hf⟩
        · exact ih h

theorem cgCalled_mem (dir : Str) (all es : List PEntry) (file : Str) (x : Str × Str) :
    x ∈ cgCalled file none (es.flatMap (cgEntry dir all)) → Called dir all x := by
  induction es generalizing file with
  | nil => intro h; simp [cgCalled] at h
  | cons e es ih =>
    rw [List.flatMap_cons]
    generalize hrest : es.flatMap (cgEntry dir all) = rest at *
    unfold cgEntry
    cases hf : e.file with
    | none => intro h; exact ih file (by simpa using h)
    | some f =>
      intro h
      simp only [List.cons_append, List.nil_append, cgCalled] at h
      rcases cgCalled_calls dir all e _ _ _ _ h with h | h
      · exact h
      · exact ih _ h

end Remake
