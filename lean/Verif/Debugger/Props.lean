import Verif.Debugger.Lemmas
/-! The property theorems for the debugger. -/
namespace Remake
open Spec

/-! ## C53: breakpoints -/

/-- C53: whatever sequence of `break` and `delete` commands was given, no invalid pointer is
followed and the list shown is the one the plain list gives.  Partial: fewer than 2^32 - 1
commands, since the numbers are unsigned ints (see `C53_wraps`). -/
theorem C53_refines_partial (cmds : List BpCmd) (hc : cmds.length < 2 ^ 32 - 1) :
    ∃ st, bpRun cmds = some st ∧ shown st = some (bpList cmds).2 := by
  obtain ⟨st, l, e, hr, _, hm⟩ := bpRun_rep cmds hc
  exact ⟨st, e, by rw [rep_shown hr, hm]⟩

/-- C53: the numbers shown increase, so no two breakpoints share one. -/
theorem C53_numbers_partial (cmds : List BpCmd) (hc : cmds.length < 2 ^ 32 - 1) :
    ∃ st bs, bpRun cmds = some st ∧ shown st = some bs ∧ (bs.map (·.num)).Pairwise (· < ·) ∧
      ∀ b ∈ bs, 0 < b.num ∧ b.num ≤ (cmds.filter fun c => match c with | .break_ .. => true | _ => false).length := by
  obtain ⟨st, l, e, hr, hcount, hm⟩ := bpRun_rep cmds hc
  refine ⟨st, _, e, rep_shown hr, ?_, ?_⟩
  · have := hr.incr
    rw [List.map_map]; exact this
  · intro b hb
    obtain ⟨x, hx, rfl⟩ := List.mem_map.mp hb
    have h1 := hr.num x hx
    have key : ∀ (cmds : List BpCmd) (s : Nat × List Bp), (cmds.foldl bpStep s).1 =
        s.1 + (cmds.filter fun c => match c with | .break_ .. => true | _ => false).length := by
      intro cmds
      induction cmds with
      | nil => intro s; rfl
      | cons c cs ih =>
        intro s
        rw [List.foldl_cons, ih]
        cases c <;> simp [bpStep, List.filter_cons] <;> omega
    rw [hcount, bpList, key] at h1
    simpa [bpOf] using h1

example : ∃ st, bpRun [.break_ 7 1, .break_ 8 2, .break_ 7 4, .delete 2, .break_ 9 1] = some st ∧
    shown st = some [⟨1, 7, 1⟩, ⟨3, 7, 4⟩, ⟨4, 9, 1⟩] :=
  C53_refines_partial [.break_ 7 1, .break_ 8 2, .break_ 7 4, .delete 2, .break_ 9 1] (by decide)

/-- C53: deleting says whether the target was traced, and the target is then no longer traced. -/
theorem C53_untraced (st : BpState) (i : Nat) (st' : BpState) (h : removeBreakpoint st i = some (st', true)) :
    ∃ p n, st.heap p = some n ∧ n.num = i ∧ st.tracing n.target ≠ 0 ∧
      st'.tracing = fun t => if t = n.target then 0 else st.tracing t := by
  simp only [removeBreakpoint] at h
  split at h
  · simp at h
  split at h
  · simp at h
  have key : ∀ (fuel : Nat) (prev p q : Option Nat) (a : Nat), findBp st.heap i fuel prev p = some (q, some a) →
      ∃ n, st.heap a = some n ∧ n.num = i := by
    intro fuel
    induction fuel with
    | zero => intro prev p q a h; simp [findBp] at h
    | succ fuel ih =>
      intro prev p q a h
      cases p with
      | none => simp [findBp] at h
      | some b =>
        simp only [findBp] at h
        cases hb : st.heap b with
        | none => simp [hb] at h
        | some n =>
          simp only [hb] at h
          split at h
          · rename_i hn
            simp only [Option.some.injEq, Prod.mk.injEq] at h
            obtain ⟨_, rfl⟩ := h
            exact ⟨n, hb, hn⟩
          · exact ih _ _ _ _ h
  cases hf : findBp st.heap i (st.fresh + 1) none st.top with
  | none => simp [hf] at h
  | some r =>
    obtain ⟨prev, p⟩ := r
    cases p with
    | none => simp [hf] at h
    | some p =>
      obtain ⟨n, hp, hn⟩ := key _ _ _ _ _ hf
      refine ⟨p, n, hp, hn, ?_⟩
      simp only [hf, hp] at h
      have gen : ∀ s : BpState, s.tracing = st.tracing → ∀ r : Option BpState, (∀ s', r = some s' → s'.tracing = st.tracing) →
          (r.map fun s => ((if s.tracing n.target ≠ 0 then
              { s with tracing := fun t => if t = n.target then 0 else s.tracing t } else s).store p none,
              decide (s.tracing n.target ≠ 0))) = some (st', true) →
          st.tracing n.target ≠ 0 ∧ st'.tracing = fun t => if t = n.target then 0 else st.tracing t := by
        intro s hs r hr he
        cases r with
        | none => simp at he
        | some s' =>
          have e := hr s' rfl
          simp only [Option.map_some, Option.some.injEq, Prod.mk.injEq, decide_eq_true_eq] at he
          obtain ⟨h1, h2⟩ := he
          rw [if_pos h2] at h1
          subst h1
          rw [e] at h2 ⊢
          exact ⟨h2, by simp [BpState.store]⟩
      refine gen st rfl _ ?_ h
      intro s' hs'
      have base : ∀ s' : BpState, s' = (if (if n.next = none then { st with bottom := prev } else st).top = some p
            then { (if n.next = none then { st with bottom := prev } else st) with top := n.next }
            else (if n.next = none then { st with bottom := prev } else st)) → s'.tracing = st.tracing := by
        intro s' e
        subst e
        by_cases h1 : n.next = none <;> by_cases h2 : st.top = some p <;> simp [h1, h2]
      cases prev with
      | none => exact base _ (Option.some.inj hs').symm
      | some q =>
        simp only [BpState.setNext, Option.map_eq_some_iff] at hs'
        obtain ⟨k, _, rfl⟩ := hs'
        simp only [BpState.store]
        exact base _ rfl

/-- C53 is violated here: of two breakpoints on one target, deleting the first stops the second
from taking effect, although it is still listed. -/
theorem C53_shared_tracing : ∃ st, bpRun [.break_ 7 1, .break_ 7 1, .delete 1] = some st ∧
    shown st = some [⟨2, 7, 1⟩] ∧ st.tracing 7 = 0 := ⟨_, rfl, rfl, rfl⟩

/-- C53: after 2^32 - 1 breakpoints the next one has number 0, which `delete` refuses. -/
theorem C53_wraps (st : BpState) (h : st.count = 2 ^ 32 - 1) (ht : st.top = none) (t m : Nat) :
    ∃ st', addBreakpoint st t m = some st' ∧ shown st' = some [⟨0, t, m⟩] ∧
      removeBreakpoint st' 0 = some (st', false) := by
  refine ⟨{ st with
      heap := fun b => if b = st.fresh then some ⟨t, 0, m, none⟩
        else if b = st.fresh then some ⟨0, 0, 0, none⟩ else st.heap b
      fresh := st.fresh + 1, top := some st.fresh, bottom := some st.fresh, count := 0
      tracing := fun u => if u = t then m else st.tracing u }, ?_, ?_, by simp [removeBreakpoint]⟩
  · simp [addBreakpoint, BpState.store, ht, h]
  · simp [shown, listBreakpoints]

example : ({ BpState.init with count := 2 ^ 32 - 1 } : BpState).top = none := rfl

/-! ## C54: frames -/

/-- The number of frames shown: of targets, or of makefiles when no target is being made. -/
def Spec.frames (targets flocs : Nat) : Nat := if 0 < targets then targets else flocs

/-- C54: a move that is made ends on an existing frame; the current target is that of the frame. -/
theorem C54_moved (targets flocs : Nat) (st st' : FrameState) (k : Int) (abs : Bool)
    (hs : 0 < frames targets flocs) (h : adjustFrame targets flocs st k abs = .moved st') :
    0 ≤ st'.pos ∧ st'.pos < frames targets flocs ∧ (0 < targets → st'.cur = some st'.pos.toNat) := by
  simp only [adjustFrame] at h
  generalize (if abs = true then _ else _ : Int) = x at h
  simp only [frames] at hs ⊢
  split at h
  · simp at h
  split at h
  · simp at h
  split at h
  · simp at h
  split at h
  · rename_i h0 h1 h2 h3
    split at h
    · cases h
      rw [if_pos h3]
      exact ⟨by simp only; omega, by simp only; omega, fun _ => rfl⟩
    · simp at h
  · rename_i h0 h1 h2 h3
    rw [if_neg h3] at hs ⊢
    rw [if_pos hs] at h
    split at h
    · cases h
      exact ⟨by simp only; omega, by simp only; omega, fun h => absurd h h3⟩
    · simp at h

/-- C54: a move that is refused leaves the position where it was. -/
theorem C54_refused (targets flocs : Nat) (st st' : FrameState) (k : Int) (abs : Bool)
    (h : adjustFrame targets flocs st k abs = .error st') : st'.pos = st.pos := by
  simp only [adjustFrame] at h
  generalize (if abs = true then _ else _ : Int) = x at h
  have hp : ∀ c : Prop, [Decidable c] → (if c then { st with cur := none } else st : FrameState).pos = st.pos := by
    intro c _; split <;> rfl
  split at h
  · simp at h
  split at h
  · cases h; exact hp _
  split at h
  · simp at h
  split at h
  · split at h
    · simp at h
    · cases h; exact hp _
  · split at h
    · split at h
      · simp at h
      · cases h; exact hp _
    · simp at h

theorem frame_core (targets flocs : Nat) (st : FrameState) (x : Int) (hs : 0 < frames targets flocs)
    (h1 : -2 ^ 31 ≤ x) (h2 : x + 1 < 2 ^ 31) (r : FrameRes)
    (hr : r = (if ¬ (-2 ^ 31 ≤ x ∧ x < 2 ^ 31) then FrameRes.undef
      else if x < 0 then .error st
      else if x + 1 = 2 ^ 31 then .undef
      else if 0 < targets then
        if x < targets then .moved ⟨x, some x.toNat⟩ else .error { st with cur := none }
      else if 0 < flocs then
        if x < flocs then .moved { st with pos := x } else .error st
      else .moved st)) :
    (0 ≤ x ∧ x < frames targets flocs → ∃ st', r = .moved st' ∧ st'.pos = x) ∧
    (x < 0 ∨ frames targets flocs ≤ x → ∃ st', r = .error st') := by
  rw [if_neg (by omega)] at hr
  by_cases ht : 0 < targets
  · simp only [frames, if_pos ht] at hs hr ⊢
    constructor
    · rintro ⟨h3, h4⟩
      rw [if_neg (by omega), if_neg (by omega), if_pos (by omega)] at hr
      exact ⟨_, hr, rfl⟩
    · intro h3
      by_cases hn : x < 0
      · rw [if_pos hn] at hr; exact ⟨_, hr⟩
      · rw [if_neg hn, if_neg (by omega), if_neg (by omega)] at hr
        exact ⟨_, hr⟩
  · simp only [frames, if_neg ht] at hs hr ⊢
    constructor
    · rintro ⟨h3, h4⟩
      rw [if_neg (by omega), if_neg (by omega), if_pos (by omega), if_pos (by omega)] at hr
      exact ⟨_, hr, rfl⟩
    · intro h3
      by_cases hn : x < 0
      · rw [if_pos hn] at hr; exact ⟨_, hr⟩
      · rw [if_neg hn, if_neg (by omega), if_pos (by omega), if_neg (by omega)] at hr
        exact ⟨_, hr⟩

/-- C54: `up k` and `down k` move by k frames exactly when there is such a frame.  Partial: the
sum has to fit in an int, and so has the frame after it (see `C54_overflow`). -/
theorem C54_relative_partial (targets flocs : Nat) (st : FrameState) (k : Int) (hs : 0 < frames targets flocs)
    (h1 : -2 ^ 31 ≤ st.pos + k) (h2 : st.pos + k + 1 < 2 ^ 31) :
    (0 ≤ st.pos + k ∧ st.pos + k < frames targets flocs →
      ∃ st', adjustFrame targets flocs st k false = .moved st' ∧ st'.pos = st.pos + k) ∧
    (st.pos + k < 0 ∨ frames targets flocs ≤ st.pos + k →
      ∃ st', adjustFrame targets flocs st k false = .error st') := by
  refine frame_core targets flocs st (st.pos + k) hs h1 h2 _ ?_
  simp only [adjustFrame, Bool.false_eq_true, false_and, if_false]

/-- C54: `frame k` goes to frame k, and `frame -k` to the k-th from the end, exactly when there is
such a frame. -/
theorem C54_absolute_partial (targets flocs : Nat) (st : FrameState) (k : Int) (hs : 0 < frames targets flocs)
    (hf : frames targets flocs < 2 ^ 31) (h1 : -2 ^ 31 ≤ k) (h2 : k + 1 < 2 ^ 31) (goal : Int)
    (hgoal : goal = if 0 ≤ k then k else frames targets flocs + k) :
    (0 ≤ goal ∧ goal < frames targets flocs →
      ∃ st', adjustFrame targets flocs st k true = .moved st' ∧ st'.pos = goal) ∧
    (goal < 0 ∨ frames targets flocs ≤ goal → ∃ st', adjustFrame targets flocs st k true = .error st') := by
  have hx : (if k < 0 then toInt32 (((if 0 < targets then targets else flocs : Nat) : Int) + k) else k) = goal := by
    by_cases hk : k < 0
    · rw [if_pos hk, hgoal, if_neg (show ¬ 0 ≤ k by omega)]
      have e : (if 0 < targets then targets else flocs : Nat) = frames targets flocs := rfl
      rw [e, toInt32]
      omega
    · rw [if_neg hk, hgoal, if_pos (by omega)]
  have hg : -2 ^ 31 ≤ goal ∧ goal + 1 < 2 ^ 31 := by
    rw [hgoal]; split <;> omega
  refine frame_core targets flocs (if k < 0 ∧ 0 < targets then { st with cur := none } else st) goal hs hg.1 hg.2 _ ?_
  simp only [adjustFrame, if_true, true_and]
  rw [hx]

/-- C54: going up by k and down by k returns to the frame. -/
theorem C54_up_down (targets flocs : Nat) (st : FrameState) (k : Int) (hf : frames targets flocs < 2 ^ 31)
    (h0 : 0 ≤ st.pos) (h1 : st.pos < frames targets flocs) (h2 : 0 ≤ st.pos + k)
    (h3 : st.pos + k < frames targets flocs) :
    ∃ st' st'', adjustFrame targets flocs st k false = .moved st' ∧
      adjustFrame targets flocs st' (-k) false = .moved st'' ∧ st''.pos = st.pos := by
  obtain ⟨st', e1, p1⟩ := (C54_relative_partial targets flocs st k (by omega) (by omega) (by omega)).1 ⟨h2, h3⟩
  have hb : st'.pos + -k = st.pos := by omega
  obtain ⟨st'', e2, p2⟩ := (C54_relative_partial targets flocs st' (-k) (by omega) (by omega) (by omega)).1
    ⟨by omega, by omega⟩
  exact ⟨st', st'', e1, e2, by omega⟩

example : adjustFrame 3 1 ⟨0, some 0⟩ 2 false = .moved ⟨2, some 2⟩ ∧
    adjustFrame 3 1 ⟨0, some 0⟩ 3 false = .error ⟨0, none⟩ ∧
    adjustFrame 3 1 ⟨0, some 0⟩ (-1) true = .moved ⟨2, some 2⟩ ∧
    adjustFrame 0 2 ⟨0, none⟩ 1 false = .moved ⟨1, none⟩ := by decide

/-- C54 is violated here: from frame 1, `up 2147483647` overflows an int. -/
theorem C54_overflow : adjustFrame 3 1 ⟨1, some 1⟩ 2147483647 false = .undef := by decide

/-- C54 is violated here: a refused move forgets which target is current. -/
theorem C54_refused_forgets (targets flocs : Nat) (st : FrameState) (ht : 0 < targets) (h : st.pos = 0)
    (hb : targets < 2 ^ 31 - 1) : adjustFrame targets flocs st targets false = .error ⟨st.pos, none⟩ := by
  simp only [adjustFrame, Bool.false_eq_true, false_and, if_false]
  rw [if_neg (by omega), if_neg (by omega), if_neg (by omega), if_pos ht, if_neg (by omega)]

/-! ## C55: command lines -/

theorem dropWhile_every {p : Char → Bool} {s : Str} (h : ∀ c ∈ s, p c = true) : s.dropWhile p = [] := by
  induction s with
  | nil => rfl
  | cons c s ih =>
    rw [List.dropWhile_cons_of_pos (h c (List.mem_cons_self ..))]
    exact ih fun d hd => h d (List.mem_cons_of_mem _ hd)

theorem takeWhile_all {p : Char → Bool} {s : Str} (h : ∀ c ∈ s, p c = true) : s.takeWhile p = s := by
  induction s with
  | nil => rfl
  | cons c s ih =>
    rw [List.takeWhile_cons_of_pos (h c (List.mem_cons_self ..)), ih fun d hd => h d (List.mem_cons_of_mem _ hd)]

theorem dropWhile_white (b s : Str) (hb : ∀ c ∈ b, isWhite c = true) :
    (b ++ s).dropWhile isWhite = s.dropWhile isWhite := by
  induction b with
  | nil => rfl
  | cons c b ih =>
    rw [List.cons_append, List.dropWhile_cons_of_pos (hb c (List.mem_cons_self ..))]
    exact ih fun d hd => hb d (List.mem_cons_of_mem _ hd)

/-- Text without blanks at its ends. -/
def Spec.Trimmed (s : Str) : Prop := (∀ c ∈ s.head?, isWhite c = false) ∧ (∀ c ∈ s.getLast?, isWhite c = false)

theorem dropWhile_trim {s : Str} (h : ∀ c ∈ s.head?, isWhite c = false) : s.dropWhile isWhite = s := by
  cases s with
  | nil => rfl
  | cons c s => exact List.dropWhile_cons_of_neg (by simpa using h)

theorem stripwhite_trim {a s b : Str} (ha : ∀ c ∈ a, isWhite c = true) (hb : ∀ c ∈ b, isWhite c = true)
    (hs : Trimmed s) : stripwhite (a ++ s ++ b) = s := by
  simp only [stripwhite]
  rw [List.append_assoc, dropWhile_white a _ ha]
  cases s with
  | nil =>
    rw [List.nil_append, dropWhile_every hb]; rfl
  | cons c s =>
    rw [List.cons_append, List.dropWhile_cons_of_neg (by simpa using hs.1), ← List.cons_append, List.reverse_append,
      dropWhile_white _ _ (by simpa using hb), dropWhile_trim, List.reverse_reverse]
    intro d hd
    rw [List.head?_reverse] at hd
    exact hs.2 d hd

theorem getWord_split {w t : Str} (hw : WhiteFree w) (ht : ∀ c ∈ t.head?, isWhite c = true) :
    getWord (w ++ t) = (w, t.drop 1) := by
  have hb : bumpBlank (w ++ t) = w ++ t := by
    cases w with
    | nil => exact absurd rfl hw.1
    | cons c w => simp [bumpBlank, hw.2 c (List.mem_cons_self ..)]
  have h1 : ∀ c ∈ w, (!isWhite c) = true := fun c hc => by simp [hw.2 c hc]
  simp only [getWord, hb]
  rw [List.takeWhile_append_of_pos h1, List.dropWhile_append_of_pos h1]
  cases t with
  | nil => simp
  | cons c t =>
    have : isWhite c = true := ht c rfl
    simp [List.takeWhile_cons, List.dropWhile_cons, this]

/-- C55: a line is a command word, and the rest of it, without blanks around, is the argument. -/
theorem C55_line (a w b r e : Str) (ha : ∀ c ∈ a, isWhite c = true) (hw : WhiteFree w)
    (hb : ∀ c ∈ b, isWhite c = true) (hb0 : r ≠ [] → b ≠ []) (hr : Trimmed r) (he : ∀ c ∈ e, isWhite c = true) :
    (executeLine (a ++ w ++ b ++ r ++ e)).2 = r ∧
      (executeLine (a ++ w ++ b ++ r ++ e)).1 = (executeLine w).1 := by
  have wtrim : Trimmed w := by
    constructor
    · intro c hc; exact hw.2 c (List.mem_of_mem_head? hc)
    · intro c hc; exact hw.2 c (List.mem_of_mem_getLast? hc)
  have hself : getWord (stripwhite w) = (w, []) := by
    have := stripwhite_trim (a := []) (b := []) (s := w) (by simp) (by simp) wtrim
    simp only [List.nil_append, List.append_nil] at this
    rw [this]
    have := getWord_split (t := []) hw (by simp)
    simpa using this
  by_cases hr0 : r = []
  · subst hr0
    have e1 : stripwhite (a ++ w ++ b ++ [] ++ e) = w := by
      have := stripwhite_trim (a := a) (b := b ++ e) (s := w) ha
        (fun c hc => (List.mem_append.mp hc).elim (hb c) (he c)) wtrim
      simpa using this
    have e2 : stripwhite w = w := by
      have := stripwhite_trim (a := []) (b := []) (s := w) (by simp) (by simp) wtrim
      simpa using this
    rw [e2] at hself
    simp only [executeLine, e1, e2, hself]; exact ⟨rfl, trivial⟩
  · have hb1 := hb0 hr0
    have htr : Trimmed (w ++ b ++ r) := by
      constructor
      · intro c hc
        apply hw.2
        cases w with
        | nil => exact absurd rfl hw.1
        | cons d w => simp at hc; simp [hc]
      · intro c hc
        apply hr.2
        rw [List.getLast?_append] at hc
        cases hl : r.getLast? with
        | none => rw [List.getLast?_eq_none_iff] at hl; exact absurd hl hr0
        | some d => rw [hl] at hc; simpa using hc
    have e1 : stripwhite (a ++ w ++ b ++ r ++ e) = w ++ (b ++ r) := by
      have := stripwhite_trim ha he htr
      simpa using this
    have e2 : getWord (w ++ (b ++ r)) = (w, (b ++ r).drop 1) := by
      apply getWord_split hw
      cases b with
      | nil => exact absurd rfl hb1
      | cons c b => simpa using hb c (List.mem_cons_self ..)
    have e3 : ((b ++ r).drop 1).dropWhile isWhite = r := by
      cases b with
      | nil => exact absurd rfl hb1
      | cons c b =>
        simp only [List.cons_append, List.drop_succ_cons, List.drop_zero]
        rw [dropWhile_white _ _ fun d hd => hb d (List.mem_cons_of_mem _ hd), dropWhile_trim hr.1]
    simp only [executeLine, e1, e2, e3, hself, and_self]

example : executeLine "  print\t  a b ".toList = (some 'p', "a b".toList) := by decide

/-- C55: the words of an argument are read back when single blanks separate them. -/
theorem C55_words_partial (ws : List Str) (h : ∀ w ∈ ws, WhiteFree w) : readWords (spaced ws) = ws := by
  induction ws with
  | nil => rw [readWords]; simp [spaced, getWord, bumpBlank]
  | cons w ws ih =>
    have hw := h w (List.mem_cons_self ..)
    cases ws with
    | nil =>
      have := getWord_split (t := []) hw (by simp)
      simp only [List.append_nil, List.drop_nil] at this
      rw [readWords]
      simp only [spaced, this, hw.1, dite_false]
      rw [readWords]; simp [getWord, bumpBlank]
    | cons v ws =>
      have := getWord_split (t := ' ' :: spaced (v :: ws)) hw (by simp [isWhite])
      simp only [List.drop_succ_cons, List.drop_zero] at this
      rw [readWords]
      simp only [spaced] at this ⊢
      simp only [this, hw.1, dite_false]
      rw [show (spaced (v :: ws)) = spaced (v :: ws) from rfl] at *
      rw [ih fun w hw => h w (List.mem_cons_of_mem _ hw)]

example : readWords "10 2 33".toList = ["10".toList, "2".toList, "33".toList] :=
  C55_words_partial ["10".toList, "2".toList, "33".toList] (by
    intro w hw
    simp only [List.mem_cons, List.not_mem_nil, or_false] at hw
    rcases hw with rfl | rfl | rfl <;> exact ⟨by decide, by decide⟩)

/-- C55 is violated here: a second blank between two words is taken for part of the word, with
its code incremented. -/
theorem C55_two_blanks (v w : Str) (hv : WhiteFree v) (hw : WhiteFree w) :
    readWords (v ++ "  ".toList ++ w) = [v, '!' :: w] := by
  have h1 := getWord_split (t := ' ' :: ' ' :: w) hv (by simp [isWhite])
  simp only [List.drop_succ_cons, List.drop_zero] at h1
  have h2 : getWord (' ' :: w) = ('!' :: w, []) := by
    have hall : ∀ c ∈ ('!' :: w), (!isWhite c) = true := by
      intro c hc
      rcases List.mem_cons.mp hc with rfl | hc
      · decide
      · simp [hw.2 c hc]
    have hb : bumpBlank (' ' :: w) = '!' :: w := by
      simp only [bumpBlank]; rw [if_pos (by decide)]; rfl
    simp only [getWord, hb]
    rw [takeWhile_all hall, dropWhile_every hall]; rfl
  have e : v ++ "  ".toList ++ w = v ++ ' ' :: ' ' :: w := by simp
  rw [e, readWords]
  simp only [h1, hv.1, dite_false]
  rw [readWords]
  simp only [h2]
  rw [readWords]; simp [getWord, bumpBlank]

/-- C55: an abbreviation is accepted exactly when it begins the word and is long enough. -/
theorem C55_abbrev (sub word : Str) (min : Nat) :
    isAbbrevOf sub word min = true ↔ sub <+: word ∧ min ≤ sub.length := by
  have hlen : ∀ (hay p : Str), strstrAt hay sub = some p → p.length = hay.length → sub <+: hay := by
    intro hay
    induction hay with
    | nil =>
      intro p h _
      unfold strstrAt at h
      by_cases hp : sub.isPrefixOf []
      · exact List.isPrefixOf_iff_prefix.mp hp
      · rw [if_neg hp] at h; simp at h
    | cons c cs ih =>
      intro p h hl
      unfold strstrAt at h
      by_cases hp : sub.isPrefixOf (c :: cs)
      · exact List.isPrefixOf_iff_prefix.mp hp
      · rw [if_neg hp] at h
        simp only at h
        have hsuf : ∀ (hay p : Str), strstrAt hay sub = some p → p.length ≤ hay.length := by
          intro hay
          induction hay with
          | nil =>
            intro p h
            unfold strstrAt at h
            split at h
            · cases h; exact Nat.le_refl _
            · simp at h
          | cons d ds ih2 =>
            intro p h
            unfold strstrAt at h
            split at h
            · cases h; exact Nat.le_refl _
            · exact Nat.le_succ_of_le (ih2 p h)
        have := hsuf cs p h
        simp at hl; omega
  simp only [isAbbrevOf]
  by_cases hm : sub.length < min
  · rw [if_pos hm]; simp; omega
  · rw [if_neg hm]
    constructor
    · intro h
      cases hs : strstrAt word sub with
      | none => simp [hs] at h
      | some p => simp [hs] at h; exact ⟨hlen _ _ hs h, by omega⟩
    · rintro ⟨h, _⟩
      have : strstrAt word sub = some word := by
        unfold strstrAt; rw [if_pos (List.isPrefixOf_iff_prefix.mpr h)]
      simp [this]

example : isAbbrevOf "targ".toList "target".toList 3 = true ∧ isAbbrevOf "get".toList "target".toList 1 = false ∧
    isAbbrevOf "t".toList "target".toList 3 = false := by decide

/-! ## C66: the choice of the command -/

theorem dbgCmp_eq_zero {a b : Str} (ha : '\x00' ∉ a) (hb : '\x00' ∉ b) : dbgCmp a b = 0 ↔ a = b := by
  have hz : ∀ c : Char, c.toNat = 0 → c = '\x00' := by
    intro c h
    apply Char.ext
    apply UInt32.toNat_inj.mp
    exact h
  induction a generalizing b with
  | nil =>
    cases b with
    | nil => simp [dbgCmp]
    | cons d ds =>
      simp only [dbgCmp]
      constructor
      · intro h; exact absurd (hz d (by omega)) (fun e => hb (by simp [e]))
      · intro h; simp at h
  | cons c cs ih =>
    cases b with
    | nil =>
      simp only [dbgCmp]
      constructor
      · intro h; exact absurd (hz c (by omega)) (fun e => ha (by simp [e]))
      · intro h; simp at h
    | cons d ds =>
      simp only [dbgCmp]
      simp only [List.mem_cons, not_or] at ha hb
      by_cases e : c = d
      · rw [if_pos e, e]; simpa using ih ha.2 hb.2
      · rw [if_neg e]
        constructor
        · intro h
          exact absurd (Char.ext (UInt32.toNat_inj.mp (show c.toNat = d.toNat by omega))) e
        · intro h; exact absurd (List.cons.inj h).1 e

theorem dbgCmp_trans {a b c : Str} (ha : '\x00' ∉ a) (hb : '\x00' ∉ b) (hc : '\x00' ∉ c) (h1 : dbgCmp a b < 0)
    (h2 : dbgCmp b c < 0) : dbgCmp a c < 0 := by
  have hz : ∀ c : Char, c ≠ '\x00' → 0 < c.toNat := by
    intro c h
    rcases Nat.eq_zero_or_pos c.toNat with e | e
    · exact absurd (Char.ext (UInt32.toNat_inj.mp (show c.val.toNat = ('\x00' : Char).val.toNat from e))) h
    · exact e
  have hi : ∀ c d : Char, c ≠ d → c.toNat ≠ d.toNat := by
    intro c d h e
    exact h (Char.ext (UInt32.toNat_inj.mp e))
  induction a generalizing b c with
  | nil =>
    cases c with
    | nil => cases b <;> simp only [dbgCmp] at h1 h2 <;> omega
    | cons z c =>
      simp only [List.mem_cons, not_or] at hc
      have := hz z (fun e => hc.1 e.symm)
      simp only [dbgCmp]; omega
  | cons x a ih =>
    cases b with
    | nil => simp only [dbgCmp] at h1; omega
    | cons y b =>
      cases c with
      | nil => simp only [dbgCmp] at h2; omega
      | cons z c =>
        simp only [List.mem_cons, not_or] at ha hb hc
        simp only [dbgCmp] at h1 h2 ⊢
        by_cases e1 : x = y
        · subst e1
          rw [if_pos rfl] at h1
          by_cases e2 : x = z
          · subst e2
            rw [if_pos rfl] at h2 ⊢
            exact ih ha.2 hb.2 hc.2 h1 h2
          · rw [if_neg e2] at h2 ⊢; exact h2
        · rw [if_neg e1] at h1
          by_cases e2 : y = z
          · subst e2
            rw [if_neg e1]; exact h1
          · rw [if_neg e2] at h2
            by_cases e3 : x = z
            · subst e3; omega
            · rw [if_neg e3]; omega

/-- A search that stops early misses nothing when the table is sorted. -/
theorem sortedFind_iff {α} {key : α → Str} {tbl : List α} {name : Str} (hn : '\x00' ∉ name)
    (hk : ∀ e ∈ tbl, '\x00' ∉ key e) (hs : tbl.Pairwise fun a b => dbgCmp (key a) (key b) < 0) (e : α) :
    sortedFind name key tbl = some e ↔ e ∈ tbl ∧ key e = name := by
  induction tbl with
  | nil => simp [sortedFind]
  | cons x tbl ih =>
    rw [List.pairwise_cons] at hs
    have hx := hk x (List.mem_cons_self ..)
    have hk' : ∀ e ∈ tbl, '\x00' ∉ key e := fun e he => hk e (List.mem_cons_of_mem _ he)
    simp only [sortedFind]
    have irr : ∀ y ∈ tbl, key y = key x → False := by
      intro y hy e
      have := hs.1 y hy
      rw [e, (dbgCmp_eq_zero hx hx).mpr rfl] at this
      omega
    by_cases h0 : dbgCmp name (key x) = 0
    · rw [if_pos h0]
      have e0 := (dbgCmp_eq_zero hn hx).mp h0
      constructor
      · intro h; cases h; exact ⟨List.mem_cons_self .., e0.symm⟩
      · rintro ⟨h, he⟩
        rcases List.mem_cons.mp h with rfl | h
        · rfl
        · exact (irr e h (he.trans e0)).elim
    · rw [if_neg h0]
      have hne : key x ≠ name := fun h => h0 ((dbgCmp_eq_zero hn hx).mpr h.symm)
      by_cases h1 : dbgCmp name (key x) < 0
      · rw [if_pos h1]
        constructor
        · intro h; simp at h
        · rintro ⟨h, he⟩
          rcases List.mem_cons.mp h with rfl | h
          · exact absurd he hne
          · have := dbgCmp_trans hn hx (hk' e h) h1 (hs.1 e h)
            rw [(dbgCmp_eq_zero hn (hk' e h)).mpr he.symm] at this
            omega
      · rw [if_neg h1, ih hk' hs.2]
        constructor
        · rintro ⟨h, he⟩; exact ⟨List.mem_cons_of_mem _ h, he⟩
        · rintro ⟨h, he⟩
          rcases List.mem_cons.mp h with rfl | h
          · exact absurd he hne
          · exact ⟨h, he⟩

theorem findCommand_iff {w : Str} (hn : '\x00' ∉ w) (c : Char) : findCommand w = some c ↔ Means w c := by
  have ha : ∀ e, sortedFind w (·.2) dbgAliases = some e ↔ e ∈ dbgAliases ∧ e.2 = w :=
    sortedFind_iff hn (by decide) (by decide)
  have hc : ∀ v : Str, '\x00' ∉ v → ∀ e, sortedFind v (·.1) dbgCommands = some e ↔ e ∈ dbgCommands ∧ e.1 = v :=
    fun v hv => sortedFind_iff hv (by decide) (by decide)
  have hdisj : ∀ a ∈ dbgAliases, ∀ e ∈ dbgCommands, e.1 ≠ a.2 := by decide
  have hz : ∀ a ∈ dbgAliases, '\x00' ∉ a.1 := by decide
  simp only [findCommand]
  cases hs : sortedFind w (·.2) dbgAliases with
  | some e =>
    obtain ⟨he, rfl⟩ := (ha e).mp hs
    simp only [Option.map_eq_some_iff]
    constructor
    · rintro ⟨f, hf, rfl⟩
      obtain ⟨hf, he1⟩ := (hc _ (hz e he) f).mp hf
      exact .alias (n := e.1) he (by rw [← he1]; exact hf)
    · intro h
      generalize hw : e.2 = w at h
      cases h with
      | name h => exact absurd hw.symm (hdisj e he _ h)
      | alias h1 h2 =>
        rename_i n
        have := (ha (n, w)).mpr ⟨h1, hw.symm⟩
        rw [hs] at this
        cases this
        exact ⟨_, (hc _ (hz _ he) _).mpr ⟨h2, rfl⟩, rfl⟩
  | none =>
    simp only [Option.map_eq_some_iff]
    constructor
    · rintro ⟨f, hf, rfl⟩
      obtain ⟨hf', e'⟩ := (hc w hn f).mp hf
      rw [← e']
      exact .name hf'
    · intro h
      cases h with
      | name h => exact ⟨_, (hc w hn _).mpr ⟨h, rfl⟩, rfl⟩
      | alias h1 h2 =>
        rename_i n
        have := (ha (n, w)).mpr ⟨h1, rfl⟩
        rw [hs] at this; simp at this

/-- C66: a word of several characters selects the command it names, directly or as an alias, and a
single character the command with that letter; nothing else selects one.  Partial: a single
character is not looked up among the aliases (see `C66_dead_aliases`). -/
theorem C66_command_partial (w : Str) (c : Char) (hw : WhiteFree w) (hn : '\x00' ∉ w) :
    (executeLine w).1 = some c ↔
      (2 ≤ w.length ∧ Means w c) ∨ (w = [c] ∧ ∃ n, (n, c) ∈ dbgCommands) := by
  have wtrim : Trimmed w := by
    constructor
    · intro c hc; exact hw.2 c (List.mem_of_mem_head? hc)
    · intro c hc; exact hw.2 c (List.mem_of_mem_getLast? hc)
  have e2 : stripwhite w = w := by
    have := stripwhite_trim (a := []) (b := []) (s := w) (by simp) (by simp) wtrim
    simpa using this
  have e3 : getWord w = (w, []) := by
    have := getWord_split (t := []) hw (by simp)
    simpa using this
  have hl : ∀ c, c ∈ dbgLetters ↔ ∃ n, (n, c) ∈ dbgCommands := by
    intro c
    have : dbgLetters = dbgCommands.map (·.2) := by decide
    rw [this, List.mem_map]
    constructor
    · rintro ⟨⟨n, d⟩, h, rfl⟩; exact ⟨n, h⟩
    · rintro ⟨n, h⟩; exact ⟨(n, c), h, rfl⟩
  simp only [executeLine, e2, e3]
  match w, hw with
  | [], hw => exact absurd rfl hw.1
  | [d], _ =>
    simp only
    constructor
    · intro h
      split at h
      · rename_i hd
        cases h
        exact Or.inr ⟨rfl, (hl _).mp hd⟩
      · simp at h
    · rintro (h | ⟨h, h2⟩)
      · simp at h
      · cases h
        rw [if_pos ((hl _).mpr h2)]
  | d :: d' :: ds, _ =>
    simp only
    rw [findCommand_iff hn]
    constructor
    · intro h; exact Or.inl ⟨by simp, h⟩
    · rintro (⟨_, h⟩ | ⟨h, _⟩)
      · exact h
      · simp at h

/-- C66: no word selects two commands. -/
theorem C66_unambiguous (w : Str) (c d : Char) (hn : '\x00' ∉ w) (hc : Means w c) (hd : Means w d) : c = d := by
  rw [← findCommand_iff hn] at hc hd
  rw [hc] at hd
  exact Option.some.inj hd

example : (executeLine "bt".toList).1 = some 'T' ∧ (executeLine "expand".toList).1 = some 'x' ∧
    (executeLine "x".toList).1 = some 'x' ∧ (executeLine "expandx".toList).1 = none := by decide

/-- C66 is violated here: the one-character aliases `?` (for `help`) and `L` (for `break`) are in
the table but select nothing. -/
theorem C66_dead_aliases : Means "?".toList 'h' ∧ (executeLine "?".toList).1 = none ∧
    Means "L".toList 'b' ∧ (executeLine "L".toList).1 = none :=
  ⟨.alias (n := "help".toList) (by decide) (by decide), by decide,
   .alias (n := "break".toList) (by decide) (by decide), by decide⟩

end Remake
