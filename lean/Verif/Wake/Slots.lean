import Verif.Wake.Tree
/-! # Sleeping and waking up: tokens (C125) -/
set_option linter.unusedVariables false
set_option linter.unusedSimpArgs false
namespace Remake
open Spec

theorem held_free {m : WMake} (h : m.tokens ≠ 0) (hp : m.pc ≠ .start) : m.free.2 + Held m.free.1 = Held m := by
  simp only [WMake.free, h, if_false, Held]
  simp only [hp, false_and, if_false]
  split <;> omega

theorem held_startJob {m : WMake} {more : Nat} {high : Bool} {s : WStarted} (h : m.tokens ≠ 0) (hp : m.pc ≠ .start) :
    (m.startJob more high s).2 + Held (m.startJob more high s).1 = Held m := by
  unfold WMake.startJob
  split
  · simp [Held]
  · cases s with
    | finished => exact held_free h hp
    | _ => simp [Held]

theorem held_own {calm : Bool} {m m' : WMake} {p p' : Nat} (h : WakeInv calm m) (hs : WOwn calm m p m' p') : p' + Held m' = p + Held m := by
  cases hs with
  | again hr hk ho hm hst => rfl
  | remove hr hk ho =>
    rename_i i k fails
    have ht : m.tokens ≠ 0 := by
      rw [h.tokens]
      have := List.length_pos_of_mem (List.mem_of_getElem? hk)
      omega
    have hpc : m.pc.reaped fails ≠ .start := by
      unfold WPc.reaped
      rcases hr with e | e | e | e | e <;> rw [e] <;> cases fails <;> simp
    have hpc2 : m.pc ≠ .start := by
      rcases hr with e | e | e | e | e <;> rw [e] <;> simp
    have := held_free (m := { m with pc := m.pc.reaped fails, used := if 0 < m.used then m.used - k.slot.toNat else m.used, kids := m.kids.eraseIdx i }) ht hpc
    have h2 : Held { m with pc := m.pc.reaped fails, used := if 0 < m.used then m.used - k.slot.toNat else m.used, kids := m.kids.eraseIdx i } = Held m := by
      simp [Held, hpc, hpc2]
    rw [h2] at this
    rw [Nat.add_assoc]
    exact congrArg (p + ·) this
  | queueStart hp hw hst =>
    rename_i more r high s
    have ht : m.tokens ≠ 0 := by rw [h.tokens, hw]; simp
    have hpc2 : m.pc ≠ .start := by rcases hp with e | e <;> rw [e] <;> simp
    have hpc : (m.dequeue r high).pc ≠ .start := by
      unfold WMake.dequeue
      simp only
      split
      · simp
      · split <;> simp
    have h1 := held_startJob (m := m.dequeue r high) (more := more) (high := high) (s := s) ht hpc
    have h2 : Held (m.dequeue r high) = Held m := by
      unfold Held
      rw [if_neg (fun g => hpc g.1), if_neg (fun g => hpc2 g.1)]
      rfl
    omega
  | start hp hst =>
    rename_i more high s
    have h1 := held_startJob (m := { m with tokens := m.tokens + 1, pc := .busy }) (more := more) (high := high) (s := s) (by simp) (by simp)
    have h2 : Held { m with tokens := m.tokens + 1, pc := .busy } = Held m := by
      simp only [Held, hp]
      by_cases h0 : m.tokens = 0 <;> simp [h0] <;> omega
    omega
  | topFree hp ht => simp [Held, hp, ht]
  | checkFree hp ht => simp [Held, hp, ht]
  | selToken hp =>
    have hk := h.kept (by simp [WPc.kept, hp])
    have ht : m.tokens ≠ 0 := by
      rw [h.tokens]
      have := List.length_pos_iff.mpr hk
      omega
    simp [Held, hp, ht]; omega
  | readToken hp hr hf =>
    have hk := h.kept (by simp [WPc.kept, hp])
    have ht : m.tokens ≠ 0 := by
      rw [h.tokens]
      have := List.length_pos_iff.mpr hk
      omega
    simp [Held, hp, ht]; omega
  | dup hp => by_cases hc : (m.trad && !m.rfd) = true <;> simp [Held, hp, hc]
  | queue hp => by_cases hw : m.waiting = [] <;> simp [Held, hp, hw]
  | checkMore hp _ _ => cases ht : m.trad <;> simp [Held, hp]
  | signal htr h1 h2 h3 =>
    rename_i interrupt
    by_cases hi : (interrupt && decide (m.pc = .read)) = true
    · have hi' : m.pc = .read := by simp at hi; exact hi.2
      simp [Held, hi']
      split <;> simp_all
    · rw [if_neg hi]
      rfl
  | _ => simp_all [Held]

theorem held_env {m m' : WMake} (hs : WEnv m m') : Held m' = Held m := by
  cases hs with
  | alarm ht =>
    by_cases hi : m.pc = .read
    · simp [Held, hi]
    · simp [Held, hi]
  | _ => simp_all [Held]

theorem sum_set (l : List WMake) (i : Nat) (m m' : WMake) (h : l[i]? = some m) :
    ((l.set i m').map Held).sum + Held m = (l.map Held).sum + Held m' := by
  induction l generalizing i with
  | nil => simp at h
  | cons a l ih =>
    cases i with
    | zero => simp at h; subst h; simp only [List.set_cons_zero, List.map_cons, List.sum_cons]; omega
    | succ i =>
      have := ih i (by simpa using h)
      simp only [List.set_cons_succ, List.map_cons, List.sum_cons]
      omega

/-- No token is lost and none is made. -/
theorem held_tree {calm : Bool} {slots : Nat} {w : WWorld} (h : WTree calm slots w) : w.pipe + (w.makes.map Held).sum = slots := by
  induction h with
  | init => rfl
  | own hw hi ho ih =>
    rename_i w i m m' p'
    have h3 := held_own (tree_inv hw _ _ hi).1 ho
    have h4 := sum_set w.makes i m m' hi
    show p' + ((w.makes.set i m').map Held).sum = _
    omega
  | env hw hi ho ih =>
    rename_i w i m m'
    have h3 := held_env ho
    have h4 := sum_set w.makes i m m' hi
    show w.pipe + ((w.makes.set i m').map Held).sum = _
    omega
  | enters hw hi hk hp ih =>
    rename_i w i m n k subs trad'
    have h4 := sum_set w.makes i m (m.enters n w.makes.length k subs) hi
    have h5 : Held (m.enters n w.makes.length k subs) = Held m := rfl
    have h6 : Held (WMake.init trad') = 0 := rfl
    show w.pipe + ((w.makes.set i (m.enters n w.makes.length k subs) ++ [WMake.init trad']).map Held).sum = _
    simp only [List.map_append, List.map_cons, List.map_nil, List.sum_append, List.sum_cons, List.sum_nil, h6]
    omega

end Remake
