import Verif.Jobs.Model
/-! Invariants of one make and of all makes. -/
set_option linter.unusedSimpArgs false
namespace Remake

/-- The tokens of a make that came from the pipe. -/
def Proc.held (p : Proc) : Nat := p.tokens - 1

/-- The makes run by the commands of a make. -/
def Proc.makes (p : Proc) : Nat := (p.children.map (·.makes)).sum

/-- The counters of a make agree with its lists. -/
structure PInv (p : Proc) : Prop where
  tokens : p.tokens = p.children.length + p.waiting.length
  used : p.used = p.children.countP (·.jobslot)
  idle : ∀ c ∈ p.waiting, c.jobslot = false ∧ c.makes = 0

theorem freeChild_ok {p : Proc} (h : 0 < p.tokens) :
    ∃ r, freeChild p = some ({ p with tokens := p.tokens - 1 }, r) ∧
      (p.server = true → (p.tokens - 1 - 1) + r = p.tokens - 1) := by
  unfold freeChild
  rw [if_neg (by omega)]
  refine ⟨_, rfl, fun hs => ?_⟩
  by_cases h1 : 1 < p.tokens
  · simp [hs, h1]; omega
  · simp [hs, h1]; omega

theorem freeChild_eq {p p' : Proc} {r : Nat} (h : freeChild p = some (p', r)) :
    0 < p.tokens ∧ p' = { p with tokens := p.tokens - 1 } ∧
      r = if p.server && decide (1 < p.tokens) then 1 else 0 := by
  unfold freeChild at h
  split at h
  · cases h
  · simp only [Option.some.injEq, Prod.mk.injEq] at h
    exact ⟨by omega, h.1.symm, h.2.symm⟩

/-- A job is started by a make that has already counted it: there is one token more than
children. -/
theorem startWaitingJob_inv {p p' : Proc} {r : Nat} {c : Kid} {high : Bool} {s : Started}
    (ht : p.tokens = p.children.length + p.waiting.length + 1)
    (hu : p.used = p.children.countP (·.jobslot))
    (hi : ∀ c ∈ p.waiting, c.jobslot = false ∧ c.makes = 0)
    (hc1 : c.jobslot = false) (hc2 : c.makes = 0)
    (h : startWaitingJob p c high s = some (p', r)) :
    PInv p' ∧ p'.makes = p.makes ∧ p'.slots = p.slots ∧ p'.server = p.server ∧
      p'.serial = p.serial ∧ p'.waitFor = p.waitFor ∧
      (p.server = true → p'.held + r = p.held) ∧
      (∀ d ∈ p'.children ++ p'.waiting, d ∈ p.children ++ p.waiting ∨ d.file = c.file) ∧
      p'.children.length + p'.waiting.length ≤ p.children.length + p.waiting.length + 1 := by
  unfold startWaitingJob at h
  split at h
  · simp only [Option.some.injEq, Prod.mk.injEq] at h
    obtain ⟨rfl, rfl⟩ := h
    refine ⟨⟨by simp [ht]; omega, hu, ?_⟩, rfl, rfl, rfl, rfl, rfl, fun _ => rfl, ?_, by simp; omega⟩
    · intro d hd
      rcases List.mem_cons.1 hd with rfl | hd
      · exact ⟨hc1, hc2⟩
      · exact hi d hd
    · intro d hd
      simp only [List.mem_append, List.mem_cons] at hd ⊢
      rcases hd with hd | rfl | hd
      · exact .inl (.inl hd)
      · exact .inr rfl
      · exact .inl (.inr hd)
  · split at h
    · have hmem : ∀ (k : Kid), k.file = c.file → ∀ d ∈ (k :: p.children) ++ p.waiting,
          d ∈ p.children ++ p.waiting ∨ d.file = c.file := by
        intro k hk d hd
        simp only [List.mem_append, List.mem_cons] at hd ⊢
        rcases hd with (rfl | hd) | hd
        · exact .inr hk
        · exact .inl (.inl hd)
        · exact .inl (.inr hd)
      split at h
      · simp only [Option.some.injEq, Prod.mk.injEq] at h
        obtain ⟨rfl, rfl⟩ := h
        exact ⟨⟨by simp [ht]; omega, by simp [hu], hi⟩, by simp [Proc.makes, hc2], rfl, rfl, rfl, rfl,
          fun _ => rfl, hmem _ rfl, by simp; omega⟩
      · simp only [Option.some.injEq, Prod.mk.injEq] at h
        obtain ⟨rfl, rfl⟩ := h
        exact ⟨⟨by simp [ht]; omega, by simp [hu, hc1], hi⟩, by simp [Proc.makes, hc2], rfl, rfl, rfl,
          rfl, fun _ => rfl, hmem _ rfl, by simp; omega⟩
    · obtain ⟨h1, rfl, rfl⟩ := freeChild_eq h
      refine ⟨⟨by simp [ht], hu, hi⟩, rfl, rfl, rfl, rfl, rfl, fun hs => ?_, fun d hd => .inl hd,
        by simp⟩
      unfold Proc.held
      by_cases h2 : 1 < p.tokens
      · simp [hs, h2]; omega
      · simp [hs, h2]; omega

theorem startWaitingJob_some (p : Proc) (c : Kid) (high : Bool) (s : Started) (h : 0 < p.tokens) :
    (startWaitingJob p c high s).isSome := by
  unfold startWaitingJob
  split
  · rfl
  · split
    · split <;> rfl
    · obtain ⟨r, hr, -⟩ := freeChild_ok h
      rw [hr]; rfl

theorem sum_makes_set {l : List Kid} {i : Nat} {c d : Kid} (h : l[i]? = some c)
    (hd : d.makes = c.makes) : ((l.set i d).map (·.makes)).sum = (l.map (·.makes)).sum := by
  induction l generalizing i with
  | nil => simp at h
  | cons x l ih =>
    cases i with
    | zero =>
      simp at h
      subst h
      simp [hd]
    | succ i =>
      simp at h
      rw [List.set_cons_succ, List.map_cons, List.map_cons, List.sum_cons, List.sum_cons, ih h]

theorem count_set {l : List Kid} {i : Nat} {c d : Kid} (h : l[i]? = some c)
    (hd : d.jobslot = c.jobslot) : (l.set i d).countP (·.jobslot) = l.countP (·.jobslot) := by
  induction l generalizing i with
  | nil => simp at h
  | cons x l ih =>
    cases i with
    | zero =>
      simp at h
      subst h
      simp [List.countP_cons, hd]
    | succ i =>
      simp at h
      simp [List.countP_cons, ih h]

theorem sum_makes_erase {l : List Kid} {i : Nat} {c : Kid} (h : l[i]? = some c) :
    ((l.eraseIdx i).map (·.makes)).sum + c.makes = (l.map (·.makes)).sum := by
  induction l generalizing i with
  | nil => simp at h
  | cons x l ih =>
    cases i with
    | zero =>
      simp at h
      subst h
      simp; omega
    | succ i =>
      simp at h
      have := ih h
      simp; omega

theorem count_erase {l : List Kid} {i : Nat} {c : Kid} (h : l[i]? = some c) :
    (l.eraseIdx i).countP (·.jobslot) + c.jobslot.toNat = l.countP (·.jobslot) := by
  induction l generalizing i with
  | nil => simp at h
  | cons x l ih =>
    cases i with
    | zero =>
      simp at h
      subst h
      cases hx : x.jobslot <;> simp [List.countP_cons, hx]
    | succ i =>
      simp at h
      have := ih h
      simp [List.countP_cons]; omega

theorem length_erase {l : List Kid} {i : Nat} {c : Kid} (h : l[i]? = some c) :
    (l.eraseIdx i).length + 1 = l.length := by
  have hi : i < l.length := by
    rcases Nat.lt_or_ge i l.length with h1 | h1
    · exact h1
    · rw [List.getElem?_eq_none h1] at h; cases h
  rw [List.length_eraseIdx_of_lt hi]; omega

theorem reapKid_inv {p p' : Proc} {r i : Nat} {c : Kid} {again : Option Int} (hp : PInv p)
    (hc : p.children[i]? = some c) (hm : c.makes = 0) (h : reapKid p i again = some (p', r)) :
    PInv p' ∧ p'.makes = p.makes ∧ p'.slots = p.slots ∧ p'.server = p.server ∧
      p'.serial = p.serial ∧ p'.waitFor = p.waitFor ∧
      (p.server = true → p'.held + r = p.held) ∧
      (∀ d ∈ p'.children ++ p'.waiting, ∃ e ∈ p.children ++ p.waiting, d.file = e.file) ∧
      p'.children.length + p'.waiting.length ≤ p.children.length + p.waiting.length := by
  unfold reapKid at h
  rw [hc] at h
  simp only at h
  cases again with
  | some pid =>
    simp only [Option.some.injEq, Prod.mk.injEq] at h
    obtain ⟨rfl, rfl⟩ := h
    refine ⟨⟨by simp [hp.tokens], by simp [hp.used, count_set hc], hp.idle⟩,
      sum_makes_set hc rfl, rfl, rfl, rfl, rfl, fun _ => rfl, ?_, by simp⟩
    intro d hd
    rcases List.mem_append.1 hd with hd | hd
    · rcases List.mem_or_eq_of_mem_set hd with hd | rfl
      · exact ⟨d, by simp [hd], rfl⟩
      · exact ⟨c, by simp [List.mem_of_getElem? hc], rfl⟩
    · exact ⟨d, by simp [hd], rfl⟩
  | none =>
    simp only at h
    obtain ⟨h1, rfl, rfl⟩ := freeChild_eq h
    have hl := length_erase hc
    have hcn := count_erase hc
    simp only at h1
    refine ⟨⟨by simp [hp.tokens]; omega, ?_, hp.idle⟩, ?_, rfl, rfl, rfl, rfl, fun hs => ?_, ?_, ?_⟩
    · simp only
      rw [hp.used]
      split <;> omega
    · have := sum_makes_erase hc
      simp [Proc.makes]; omega
    · unfold Proc.held
      simp only
      by_cases h2 : 1 < p.tokens
      · simp [hs, h2]; omega
      · simp [hs, h2]; omega
    · intro d hd
      rcases List.mem_append.1 hd with hd | hd
      · exact ⟨d, by simp [List.mem_of_mem_eraseIdx hd], rfl⟩
      · exact ⟨d, by simp [hd], rfl⟩
    · simp; omega

theorem reapKid_some {p : Proc} (hp : PInv p) (i : Nat) (again : Option Int) :
    (reapKid p i again).isSome := by
  unfold reapKid
  cases hc : p.children[i]? with
  | none => rfl
  | some c =>
    cases again with
    | some pid => rfl
    | none =>
      simp only
      have hl := length_erase hc
      have : 0 < p.tokens := by rw [hp.tokens]; omega
      unfold freeChild
      simp only
      rw [if_neg (by omega)]
      rfl

/-- A step of one make. -/
theorem pstep_inv {calm : Bool} {p p' : Proc} {t r : Nat} (hp : PInv p) (h : PStep calm p t r p') :
    PInv p' ∧ p'.makes = p.makes ∧ p'.slots = p.slots ∧ p'.server = p.server ∧
      p'.serial = p.serial ∧
      (p.slots = 0 → p.server = true → p'.held + r = p.held + t) := by
  cases h with
  | @newFree _ _ c high s hw hc1 hc2 hf hcalm h =>
    unfold startNew at h
    simp only [Option.map_eq_some_iff] at h
    obtain ⟨⟨q, r'⟩, h1, h2⟩ := h
    simp only [Prod.mk.injEq] at h2
    obtain ⟨rfl, rfl⟩ := h2
    obtain ⟨a1, a2, a3, a4, a5, a6, a7, -⟩ := startWaitingJob_inv
      (p := { p with tokens := p.tokens + 1 }) (by simp [hp.tokens]) hp.used hp.idle hc1 hc2 h1
    refine ⟨⟨a1.tokens, a1.used, a1.idle⟩, a2, a3, a4, a5, fun hs hsv => ?_⟩
    have := a7 hsv
    unfold freeToStart at hf
    simp only [hs, ne_eq, not_true_eq_false, if_false, hsv, Bool.not_true, Bool.false_or,
      decide_eq_true_eq] at hf
    simp only [Proc.held, hf] at this ⊢
    omega
  | @newToken _ _ c high s hw hc1 hc2 hf hcalm h =>
    unfold startNew at h
    simp only [Option.map_eq_some_iff] at h
    obtain ⟨⟨q, r'⟩, h1, h2⟩ := h
    simp only [Prod.mk.injEq] at h2
    obtain ⟨rfl, rfl⟩ := h2
    obtain ⟨a1, a2, a3, a4, a5, a6, a7, -⟩ := startWaitingJob_inv
      (p := { p with tokens := p.tokens + 1 }) (by simp [hp.tokens]) hp.used hp.idle hc1 hc2 h1
    refine ⟨⟨a1.tokens, a1.used, a1.idle⟩, a2, a3, a4, a5, fun hs hsv => ?_⟩
    have := a7 hsv
    simp [needsToken] at hf
    simp only [Proc.held] at this ⊢
    omega
  | @wait _ _ high s hcalm h =>
    unfold startWaiting at h
    split at h
    · simp only [Option.some.injEq, Prod.mk.injEq] at h
      obtain ⟨rfl, rfl⟩ := h
      exact ⟨hp, rfl, rfl, rfl, rfl, fun _ _ => rfl⟩
    · rename_i c cs hw
      obtain ⟨a1, a2, a3, a4, a5, a6, a7, -⟩ := startWaitingJob_inv
        (p := { p with waiting := cs }) (by simp only; rw [hp.tokens, hw]; simp; omega) hp.used
        (fun d hd => hp.idle d (by rw [hw]; exact List.mem_cons_of_mem _ hd))
        (hp.idle c (by rw [hw]; simp)).1 (hp.idle c (by rw [hw]; simp)).2 h
      exact ⟨a1, a2, a3, a4, a5, fun hs hsv => a7 hsv⟩
  | @reap _ _ i c again hc hm h =>
    obtain ⟨a1, a2, a3, a4, a5, a6, a7, -⟩ := reapKid_inv hp hc hm h
    exact ⟨a1, a2, a3, a4, a5, fun hs hsv => a7 hsv⟩
  | done hw hr => exact ⟨⟨hp.tokens, hp.used, hp.idle⟩, rfl, rfl, rfl, rfl, fun _ _ => rfl⟩

/-! ## All makes -/

theorem modify_eq_set {l : List Kid} {i n : Nat} {c : Kid} (h : l[i]? = some c) :
    l.modify i (fun c => { c with makes := n }) = l.set i { c with makes := n } := by
  induction l generalizing i with
  | nil => simp at h
  | cons x l ih =>
    cases i with
    | zero => simp at h; subst h; simp
    | succ i => simp at h; simp [ih h]

theorem sum_makes_set' {l : List Kid} {i : Nat} {c d : Kid} (h : l[i]? = some c) :
    ((l.set i d).map (·.makes)).sum + c.makes = (l.map (·.makes)).sum + d.makes := by
  induction l generalizing i with
  | nil => simp at h
  | cons x l ih =>
    cases i with
    | zero =>
      simp at h
      subst h
      simp; omega
    | succ i =>
      simp at h
      have := ih h
      rw [List.set_cons_succ, List.map_cons, List.map_cons, List.sum_cons, List.sum_cons]
      omega

theorem setMakes_inv {p : Proc} {i n : Nat} {c : Kid} (hp : PInv p) (h : p.children[i]? = some c) :
    PInv (setMakes p i n) ∧ (setMakes p i n).makes + c.makes = p.makes + n ∧
      (setMakes p i n).held = p.held := by
  unfold setMakes
  rw [modify_eq_set h]
  exact ⟨⟨by simp [hp.tokens], by simp [hp.used, count_set h], hp.idle⟩,
    sum_makes_set' (d := { c with makes := n }) h, rfl⟩

/-- A make that uses the job server. -/
structure CInv (p : Proc) : Prop where
  inv : PInv p
  slots : p.slots = 0
  server : p.server = true

/-- The tokens held by some makes. -/
def heldBy (l : List Proc) : Nat := (l.map Proc.held).sum

/-- The makes run by some makes. -/
def makesBy (l : List Proc) : Nat := (l.map Proc.makes).sum

/-- All tokens are there; every make but the master is run by a command. -/
structure WInv (slots : Nat) (w : World) : Prop where
  each : ∀ p ∈ w.procs, CInv p
  tokens : w.pipe + heldBy w.procs = slots - 1
  makes : 1 + makesBy w.procs = w.procs.length

/-- A make ends with status 2 or after all its jobs. -/
def Orderly (q : Proc) (status : Nat) : Prop := status = 2 ∨ q.children = [] ∧ q.waiting = []

theorem heldBy_mid (a b : List Proc) (p : Proc) :
    heldBy (a ++ p :: b) = heldBy a + p.held + heldBy b := by
  simp [heldBy]; omega

theorem makesBy_mid (a b : List Proc) (p : Proc) :
    makesBy (a ++ p :: b) = makesBy a + p.makes + makesBy b := by
  simp [makesBy]; omega

theorem sum_erase {f : Proc → Nat} {l : List Proc} {k : Nat} {q : Proc} (h : l[k]? = some q) :
    ((l.eraseIdx k).map f).sum + f q = (l.map f).sum := by
  induction l generalizing k with
  | nil => simp at h
  | cons x l ih =>
    cases k with
    | zero => simp at h; subst h; simp; omega
    | succ k => simp at h; have := ih h; simp; omega

theorem wstep_inv {slots : Nat} {w w' : World} (hw : WInv slots w) (h : WStep Orderly w w') :
    WInv slots w' := by
  cases h with
  | @one a b p p' t r pipe h =>
    have hp := hw.each p (by simp)
    obtain ⟨h1, h2, h3, h4, h5, h6⟩ := pstep_inv hp.inv h
    have h7 := h6 hp.slots hp.server
    refine ⟨?_, ?_, ?_⟩
    · intro q hq
      simp only [List.mem_append, List.mem_cons] at hq
      rcases hq with hq | rfl | hq
      · exact hw.each q (by simp [hq])
      · exact ⟨h1, h3.trans hp.slots, h4.trans hp.server⟩
      · exact hw.each q (by simp [hq])
    · have := hw.tokens
      simp only [heldBy_mid] at this ⊢
      omega
    · have := hw.makes
      simp only [makesBy_mid, List.length_append, List.length_cons] at this ⊢
      omega
  | @enter a b p i pipe c serial hc hpid =>
    have hp := hw.each p (by simp)
    obtain ⟨h1, h2, h3⟩ := setMakes_inv (n := c.makes + 1) hp.inv hc
    refine ⟨?_, ?_, ?_⟩
    · intro q hq
      simp only [List.mem_append, List.mem_cons, List.not_mem_nil, or_false] at hq
      rcases hq with (hq | rfl | hq) | rfl
      · exact hw.each q (by simp [hq])
      · exact ⟨h1, hp.slots, hp.server⟩
      · exact hw.each q (by simp [hq])
      · exact ⟨⟨rfl, rfl, by simp [clientProc]⟩, rfl, rfl⟩
    · have := hw.tokens
      have e : a ++ setMakes p i (c.makes + 1) :: b ++ [clientProc serial] =
        a ++ setMakes p i (c.makes + 1) :: (b ++ [clientProc serial]) := by simp
      simp only [heldBy_mid] at this
      simp only [e]
      rw [heldBy_mid]
      have h4 : heldBy (b ++ [clientProc serial]) = heldBy b := by
        simp [heldBy, clientProc, Proc.held]
      omega
    · have := hw.makes
      have e : a ++ setMakes p i (c.makes + 1) :: b ++ [clientProc serial] =
        a ++ setMakes p i (c.makes + 1) :: (b ++ [clientProc serial]) := by simp
      simp only [makesBy_mid, List.length_append, List.length_cons] at this
      simp only [e]
      rw [makesBy_mid]
      simp only [List.length_append, List.length_cons, List.length_nil]
      have h4 : makesBy (b ++ [clientProc serial]) = makesBy b := by
        simp [makesBy, clientProc, Proc.makes]
      omega
  | @leave l a b p q k i pipe status c hk hk0 hu hm hok hl hc hcm =>
    have hpm : p ∈ l.eraseIdx k := by rw [hl]; simp
    have hp := hw.each p (List.mem_of_mem_eraseIdx hpm)
    have hq := hw.each q (List.mem_of_getElem? hk)
    obtain ⟨h1, h2, h3⟩ := setMakes_inv (n := c.makes - 1) hp.inv hc
    have hqt : (cleanTokens q status).1 = q.held := by
      unfold cleanTokens Proc.held
      rcases hok with rfl | ⟨h4, h5⟩
      · by_cases h0 : q.tokens = 0 <;> simp [hq.server, h0]
      · have : q.tokens = 0 := by rw [hq.inv.tokens, h4, h5]; rfl
        simp [this]
    have hqm : q.makes = 0 := by
      unfold Proc.makes
      clear hq hqt hok hu hk
      generalize q.children = cs at hm
      induction cs with
      | nil => rfl
      | cons x cs ih =>
        simp only [List.map_cons, List.sum_cons]
        rw [hm x (by simp), ih fun c hc => hm c (by simp [hc])]
    have e1 := sum_erase (f := Proc.held) hk
    have e2 := sum_erase (f := Proc.makes) hk
    have e3 : (l.eraseIdx k).length + 1 = l.length := by
      have hi : k < l.length := by
        rcases Nat.lt_or_ge k l.length with h1 | h1
        · exact h1
        · rw [List.getElem?_eq_none h1] at hk; cases hk
      rw [List.length_eraseIdx_of_lt hi]; omega
    rw [hl] at e1 e2 e3
    refine ⟨?_, ?_, ?_⟩
    · intro x hx
      simp only [List.mem_append, List.mem_cons] at hx
      rcases hx with hx | rfl | hx
      · exact hw.each x (List.mem_of_mem_eraseIdx (by rw [hl]; simp [hx]))
      · exact ⟨h1, hp.slots, hp.server⟩
      · exact hw.each x (List.mem_of_mem_eraseIdx (by rw [hl]; simp [hx]))
    · have := hw.tokens
      have e4 := heldBy_mid a b p
      simp only [heldBy_mid, hqt]
      simp only [heldBy] at this e1 e4 ⊢
      omega
    · have := hw.makes
      have e4 := makesBy_mid a b p
      simp only [makesBy_mid, List.length_append, List.length_cons] at e3 ⊢
      simp only [makesBy] at this e2 e4 ⊢
      omega

theorem reach_inv {slots : Nat} {serial : Bool} {w : World} (h : Reach Orderly slots serial w) :
    WInv slots w := by
  induction h with
  | start =>
    refine ⟨?_, by simp [World.initial, heldBy, Proc.held], by simp [World.initial, makesBy, Proc.makes]⟩
    intro p hp
    simp only [World.initial, List.mem_singleton] at hp
    subst hp
    exact ⟨⟨rfl, rfl, by simp⟩, rfl, rfl⟩
  | step _ hs ih => exact wstep_inv ih hs

end Remake
