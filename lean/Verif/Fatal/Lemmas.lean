import Verif.Fatal.Model

/-!
# Fatal signals: lemmas

Invariants of `FStep`: the counts, and which process belongs to which job.
-/
set_option linter.unusedVariables false
set_option linter.unusedSimpArgs false
namespace Remake

/-- Signals are blocked here. -/
def FPc.crit : FPc → Bool
  | .fresh | .forked | .counted | .chained | .next _ | .nextForked | .remove _ | .uncounted _ | .unchained | .freed => true
  | _ => false

/-- The job `reap_children` is working on. -/
def FPc.cur : FPc → Option Nat
  | .dead i | .next i | .remove i | .uncounted i => some i
  | _ => none

/-- A slot that is counted and not on the chain. -/
def FState.extra (s : FState) : Nat :=
  match s.pc, s.hand with
  | .counted, some c => c.slot.toNat
  | _, _ => 0

/-- A slot that is on the chain and not counted. -/
def FState.off (s : FState) : Nat :=
  match s.pc with
  | .uncounted i => match s.kids[i]? with
    | some c => c.slot.toNat
    | none => 0
  | _ => 0

/-- What the job in hand looks like. -/
def FState.handOk (s : FState) : Prop :=
  match s.pc, s.hand with
  | .got, some c => c.pid = none ∧ c.slot = false
  | .fresh, some c => c.pid = none ∧ c.slot = false ∧ c.deleted = false
  | .forked, some c => c.slot = false ∧ c.deleted = false ∧ c.late = !c.pid.isSome
  | .counted, some c => c.slot = c.pid.isSome ∧ c.deleted = false ∧ c.late = !c.pid.isSome
  | .unchained, some c => True
  | .got, none | .fresh, none | .forked, none | .counted, none | .unchained, none => False
  | .dloop, _ | .dreap _, _ | .gone _, _ => True
  | _, h => h = none

structure FCounts (s : FState) : Prop where
  blk : s.blocked = s.pc.crit
  idx : ∀ i, s.pc.cur = some i → i < s.kids.length
  hand : s.handOk
  wait : ∀ c ∈ s.waiting, c.pid = none ∧ c.slot = false
  cnt : s.used + s.off = s.kids.countP (·.slot) + s.extra
  late : ∀ c ∈ s.kids, c.slot = !c.late
  tok : s.tokens = s.kids.length + s.waiting.length + s.hand.toList.length
  owed : s.owed = s.tokens - 1

theorem fcounts_init : FCounts {} := by
  constructor <;> simp [FPc.crit, FPc.cur, FState.handOk, FState.off, FState.extra]

theorem f_countP_set (l : List FJob) (i : Nat) (c d : FJob) (h : l[i]? = some c) (hd : d.slot = c.slot) :
    (l.set i d).countP (·.slot) = l.countP (·.slot) := by
  induction l generalizing i with
  | nil => simp at h
  | cons x l ih =>
    cases i with
    | zero => simp at h; subst h; simp [List.countP_cons, hd]
    | succ i => simp at h; simp [List.countP_cons, ih i h]

theorem f_countP_erase (l : List FJob) (i : Nat) (c : FJob) (h : l[i]? = some c) :
    (l.eraseIdx i).countP (·.slot) + c.slot.toNat = l.countP (·.slot) := by
  induction l generalizing i with
  | nil => simp at h
  | cons x l ih =>
    cases i with
    | zero => simp at h; subst h; cases hx : x.slot <;> simp [List.countP_cons, hx]
    | succ i => simp at h; have := ih i h; simp [List.countP_cons]; omega

theorem f_countP_map (l : List FJob) :
    (l.map (fun c => if c.pid.isSome then { c with deleted := true } else c)).countP (·.slot) = l.countP (·.slot) := by
  induction l with
  | nil => rfl
  | cons x l ih => simp only [List.map_cons, List.countP_cons, ih]; split <;> rfl

theorem f_slot_le (l : List FJob) (i : Nat) (c : FJob) (h : l[i]? = some c) : c.slot.toNat ≤ l.countP (·.slot) := by
  have := f_countP_erase l i c h; omega

theorem f_mem_set {l : List FJob} {i : Nat} {d x : FJob} (h : x ∈ l.set i d) : x ∈ l ∨ x = d :=
  List.mem_or_eq_of_mem_set h

theorem f_erase_len {l : List FJob} {i : Nat} {c : FJob} (h : l[i]? = some c) : (l.eraseIdx i).length + 1 = l.length := by
  have := (List.getElem?_eq_some_iff.1 h).1
  rw [List.length_eraseIdx_of_lt this]; omega

/-- Dropping a job keeps the counts. -/
theorem fcounts_drop {s : FState} (h : FCounts s) (hpc : s.pc.crit = false ∧ s.pc.cur = none ∧ s.pc.live = false) {i : Nat} {c : FJob} (hi : s.kids[i]? = some c) :
    FCounts { s.drop i c with pc := .dreap false } := by
  obtain ⟨blk, idx, hand, wait, cnt, late, tok, owed⟩ := h
  have e1 := f_countP_erase _ _ _ hi
  have e2 := f_erase_len hi
  have ho : s.off = 0 := by
    unfold FState.off; cases hp : s.pc <;> simp_all [FPc.crit, FPc.cur]
  have hx : s.extra = 0 := by
    unfold FState.extra; cases hp : s.pc <;> simp_all [FPc.crit, FPc.cur, FPc.live]
  refine ⟨?_, ?_, ?_, ?_, ?_, ?_, ?_, ?_⟩
  · exact blk.trans hpc.1
  · simp [FPc.cur]
  · simp [FState.handOk]
  · simpa [FState.drop, FState.uncount, FState.free] using wait
  · simp [FState.drop, FState.uncount, FState.free, FState.off, FState.extra]
    by_cases hu : 0 < s.used
    · rw [if_pos hu]; omega
    · rw [if_neg hu]; omega
  · intro d hd; exact late d (List.mem_of_mem_eraseIdx hd)
  · simp [FState.drop, FState.uncount, FState.free]; omega
  · show (if 1 < s.tokens then s.owed - 1 else s.owed) = s.tokens - 1 - 1
    by_cases hu : 1 < s.tokens
    · rw [if_pos hu]; omega
    · rw [if_neg hu]; omega

theorem fcounts_step {s t : FState} (h : FCounts s) (st : FStep s t) : FCounts t := by
  cases st
  case dunstarted b i c hp hi hn =>
    exact fcounts_drop h (by simp [hp, FPc.crit, FPc.cur, FPc.live]) hi
  case ddied b p i c hp hk hpp hs hi hn =>
    have h' : FCounts (s.waited p) := by
      obtain ⟨blk, idx, hand, wait, cnt, late, tok, owed⟩ := h
      exact ⟨blk, idx, hand, wait, cnt, late, tok, owed⟩
    exact fcounts_drop (s := s.waited p) h' (by simp [FState.waited, hp, FPc.crit, FPc.cur, FPc.live]) hi
  all_goals obtain ⟨blk, idx, hand, wait, cnt, late, tok, owed⟩ := h
  case signal term hl hb =>
    have ho : s.off = 0 := by
      unfold FState.off; cases hp : s.pc <;> simp_all [FPc.crit, FPc.cur]
    have hx : s.extra = 0 := by
      unfold FState.extra; cases hp : s.pc <;> simp_all [FPc.crit, FPc.cur, FPc.live]
    refine ⟨?_, ?_, ?_, ?_, ?_, ?_, ?_, ?_⟩
    · simp [FState.signal, FPc.crit, hb]
    · simp [FState.signal, FPc.cur]
    · simp [FState.signal, FState.handOk]
    · simpa [FState.signal] using wait
    · simp only [FState.signal, f_countP_map]; simp [FState.off, FState.extra]; omega
    · intro d hd
      simp only [FState.signal, List.mem_map] at hd
      obtain ⟨e, he, rfl⟩ := hd
      have := late e he
      split <;> exact this
    · simp [FState.signal]; omega
    · simp [FState.signal]; omega
  case fails i c hp hi =>
    have e := f_countP_set s.kids i c (if c.pid.isSome then { c with deleted := true } else c) hi (by split <;> rfl)
    refine ⟨?_, ?_, ?_, ?_, ?_, ?_, ?_, ?_⟩
    · exact blk
    · simpa using idx
    · exact hand
    · exact wait
    · simp [e, FState.off, FState.extra, hp] at cnt ⊢; exact cnt
    · intro d hd
      rcases f_mem_set hd with hd | rfl
      · exact late d hd
      · have := late c (List.mem_of_getElem? hi)
        split <;> exact this
    · simpa using tok
    · exact owed
  case again i c hp hi =>
    have e := f_countP_set s.kids i c { c with deleted := false } hi rfl
    refine ⟨?_, ?_, ?_, ?_, ?_, ?_, ?_, ?_⟩
    · simp [FPc.crit]
    · simpa [FPc.cur, hp] using idx
    · simp_all [FState.handOk]
    · exact wait
    · simp [e, FState.off, FState.extra, hp] at cnt ⊢; exact cnt
    · intro d hd
      rcases f_mem_set hd with hd | rfl
      · exact late d hd
      · exact late c (List.mem_of_getElem? hi)
    · simpa using tok
    · exact owed
  case refork i c ok hp hi =>
    have e := f_countP_set s.kids i c { c with pid := s.spawned ok } hi rfl
    have hs : (s.spawn ok).waiting = s.waiting ∧ (s.spawn ok).used = s.used ∧ (s.spawn ok).hand = s.hand ∧ (s.spawn ok).tokens = s.tokens
        ∧ (s.spawn ok).owed = s.owed ∧ (s.spawn ok).blocked = s.blocked := by
      cases ok <;> simp [FState.spawn]
    refine ⟨?_, ?_, ?_, ?_, ?_, ?_, ?_, ?_⟩
    · simp_all [FPc.crit]
    · simp [FPc.cur]
    · simp_all [FState.handOk]
    · simpa [hs] using wait
    · simp [e, FState.off, FState.extra, hp, hs] at cnt ⊢; exact cnt
    · intro d hd
      rcases f_mem_set hd with hd | rfl
      · exact late d hd
      · exact late c (List.mem_of_getElem? hi)
    · simpa [hs] using tok
    · simpa [hs] using owed
  case uncount i c hp hi =>
    have := f_slot_le _ _ _ hi
    refine ⟨?_, ?_, ?_, ?_, ?_, ?_, ?_, ?_⟩
    · simp_all [FPc.crit, FState.uncount]
    · simpa [FPc.cur, hp, FState.uncount] using idx
    · simp_all [FState.handOk, FState.uncount]
    · exact wait
    · simp [FState.off, FState.extra, hp, FState.uncount, hi] at cnt ⊢; split <;> omega
    · exact late
    · exact tok
    · exact owed
  case unchain i c hp hi =>
    have e1 := f_countP_erase _ _ _ hi
    have e2 := f_erase_len hi
    refine ⟨?_, ?_, ?_, ?_, ?_, ?_, ?_, ?_⟩
    · simp_all [FPc.crit]
    · simp [FPc.cur]
    · simp [FState.handOk]
    · exact wait
    · simp [FState.off, FState.extra, hp, hi] at cnt ⊢; omega
    · intro d hd; exact late d (List.mem_of_mem_eraseIdx hd)
    · simp_all [FState.handOk]; omega
    · exact owed
  case fork c ok hp hc =>
    have hs : (s.spawn ok).waiting = s.waiting ∧ (s.spawn ok).used = s.used ∧ (s.spawn ok).kids = s.kids ∧ (s.spawn ok).tokens = s.tokens
        ∧ (s.spawn ok).owed = s.owed ∧ (s.spawn ok).blocked = s.blocked := by
      cases ok <;> simp [FState.spawn]
    refine ⟨?_, ?_, ?_, ?_, ?_, ?_, ?_, ?_⟩
    · simp_all [FPc.crit]
    · simp [FPc.cur]
    · simp [FState.handOk, hp, hc] at hand ⊢
      cases ok <;> simp [hand, FState.spawned]
    · simpa [hs] using wait
    · simp [FState.off, FState.extra, hp, hs] at cnt ⊢; exact cnt
    · simpa [hs] using late
    · simpa [hs, hc] using tok
    · simpa [hs] using owed
  case count c hp hc =>
    simp [FState.handOk, hp, hc] at hand
    refine ⟨?_, ?_, ?_, ?_, ?_, ?_, ?_, ?_⟩
    · simp_all [FPc.crit]
    · simp [FPc.cur]
    · simp only [FState.handOk]
      cases hq : c.pid <;> simp [hq] at hand ⊢ <;> simp [hand, hq]
    · exact wait
    · simp [FState.off, FState.extra, hp] at cnt ⊢
      cases hq : c.pid <;> simp [hand, cnt]
    · exact late
    · simpa [hc] using tok
    · exact owed
  case chain c hp hc =>
    simp [FState.handOk, hp, hc] at hand
    refine ⟨?_, ?_, ?_, ?_, ?_, ?_, ?_, ?_⟩
    · simp_all [FPc.crit]
    · simp [FPc.cur]
    · simp [FState.handOk]
    · exact wait
    · simp [FState.off, FState.extra, hp, hc] at cnt ⊢
      cases hq : c.pid <;> simp [hand, hq, List.countP_cons] at cnt ⊢ <;> omega
    · intro d hd
      simp at hd
      rcases hd with rfl | hd
      · simp [hand]
      · exact late d hd
    · simp [hc] at tok ⊢; omega
    · exact owed
  case nothing c hp hc =>
    refine ⟨?_, ?_, ?_, ?_, ?_, ?_, ?_, ?_⟩
    · simp_all [FPc.crit, FState.free]
    · simp [FPc.cur]
    · simp [FState.handOk]
    · exact wait
    · simp [FState.off, FState.extra, hp, hc, FState.free] at cnt ⊢; exact cnt
    · exact late
    · simp [hc, FState.free] at tok ⊢; omega
    · simp [FState.free]; split <;> omega
  case free hp =>
    have : s.hand.toList.length = 1 := by
      simp [FState.handOk, hp] at hand
      cases hh : s.hand <;> simp [hh] at hand ⊢
    refine ⟨?_, ?_, ?_, ?_, ?_, ?_, ?_, ?_⟩
    · simp_all [FPc.crit, FState.free]
    · simp [FPc.cur]
    · simp [FState.handOk]
    · exact wait
    · simp [FState.off, FState.extra, hp, FState.free] at cnt ⊢; exact cnt
    · exact late
    · simp [FState.free] at tok ⊢; omega
    · simp [FState.free]; split <;> omega
  case unwait c l hp hh hw =>
    refine ⟨?_, ?_, ?_, ?_, ?_, ?_, ?_, ?_⟩
    · simp_all [FPc.crit]
    · simp [FPc.cur]
    · simp [FState.handOk]; exact wait c (by simp [hw])
    · intro d hd; exact wait d (by rw [hw]; exact List.mem_cons_of_mem _ hd)
    · simp [FState.off, FState.extra, hp] at cnt ⊢; exact cnt
    · exact late
    · simp [hw, hh] at tok ⊢; omega
    · exact owed
  case wait c hp hc =>
    simp [FState.handOk, hp, hc] at hand
    refine ⟨?_, ?_, ?_, ?_, ?_, ?_, ?_, ?_⟩
    · simp_all [FPc.crit]
    · simp [FPc.cur]
    · simp [FState.handOk]
    · intro d hd; simp at hd; rcases hd with rfl | hd
      · exact hand
      · exact wait d hd
    · simp [FState.off, FState.extra, hp] at cnt ⊢; exact cnt
    · exact late
    · simp [hc] at tok ⊢; omega
    · exact owed
  case token id hp hh =>
    refine ⟨?_, ?_, ?_, ?_, ?_, ?_, ?_, ?_⟩
    · simp_all [FPc.crit]
    · simp [FPc.cur]
    · simp [FState.handOk]
    · exact wait
    · simp [FState.off, FState.extra, hp] at cnt ⊢; exact cnt
    · exact late
    · simp [hh] at tok ⊢; omega
    · simp; split <;> omega
  case died p i c hp hpp hs hi hc =>
    have hl := (List.getElem?_eq_some_iff.1 hi).1
    refine ⟨?_, ?_, ?_, wait, ?_, late, tok, owed⟩
    · simp_all [FPc.crit, FState.waited]
    · simpa [FPc.cur, FState.waited] using hl
    · simp_all [FState.handOk, FState.waited]
    · simp [FState.off, FState.extra, hp, FState.waited] at cnt ⊢; exact cnt
  case unstarted i c hp hi hc =>
    have hl := (List.getElem?_eq_some_iff.1 hi).1
    refine ⟨?_, ?_, ?_, wait, ?_, late, tok, owed⟩
    · simp_all [FPc.crit]
    · simpa [FPc.cur] using hl
    · simp_all [FState.handOk]
    · simp [FState.off, FState.extra, hp] at cnt ⊢; exact cnt
  case ends i hp =>
    refine ⟨?_, ?_, ?_, wait, ?_, late, tok, owed⟩
    · simp_all [FPc.crit]
    · simpa [FPc.cur, hp] using idx
    · simp_all [FState.handOk]
    · simp [FState.off, FState.extra, hp] at cnt ⊢; exact cnt
  case block c hp hc =>
    simp [FState.handOk, hp, hc] at hand
    refine ⟨?_, ?_, ?_, wait, ?_, late, ?_, owed⟩
    · simp_all [FPc.crit]
    · simp [FPc.cur]
    · simp [FState.handOk, hand]
    · simp [FState.off, FState.extra, hp] at cnt ⊢; exact cnt
    · simpa [hc] using tok
  all_goals
    refine ⟨?_, ?_, ?_, wait, ?_, late, tok, owed⟩
    · simp_all [FPc.crit, FState.waited, FState.spawn]
    · simp_all [FPc.cur, FState.waited, FState.spawn]
    · simp_all [FState.handOk, FState.waited, FState.spawn]
    · simp_all [FState.off, FState.extra, FState.waited, FState.spawn]

theorem fcounts_steps {s t : FState} (h : FCounts s) (st : FSteps s t) : FCounts t := by
  induction st with
  | refl => exact h
  | tail _ st ih => exact fcounts_step ih st

end Remake
