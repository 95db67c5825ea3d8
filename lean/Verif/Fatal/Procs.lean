import Verif.Fatal.Lemmas

/-!
# Fatal signals: which process belongs to which job
-/
set_option linter.unusedVariables false
set_option linter.unusedSimpArgs false
namespace Remake

/-- The process of the job in hand has been started, and the job is not on the chain yet. -/
def FPc.between : FPc → Bool
  | .forked | .counted => true
  | _ => false

structure FProcs (s : FState) : Prop where
  owner : ∀ p ∈ s.procs, s.shell = some p ∨
    (∃ (j : Nat) (c : FJob), s.kids[j]? = some c ∧ c.pid = some p ∧ (s.pc.live = true → c.deleted = false)) ∨
    (s.pc.between = true ∧ ∃ c, s.hand = some c ∧ c.pid = some p)
  stale : ∀ (i : Nat) (c : FJob) (p : Nat), s.pc.cur = some i → s.kids[i]? = some c → c.pid = some p → p ∉ s.procs
  lt : ∀ p ∈ s.procs, p < s.fresh
  ltk : ∀ (j : Nat) (c : FJob) (p : Nat), s.kids[j]? = some c → c.pid = some p → p < s.fresh
  lts : ∀ p, s.shell = some p → p < s.fresh
  lth : ∀ (c : FJob) p, s.hand = some c → c.pid = some p → p < s.fresh
  dist : ∀ (j k : Nat) (c d : FJob) (p : Nat), s.kids[j]? = some c → s.kids[k]? = some d → c.pid = some p → d.pid = some p → j = k
  dsh : ∀ (j : Nat) (c : FJob) (p : Nat), s.shell = some p → s.kids[j]? = some c → c.pid ≠ some p
  dh : ∀ (h : FJob) (p : Nat), s.pc.between = true → s.hand = some h → h.pid = some p →
    s.shell ≠ some p ∧ ∀ (j : Nat) (c : FJob), s.kids[j]? = some c → c.pid ≠ some p
  alive : ∀ (j : Nat) (c : FJob) (p : Nat), s.pc.live = true → s.kids[j]? = some c → c.pid = some p → p ∈ s.procs ∨ s.pc.cur = some j
  aliveh : ∀ (c : FJob) p, s.pc.between = true → s.hand = some c → c.pid = some p → p ∈ s.procs
  shal : ∀ p, s.shell = some p → p ∈ s.procs

theorem fprocs_init : FProcs {} := by
  constructor <;> simp [FPc.live, FPc.between, FPc.cur]


theorem f_erase_get {l : List FJob} {i j : Nat} {c : FJob} (h : (l.eraseIdx i)[j]? = some c) :
    ∃ k : Nat, k ≠ i ∧ l[k]? = some c ∧ (k = if j < i then j else j + 1) := by
  rw [List.getElem?_eraseIdx] at h
  by_cases hj : j < i
  · rw [if_pos hj] at h; exact ⟨j, by omega, h, by rw [if_pos hj]⟩
  · rw [if_neg hj] at h; exact ⟨j + 1, by omega, h, by rw [if_neg hj]⟩

theorem f_erase_of {l : List FJob} {i k : Nat} {c : FJob} (hk : k ≠ i) (h : l[k]? = some c) :
    ∃ j : Nat, (l.eraseIdx i)[j]? = some c := by
  by_cases hj : k < i
  · exact ⟨k, by rw [List.getElem?_eraseIdx, if_pos hj]; exact h⟩
  · exact ⟨k - 1, by rw [List.getElem?_eraseIdx, if_neg (by omega), show k - 1 + 1 = k by omega]; exact h⟩

theorem f_set_get {l : List FJob} {i j : Nat} {c d x : FJob} (hi : l[i]? = some c) (h : (l.set i d)[j]? = some x) :
    (j = i ∧ x = d) ∨ (j ≠ i ∧ l[j]? = some x) := by
  have hl := (List.getElem?_eq_some_iff.1 hi).1
  by_cases hij : i = j
  · subst hij
    rw [List.getElem?_set_self hl] at h
    cases h
    exact Or.inl ⟨rfl, rfl⟩
  · rw [List.getElem?_set_ne hij] at h
    exact Or.inr ⟨fun e => hij e.symm, h⟩

theorem f_set_of {l : List FJob} {i j : Nat} {d x : FJob} (hj : j ≠ i) (h : l[j]? = some x) : (l.set i d)[j]? = some x := by
  rw [List.getElem?_set_ne (fun e => hj e.symm)]; exact h

/-- Nothing about processes changes. -/
theorem fprocs_frame {s t : FState} (h : FProcs s) (hk : t.kids = s.kids) (hp : t.procs = s.procs) (hs : t.shell = s.shell)
    (hf : t.fresh = s.fresh) (hl : t.pc.live = true → s.pc.live = true ∧ t.pc.cur = s.pc.cur)
    (hcur : ∀ i, t.pc.cur = some i → s.pc.cur = some i) (hb : s.pc.between = false) (hb' : t.pc.between = false)
    (hh : ∀ c p, t.hand = some c → c.pid = some p → s.hand = some c) : FProcs t := by
  obtain ⟨owner, stale, lt, ltk, lts, lth, dist, dsh, dh, alive, aliveh, shal⟩ := h
  refine ⟨?_, ?_, ?_, ?_, ?_, ?_, ?_, ?_, ?_, ?_, ?_, ?_⟩
  · intro p hpp
    rw [hp] at hpp
    rcases owner p hpp with h | ⟨j, d, hj, hd, hl'⟩ | ⟨hb2, _⟩
    · exact Or.inl (hs.trans h)
    · exact Or.inr (Or.inl ⟨j, d, by rw [hk]; exact hj, hd, fun h => hl' (hl h).1⟩)
    · rw [hb] at hb2; cases hb2
  · intro i c p h1 h2 h3
    rw [hk] at h2; rw [hp]
    exact stale i c p (hcur i h1) h2 h3
  · rw [hp, hf]; exact lt
  · rw [hk, hf]; exact ltk
  · rw [hs, hf]; exact lts
  · intro c p h1 h2
    rw [hf]; exact lth c p (hh c p h1 h2) h2
  · rw [hk]; exact dist
  · rw [hs, hk]; exact dsh
  · intro h p h1; rw [hb'] at h1; cases h1
  · intro j c p h1 h2 h3
    rw [hk] at h2; rw [hp, (hl h1).2]
    exact alive j c p (hl h1).1 h2 h3
  · intro h p h1; rw [hb'] at h1; cases h1
  · rw [hs, hp]; exact shal

/-- The job `reap_children` is working on is changed, not its process. -/
theorem fprocs_set {s t : FState} (h : FProcs s) {i : Nat} {c d : FJob} (hi : s.kids[i]? = some c) (hd : d.pid = c.pid)
    (hcur : s.pc.cur = some i) (hcur' : t.pc.cur = some i) (hlv : s.pc.live = true)
    (hk : t.kids = s.kids.set i d) (hp : t.procs = s.procs) (hs : t.shell = s.shell)
    (hf : t.fresh = s.fresh) (hh : t.hand = s.hand) : FProcs t := by
  have hb : s.pc.between = false := by cases e : s.pc <;> simp_all [FPc.cur, FPc.between]
  have hb' : t.pc.between = false := by cases e : t.pc <;> simp_all [FPc.cur, FPc.between]
  obtain ⟨owner, stale, lt, ltk, lts, lth, dist, dsh, dh, alive, aliveh, shal⟩ := h
  have key : ∀ (j : Nat) (x : FJob), t.kids[j]? = some x → ∃ e, s.kids[j]? = some e ∧ e.pid = x.pid := by
    intro j x hj
    rw [hk] at hj
    rcases f_set_get hi hj with ⟨rfl, rfl⟩ | ⟨_, h⟩
    · exact ⟨c, hi, hd.symm⟩
    · exact ⟨x, h, rfl⟩
  refine ⟨?_, ?_, ?_, ?_, ?_, ?_, ?_, ?_, ?_, ?_, ?_, ?_⟩
  · intro p hpp
    rw [hp] at hpp
    rcases owner p hpp with h | ⟨j, x, hj, hx, hl'⟩ | ⟨hb2, _⟩
    · exact Or.inl (hs.trans h)
    · refine Or.inr (Or.inl ⟨j, x, ?_, hx, fun _ => hl' hlv⟩)
      rw [hk]
      refine f_set_of ?_ hj
      rintro rfl
      exact stale j x p hcur hj hx hpp
    · rw [hb] at hb2; cases hb2
  · intro j x p h1 h2 h3
    obtain ⟨e, he, h4⟩ := key j x h2
    rw [hcur'] at h1; cases h1
    rw [hp]
    exact stale i e p hcur he (h4.trans h3)
  · rw [hp, hf]; exact lt
  · intro j x p h2 h3
    obtain ⟨e, he, h4⟩ := key j x h2
    rw [hf]; exact ltk j e p he (h4.trans h3)
  · rw [hs, hf]; exact lts
  · rw [hh, hf]; exact lth
  · intro j k x y p hj hk h1 h2
    obtain ⟨x', hx, ex⟩ := key j x hj
    obtain ⟨y', hy, ey⟩ := key k y hk
    exact dist j k x' y' p hx hy (ex.trans h1) (ey.trans h2)
  · intro j x p h1 hj h3
    obtain ⟨e, he, h4⟩ := key j x hj
    rw [hs] at h1
    exact dsh j e p h1 he (h4.trans h3)
  · intro h p h1; rw [hb'] at h1; cases h1
  · intro j x p h1 h2 h3
    obtain ⟨e, he, h4⟩ := key j x h2
    rw [hp, hcur']
    have := alive j e p hlv he (h4.trans h3)
    rwa [hcur] at this
  · intro h p h1; rw [hb'] at h1; cases h1
  · rw [hs, hp]; exact shal

/-- A job whose process is no more is taken off; process `q` has been waited for. -/
theorem fprocs_erase {s t : FState} (h : FProcs s) {i : Nat} {c : FJob} {q : Option Nat}
    (hb : s.pc.between = false) (hb' : t.pc.between = false) (hcur' : t.pc.cur = none)
    (hlv : t.pc.live = true → s.pc.live = true ∧ s.pc.cur = some i ∧ q = none)
    (hi : s.kids[i]? = some c) (hc : ∀ p, c.pid = some p → p ∈ s.procs → q = some p) (hq : ∀ p, q = some p → s.shell ≠ some p ∧ c.pid = some p)
    (hk : t.kids = s.kids.eraseIdx i) (hp : t.procs = s.procs.filter (fun x => q != some x)) (hs : t.shell = s.shell)
    (hf : t.fresh = s.fresh) (hh : ∀ d p, t.hand = some d → d.pid = some p → p < s.fresh) : FProcs t := by
  obtain ⟨owner, stale, lt, ltk, lts, lth, dist, dsh, dh, alive, aliveh, shal⟩ := h
  have mem : ∀ p, p ∈ t.procs ↔ p ∈ s.procs ∧ q ≠ some p := by
    intro p; rw [hp, List.mem_filter]; simp
  refine ⟨?_, ?_, ?_, ?_, ?_, ?_, ?_, ?_, ?_, ?_, ?_, ?_⟩
  · intro p hpp
    obtain ⟨h1, h2⟩ := (mem p).1 hpp
    rcases owner p h1 with h | ⟨j, d, hj, hd, hl⟩ | ⟨hb2, _⟩
    · exact Or.inl (hs.trans h)
    · have : j ≠ i := by
        rintro rfl
        rw [hi] at hj; cases hj
        exact h2 (hc p hd h1)
      obtain ⟨k, hk'⟩ := f_erase_of this hj
      exact Or.inr (Or.inl ⟨k, d, by rw [hk]; exact hk', hd, fun h => hl (hlv h).1⟩)
    · rw [hb] at hb2; cases hb2
  · intro j d p h1; rw [hcur'] at h1; cases h1
  · intro p hpp; rw [hf]; exact lt p ((mem p).1 hpp).1
  · intro j d p hj hd
    rw [hk] at hj; rw [hf]
    obtain ⟨k, _, hk', _⟩ := f_erase_get hj
    exact ltk k d p hk' hd
  · rw [hs, hf]; exact lts
  · intro d p h1 h2; rw [hf]; exact hh d p h1 h2
  · intro j k d e p hj hk' hd he
    rw [hk] at hj hk'
    obtain ⟨j', _, hj', ej⟩ := f_erase_get hj
    obtain ⟨k', _, hk', ek⟩ := f_erase_get hk'
    have := dist j' k' d e p hj' hk' hd he
    by_cases h1 : j < i <;> by_cases h2 : k < i <;> simp [h1, h2] at ej ek <;> omega
  · intro j d p h1 hj
    rw [hk] at hj; rw [hs] at h1
    obtain ⟨k, _, hk', _⟩ := f_erase_get hj
    exact dsh k d p h1 hk'
  · intro h p h1; rw [hb'] at h1; cases h1
  · intro j d p hl hj hd
    rw [hk] at hj
    obtain ⟨k, hki, hk', _⟩ := f_erase_get hj
    obtain ⟨l1, l2, l3⟩ := hlv hl
    rcases alive k d p l1 hk' hd with h | h
    · exact Or.inl ((mem p).2 ⟨h, by rw [l3]; simp⟩)
    · rw [l2] at h; cases h; exact absurd rfl hki
  · intro d p h1; rw [hb'] at h1; cases h1
  · intro p h1
    rw [hs] at h1
    exact (mem p).2 ⟨shal p h1, fun e => (hq p e).1 h1⟩

theorem f_between_of_crit : ∀ pc : FPc, pc.crit = false → pc.between = false := by
  intro pc; cases pc <;> simp [FPc.crit, FPc.between]

theorem fprocs_signal {s : FState} (hc : FCounts s) (h : FProcs s) (term : Bool) (hl : s.pc.live = true) (hb : s.blocked = false) :
    FProcs (s.signal term) := by
  obtain ⟨owner, stale, lt, ltk, lts, lth, dist, dsh, dh, alive, aliveh, shal⟩ := h
  have hcr : s.pc.crit = false := by rw [← hc.blk]; exact hb
  have hbt : s.pc.between = false := f_between_of_crit _ hcr
  have key : ∀ (j : Nat) (c : FJob), (s.kids.map (fun c => if c.pid.isSome then { c with deleted := true } else c))[j]? = some c →
      ∃ d, s.kids[j]? = some d ∧ d.pid = c.pid := by
    intro j c hj
    rw [List.getElem?_map, Option.map_eq_some_iff] at hj
    obtain ⟨d, hd, rfl⟩ := hj
    exact ⟨d, hd, by split <;> rfl⟩
  refine ⟨?_, ?_, lt, ?_, lts, lth, ?_, ?_, ?_, ?_, ?_, shal⟩
  · intro p hp
    rcases owner p hp with h | ⟨j, d, hj, hd, _⟩ | ⟨hb, _⟩
    · exact Or.inl h
    · right; left
      refine ⟨j, { d with deleted := true }, ?_, hd, fun h => by cases h⟩
      show (s.kids.map _)[j]? = _
      rw [List.getElem?_map, hj]
      simp [hd]
    · rw [hbt] at hb; cases hb
  · intro i c p h; cases h
  · intro j c p hj hp
    obtain ⟨d, hd, he⟩ := key j c hj
    exact ltk j d p hd (he.trans hp)
  · intro j k c d p hj hk h1 h2
    obtain ⟨c', hc', ec⟩ := key j c hj
    obtain ⟨d', hd', ed⟩ := key k d hk
    exact dist j k c' d' p hc' hd' (ec.trans h1) (ed.trans h2)
  · intro j c p hs hj hp
    obtain ⟨d, hd, he⟩ := key j c hj
    exact dsh j d p hs hd (he.trans hp)
  · intro h p hb; cases hb
  · intro j d p hl; cases hl
  · intro d p hb; cases hb

theorem fprocs_refork {s : FState} (hc : FCounts s) (h : FProcs s) {i : Nat} {c : FJob} (ok : Bool) (hp : s.pc = .next i)
    (hi : s.kids[i]? = some c) (hdel : c.deleted = false) :
    FProcs { s.spawn ok with pc := .nextForked, kids := s.kids.set i { c with pid := s.spawned ok } } := by
  obtain ⟨owner, stale, lt, ltk, lts, lth, dist, dsh, dh, alive, aliveh, shal⟩ := h
  have hh : s.hand = none := by
    have := hc.hand; simpa [FState.handOk, hp] using this
  have hcur : s.pc.cur = some i := by simp [hp, FPc.cur]
  have hb : s.pc.between = false := by simp [hp, FPc.between]
  have hlv : s.pc.live = true := by simp [hp, FPc.live]
  have hl := (List.getElem?_eq_some_iff.1 hi).1
  have sp : (s.spawn ok).shell = s.shell ∧ (s.spawn ok).hand = s.hand := by cases ok <;> simp [FState.spawn]
  have hf : s.fresh ≤ (s.spawn ok).fresh := by cases ok <;> simp [FState.spawn]
  have hold : ∀ p ∈ s.procs, p ∈ (s.spawn ok).procs := by
    intro p h; cases ok <;> simp [FState.spawn, h]
  have hnew : ∀ p ∈ (s.spawn ok).procs, p ∈ s.procs ∨ s.spawned ok = some p := by
    intro p h
    cases ok <;> simp [FState.spawn, FState.spawned] at h ⊢
    · exact h
    · rcases h with rfl | h
      · exact Or.inr rfl
      · exact Or.inl h
  have hsp : ∀ p, s.spawned ok = some p → p = s.fresh ∧ p < (s.spawn ok).fresh ∧ p ∈ (s.spawn ok).procs := by
    intro p h
    cases ok <;> simp [FState.spawned, FState.spawn] at h ⊢
    subst h; simp
  refine ⟨?_, ?_, ?_, ?_, ?_, ?_, ?_, ?_, ?_, ?_, ?_, ?_⟩
  · intro p hpp
    rcases hnew p hpp with h1 | h1
    · rcases owner p h1 with h | ⟨j, x, hj, hx, hl'⟩ | ⟨hb2, _⟩
      · exact Or.inl (sp.1.trans h)
      · refine Or.inr (Or.inl ⟨j, x, ?_, hx, fun _ => hl' hlv⟩)
        refine f_set_of ?_ hj
        rintro rfl
        exact stale j x p hcur hj hx h1
      · rw [hb] at hb2; cases hb2
    · exact Or.inr (Or.inl ⟨i, _, List.getElem?_set_self hl, h1, fun _ => hdel⟩)
  · intro j x p h; cases h
  · intro p hpp
    rcases hnew p hpp with h1 | h1
    · exact Nat.lt_of_lt_of_le (lt p h1) hf
    · exact (hsp p h1).2.1
  · intro j x p hj hx
    rcases f_set_get hi hj with ⟨rfl, rfl⟩ | ⟨_, h⟩
    · exact (hsp p hx).2.1
    · exact Nat.lt_of_lt_of_le (ltk j x p h hx) hf
  · intro p h
    exact Nat.lt_of_lt_of_le (lts p (sp.1.symm.trans h)) hf
  · intro d p h
    have := sp.2.symm.trans h
    rw [hh] at this; cases this
  · intro j k x y p hj hk h1 h2
    rcases f_set_get hi hj with ⟨rfl, rfl⟩ | ⟨n1, g1⟩ <;> rcases f_set_get hi hk with ⟨rfl, rfl⟩ | ⟨n2, g2⟩
    · rfl
    · have := ltk k y p g2 h2
      have := (hsp p h1).1
      omega
    · have := ltk j x p g1 h1
      have := (hsp p h2).1
      omega
    · exact dist j k x y p g1 g2 h1 h2
  · intro j x p h hj hx
    have h' := sp.1.symm.trans h
    rcases f_set_get hi hj with ⟨rfl, rfl⟩ | ⟨_, g⟩
    · have := lts p h'
      have := (hsp p hx).1
      omega
    · exact dsh j x p h' g hx
  · intro h p hb; cases hb
  · intro j x p _ hj hx
    left
    rcases f_set_get hi hj with ⟨rfl, rfl⟩ | ⟨n, g⟩
    · exact (hsp p hx).2.2
    · rcases alive j x p hlv g hx with h | h
      · exact hold p h
      · rw [hcur] at h; cases h; exact absurd rfl n
  · intro h p hb; cases hb
  · intro p h
    exact hold p (shal p (sp.1.symm.trans h))

theorem fprocs_fork {s : FState} (h : FProcs s) {c : FJob} (ok : Bool) (hp : s.pc = .fresh) (hc : s.hand = some c) :
    FProcs { s.spawn ok with pc := .forked, hand := some { c with pid := s.spawned ok, late := !ok } } := by
  obtain ⟨owner, stale, lt, ltk, lts, lth, dist, dsh, dh, alive, aliveh, shal⟩ := h
  have hcur : s.pc.cur = none := by simp [hp, FPc.cur]
  have hb : s.pc.between = false := by simp [hp, FPc.between]
  have hlv : s.pc.live = true := by simp [hp, FPc.live]
  have sp : (s.spawn ok).shell = s.shell ∧ (s.spawn ok).kids = s.kids := by cases ok <;> simp [FState.spawn]
  have hf : s.fresh ≤ (s.spawn ok).fresh := by cases ok <;> simp [FState.spawn]
  have hold : ∀ p ∈ s.procs, p ∈ (s.spawn ok).procs := by
    intro p h; cases ok <;> simp [FState.spawn, h]
  have hnew : ∀ p ∈ (s.spawn ok).procs, p ∈ s.procs ∨ s.spawned ok = some p := by
    intro p h
    cases ok <;> simp [FState.spawn, FState.spawned] at h ⊢
    · exact h
    · rcases h with rfl | h
      · exact Or.inr rfl
      · exact Or.inl h
  have hsp : ∀ p, s.spawned ok = some p → p = s.fresh ∧ p < (s.spawn ok).fresh ∧ p ∈ (s.spawn ok).procs := by
    intro p h
    cases ok <;> simp [FState.spawned, FState.spawn] at h ⊢
    subst h; simp
  refine ⟨?_, ?_, ?_, ?_, ?_, ?_, ?_, ?_, ?_, ?_, ?_, ?_⟩
  · intro p hpp
    rcases hnew p hpp with h1 | h1
    · rcases owner p h1 with h | ⟨j, x, hj, hx, hl'⟩ | ⟨hb2, _⟩
      · exact Or.inl (sp.1.trans h)
      · exact Or.inr (Or.inl ⟨j, x, by show (s.spawn ok).kids[j]? = _; rw [sp.2]; exact hj, hx, fun _ => hl' hlv⟩)
      · rw [hb] at hb2; cases hb2
    · exact Or.inr (Or.inr ⟨rfl, _, rfl, h1⟩)
  · intro j x p h; cases h
  · intro p hpp
    rcases hnew p hpp with h1 | h1
    · exact Nat.lt_of_lt_of_le (lt p h1) hf
    · exact (hsp p h1).2.1
  · intro j x p hj hx
    change (s.spawn ok).kids[j]? = _ at hj
    rw [sp.2] at hj
    exact Nat.lt_of_lt_of_le (ltk j x p hj hx) hf
  · intro p h
    exact Nat.lt_of_lt_of_le (lts p (sp.1.symm.trans h)) hf
  · intro d p h h1
    cases h
    exact (hsp p h1).2.1
  · show ∀ (j k : Nat) (c d : FJob) (p : Nat), (s.spawn ok).kids[j]? = some c → (s.spawn ok).kids[k]? = some d → _
    rw [sp.2]; exact dist
  · intro j x p h hj
    change (s.spawn ok).kids[j]? = _ at hj
    rw [sp.2] at hj
    exact dsh j x p (sp.1.symm.trans h) hj
  · intro h p _ h1 h2
    cases h1
    have e := (hsp p h2).1
    refine ⟨fun h => ?_, fun j x hj hx => ?_⟩
    · have := lts p (sp.1.symm.trans h); omega
    · change (s.spawn ok).kids[j]? = _ at hj
      rw [sp.2] at hj
      have := ltk j x p hj hx; omega
  · intro j x p _ hj hx
    change (s.spawn ok).kids[j]? = _ at hj
    rw [sp.2] at hj
    rcases alive j x p hlv hj hx with h | h
    · exact Or.inl (hold p h)
    · rw [hcur] at h; cases h
  · intro h p _ h1 h2
    cases h1
    exact (hsp p h2).2.2
  · intro p h
    exact hold p (shal p (sp.1.symm.trans h))

theorem fprocs_count {s t : FState} (h : FProcs s) {c d : FJob} (hp : s.pc = .forked) (hp' : t.pc = .counted) (hc : s.hand = some c) (hd : t.hand = some d)
    (hcd : d.pid = c.pid) (hk : t.kids = s.kids) (hpr : t.procs = s.procs) (hs : t.shell = s.shell)
    (hf : t.fresh = s.fresh) : FProcs t := by
  obtain ⟨owner, stale, lt, ltk, lts, lth, dist, dsh, dh, alive, aliveh, shal⟩ := h
  have hb : s.pc.between = true := by simp [hp, FPc.between]
  have hlv : s.pc.live = true := by simp [hp, FPc.live]
  refine ⟨?_, ?_, ?_, ?_, ?_, ?_, ?_, ?_, ?_, ?_, ?_, ?_⟩
  · intro p hpp
    rw [hpr] at hpp
    rcases owner p hpp with h | ⟨j, x, hj, hx, hl'⟩ | ⟨_, x, hx, hxp⟩
    · exact Or.inl (hs.trans h)
    · exact Or.inr (Or.inl ⟨j, x, by rw [hk]; exact hj, hx, fun _ => hl' hlv⟩)
    · rw [hc] at hx; cases hx
      exact Or.inr (Or.inr ⟨by simp [hp', FPc.between], d, hd, hcd.trans hxp⟩)
  · intro i x p h; simp [hp', FPc.cur] at h
  · rw [hpr, hf]; exact lt
  · rw [hk, hf]; exact ltk
  · rw [hs, hf]; exact lts
  · intro x p h1 h2
    rw [hd] at h1; cases h1
    rw [hf]; exact lth c p hc (hcd.symm.trans h2)
  · rw [hk]; exact dist
  · rw [hs, hk]; exact dsh
  · intro x p _ h1 h2
    rw [hd] at h1; cases h1
    rw [hs, hk]; exact dh c p hb hc (hcd.symm.trans h2)
  · intro j x p _ hj hx
    rw [hk] at hj; rw [hpr]
    rcases alive j x p hlv hj hx with h | h
    · exact Or.inl h
    · simp [hp, FPc.cur] at h
  · intro x p _ h1 h2
    rw [hd] at h1; cases h1
    rw [hpr]; exact aliveh c p hb hc (hcd.symm.trans h2)
  · rw [hs, hpr]; exact shal

theorem fprocs_chain {s t : FState} (h : FProcs s) {c : FJob} (hp : s.pc = .counted) (hp' : t.pc = .chained) (hc : s.hand = some c) (hdel : c.deleted = false)
    (hd : t.hand = none) (hk : t.kids = c :: s.kids) (hpr : t.procs = s.procs) (hs : t.shell = s.shell)
    (hf : t.fresh = s.fresh) : FProcs t := by
  obtain ⟨owner, stale, lt, ltk, lts, lth, dist, dsh, dh, alive, aliveh, shal⟩ := h
  have hb : s.pc.between = true := by simp [hp, FPc.between]
  have hlv : s.pc.live = true := by simp [hp, FPc.live]
  have key : ∀ (j : Nat) (x : FJob), t.kids[j]? = some x → (j = 0 ∧ x = c) ∨ ∃ k, j = k + 1 ∧ s.kids[k]? = some x := by
    intro j x hj
    rw [hk] at hj
    cases j with
    | zero => simp at hj; exact Or.inl ⟨rfl, hj.symm⟩
    | succ k => simp at hj; exact Or.inr ⟨k, rfl, hj⟩
  have hb' : t.pc.between = false := by simp [hp', FPc.between]
  refine ⟨?_, ?_, ?_, ?_, ?_, ?_, ?_, ?_, ?_, ?_, ?_, ?_⟩
  · intro p hpp
    rw [hpr] at hpp
    rcases owner p hpp with h | ⟨j, x, hj, hx, hl'⟩ | ⟨_, x, hx, hxp⟩
    · exact Or.inl (hs.trans h)
    · exact Or.inr (Or.inl ⟨j + 1, x, by rw [hk]; simpa using hj, hx, fun _ => hl' hlv⟩)
    · rw [hc] at hx; cases hx
      exact Or.inr (Or.inl ⟨0, c, by rw [hk]; rfl, hxp, fun _ => hdel⟩)
  · intro i x p h; simp [hp', FPc.cur] at h
  · rw [hpr, hf]; exact lt
  · intro j x p hj hx
    rw [hf]
    rcases key j x hj with ⟨_, rfl⟩ | ⟨k, _, g⟩
    · exact lth x p hc hx
    · exact ltk k x p g hx
  · rw [hs, hf]; exact lts
  · intro x p h1; rw [hd] at h1; cases h1
  · intro j k x y p hj hk' h1 h2
    rcases key j x hj with ⟨rfl, rfl⟩ | ⟨j', rfl, g1⟩ <;> rcases key k y hk' with ⟨rfl, rfl⟩ | ⟨k', rfl, g2⟩
    · rfl
    · exact absurd h2 ((dh x p hb hc h1).2 k' y g2)
    · exact absurd h1 ((dh y p hb hc h2).2 j' x g1)
    · rw [dist j' k' x y p g1 g2 h1 h2]
  · intro j x p h1 hj hx
    rw [hs] at h1
    rcases key j x hj with ⟨_, rfl⟩ | ⟨k, _, g⟩
    · exact (dh x p hb hc hx).1 h1
    · exact dsh k x p h1 g hx
  · intro x p h1; rw [hb'] at h1; cases h1
  · intro j x p _ hj hx
    left
    rw [hpr]
    rcases key j x hj with ⟨_, rfl⟩ | ⟨k, _, g⟩
    · exact aliveh x p hb hc hx
    · rcases alive k x p hlv g hx with h | h
      · exact h
      · simp [hp, FPc.cur] at h
  · intro x p h1; rw [hb'] at h1; cases h1
  · rw [hs, hpr]; exact shal

/-- The process of job `i` has been waited for, or never was. -/
theorem fprocs_dead {s t : FState} (h : FProcs s) {i : Nat} {c : FJob} {q : Option Nat} (hp : s.pc = .run) (hp' : t.pc = .dead i)
    (hi : s.kids[i]? = some c) (hc : c.pid = q) (hq : ∀ p, q = some p → s.shell ≠ some p) (hh : t.hand = s.hand)
    (hk : t.kids = s.kids) (hpr : t.procs = s.procs.filter (fun x => q != some x)) (hs : t.shell = s.shell)
    (hf : t.fresh = s.fresh) : FProcs t := by
  obtain ⟨owner, stale, lt, ltk, lts, lth, dist, dsh, dh, alive, aliveh, shal⟩ := h
  have mem : ∀ p, p ∈ t.procs ↔ p ∈ s.procs ∧ q ≠ some p := by
    intro p; rw [hpr, List.mem_filter]; simp
  have hb' : t.pc.between = false := by simp [hp', FPc.between]
  have hlv : s.pc.live = true := by simp [hp, FPc.live]
  refine ⟨?_, ?_, ?_, ?_, ?_, ?_, ?_, ?_, ?_, ?_, ?_, ?_⟩
  · intro p hpp
    rcases owner p ((mem p).1 hpp).1 with h | ⟨j, x, hj, hx, hl'⟩ | ⟨h, _⟩
    · exact Or.inl (hs.trans h)
    · exact Or.inr (Or.inl ⟨j, x, by rw [hk]; exact hj, hx, fun _ => hl' hlv⟩)
    · simp [hp, FPc.between] at h
  · intro j x p h1 h2 h3 h4
    simp [hp', FPc.cur] at h1
    subst h1
    rw [hk, hi] at h2; cases h2
    exact ((mem p).1 h4).2 (hc.symm.trans h3)
  · intro p hpp; rw [hf]; exact lt p ((mem p).1 hpp).1
  · rw [hk, hf]; exact ltk
  · rw [hs, hf]; exact lts
  · rw [hh, hf]; exact lth
  · rw [hk]; exact dist
  · rw [hs, hk]; exact dsh
  · intro x p h1; rw [hb'] at h1; cases h1
  · intro j x p _ hj hx
    rw [hk] at hj
    by_cases hij : j = i
    · right; simp [hp', FPc.cur, hij]
    · left
      rcases alive j x p hlv hj hx with h | h
      · exact (mem p).2 ⟨h, fun e => hij (dist j i x c p hj hi hx (hc.trans e))⟩
      · simp [hp, FPc.cur] at h
  · intro x p h1; rw [hb'] at h1; cases h1
  · intro p h1
    rw [hs] at h1
    exact (mem p).2 ⟨shal p h1, fun e => hq p e h1⟩

theorem fprocs_shell {s : FState} (h : FProcs s) (hp : s.pc = .run) (hs : s.shell = none) :
    FProcs { s.spawn true with shell := some s.fresh } := by
  obtain ⟨owner, stale, lt, ltk, lts, lth, dist, dsh, dh, alive, aliveh, shal⟩ := h
  refine ⟨?_, ?_, ?_, ?_, ?_, ?_, ?_, ?_, ?_, ?_, ?_, ?_⟩
  · intro p hpp
    simp [FState.spawn] at hpp
    rcases hpp with rfl | hpp
    · exact Or.inl rfl
    · rcases owner p hpp with h | h | h
      · rw [hs] at h; cases h
      · exact Or.inr (Or.inl h)
      · exact Or.inr (Or.inr h)
  · intro i c p h; simp [FState.spawn, hp, FPc.cur] at h
  · intro p hpp
    simp [FState.spawn] at hpp ⊢
    rcases hpp with rfl | hpp
    · omega
    · have := lt p hpp; omega
  · intro j c p hj hc
    simp [FState.spawn] at hj ⊢
    have := ltk j c p hj hc; omega
  · intro p h; simp [FState.spawn] at h ⊢; omega
  · intro c p h1 h2
    simp [FState.spawn] at h1 ⊢
    have := lth c p h1 h2; omega
  · exact dist
  · intro j c p h hj hc
    simp [FState.spawn] at h hj
    have := ltk j c p hj hc; omega
  · intro x p h; simp [FState.spawn, hp, FPc.between] at h
  · intro j c p hl hj hc
    simp [FState.spawn] at hl hj ⊢
    rcases alive j c p hl hj hc with h | h
    · exact Or.inl (Or.inr h)
    · exact Or.inr h
  · intro x p h; simp [FState.spawn, hp, FPc.between] at h
  · intro p h; simp [FState.spawn] at h ⊢; exact Or.inl h.symm

theorem fprocs_shellEnds {s t : FState} (h : FProcs s) {p : Nat} (hb : s.pc.between = false) (hb' : t.pc.between = false)
    (hcur : s.pc.cur = none) (hcur' : t.pc.cur = none) (hl : t.pc.live = true → s.pc.live = true)
    (hs : s.shell = some p) (hs' : t.shell = none) (hpr : t.procs = s.procs.filter (· != p)) (hk : t.kids = s.kids)
    (hf : t.fresh = s.fresh) (hh : t.hand = s.hand) : FProcs t := by
  obtain ⟨owner, stale, lt, ltk, lts, lth, dist, dsh, dh, alive, aliveh, shal⟩ := h
  have mem : ∀ x, x ∈ t.procs ↔ x ∈ s.procs ∧ x ≠ p := by
    intro x; rw [hpr, List.mem_filter]; simp
  refine ⟨?_, ?_, ?_, ?_, ?_, ?_, ?_, ?_, ?_, ?_, ?_, ?_⟩
  · intro x hx
    obtain ⟨h1, h2⟩ := (mem x).1 hx
    rcases owner x h1 with h | ⟨j, c, hj, hc, hl'⟩ | ⟨h, _⟩
    · rw [hs] at h; cases h; exact absurd rfl h2
    · exact Or.inr (Or.inl ⟨j, c, by rw [hk]; exact hj, hc, fun h => hl' (hl h)⟩)
    · rw [hb] at h; cases h
  · intro i c x h; rw [hcur'] at h; cases h
  · intro x hx; rw [hf]; exact lt x ((mem x).1 hx).1
  · rw [hk, hf]; exact ltk
  · intro x h; rw [hs'] at h; cases h
  · rw [hh, hf]; exact lth
  · rw [hk]; exact dist
  · intro j c x h; rw [hs'] at h; cases h
  · intro x y h1; rw [hb'] at h1; cases h1
  · intro j c x h1 hj hc
    rw [hk] at hj
    left
    rcases alive j c x (hl h1) hj hc with h | h
    · exact (mem x).2 ⟨h, by rintro rfl; exact dsh j c x hs hj hc⟩
    · rw [hcur] at h; cases h
  · intro x y h1; rw [hb'] at h1; cases h1
  · intro x h; rw [hs'] at h; cases h

theorem f_filter_none (l : List Nat) : l = l.filter (fun x => (none : Option Nat) != some x) := by
  symm; rw [List.filter_eq_self]; intro a _; rfl

theorem f_filter_some (l : List Nat) (p : Nat) : l.filter (· != p) = l.filter (fun x => some p != some x) := by
  congr 1; funext x
  by_cases hx : x = p
  · subst hx; simp
  · rw [bne_iff_ne.2 hx]; symm; exact bne_iff_ne.2 (fun e => hx (Option.some.inj e).symm)

/-- In `next i` the job is not marked as deleted. -/
def FState.NextOk (s : FState) : Prop := ∀ (i : Nat) (c : FJob), s.pc = .next i → s.kids[i]? = some c → c.deleted = false

theorem fnext_step {s t : FState} (st : FStep s t) : t.NextOk := by
  intro i c hp hi
  cases st <;> simp [FState.signal, FState.spawn, FState.waited] at hp
  case again j d hp' hj =>
    subst hp
    change (s.kids.set j _)[j]? = _ at hi
    rw [List.getElem?_set_self (List.getElem?_eq_some_iff.1 hj).1] at hi
    cases hi; rfl
  all_goals simp_all

theorem fprocs_step {s t : FState} (hc : FCounts s) (hn : s.NextOk) (h : FProcs s) (st : FStep s t) : FProcs t := by
  have hhand := hc.hand
  cases st
  case dunstarted b i c hp hi hn =>
    exact fprocs_erase (q := none) h (by simp [hp, FPc.between]) rfl rfl (fun h => by cases h) hi (by simp [hn]) (by simp) rfl
      (f_filter_none _) rfl rfl h.lth
  case ddied b p i c hp hk hpp hs hi hn =>
    exact fprocs_erase (q := some p) h (by simp [hp, FPc.between]) rfl rfl (fun h => by cases h) hi (fun x hx _ => by rw [← hx, hn])
      (fun x hx => by cases hx; exact ⟨hs, hn⟩) rfl (f_filter_some _ _) rfl rfl h.lth
  case signal term hl hb => exact fprocs_signal hc h term hl hb
  case fails i c hp hi =>
    exact fprocs_set (d := if c.pid.isSome then { c with deleted := true } else c) h hi (by split <;> rfl) (by simp [hp, FPc.cur]) (by simp [hp, FPc.cur]) (by simp [hp, FPc.live]) rfl rfl rfl rfl rfl
  case again i c hp hi =>
    exact fprocs_set (d := { c with deleted := false }) h hi rfl (by simp [hp, FPc.cur]) rfl (by simp [hp, FPc.live]) rfl rfl rfl rfl rfl
  case refork i c ok hp hi => exact fprocs_refork hc h ok hp hi (hn i c hp hi)
  case unchain i c hp hi =>
    refine fprocs_erase (q := none) h (by simp [hp, FPc.between]) rfl rfl (fun _ => ⟨by simp [hp, FPc.live], by simp [hp, FPc.cur], rfl⟩) hi
      (fun p h1 h2 => absurd h2 (h.stale i c p (by simp [hp, FPc.cur]) hi h1)) (by simp) rfl
      (f_filter_none _) rfl rfl ?_
    intro d p h1 h2; cases h1; exact h.ltk i c p hi h2
  case fork c ok hp hc' => exact fprocs_fork h ok hp hc'
  case count c hp hc' => exact fprocs_count h hp rfl hc' rfl (by split <;> rfl) rfl rfl rfl rfl
  case chain c hp hc' =>
    simp [FState.handOk, hp, hc'] at hhand
    exact fprocs_chain h hp rfl hc' hhand.2.1 rfl rfl rfl rfl rfl
  case died p i c hp hpp hs hi hpc =>
    exact fprocs_dead h hp rfl hi hpc (by rintro q ⟨⟩; exact hs) rfl rfl (f_filter_some _ _) rfl rfl
  case unstarted i c hp hi hpc =>
    exact fprocs_dead h hp rfl hi hpc (by simp) rfl rfl (f_filter_none _) rfl rfl
  case shell hp hs => exact fprocs_shell h hp hs
  case shellEnds p hp hs hpp =>
    exact fprocs_shellEnds h (by simp [hp, FPc.between]) (by simp [hp, FPc.between, FState.waited]) (by simp [hp, FPc.cur])
      (by simp [hp, FPc.cur, FState.waited]) (fun h => h) hs rfl rfl rfl rfl rfl
  case dshell b p hp hk hpp hs =>
    exact fprocs_shellEnds h (by simp [hp, FPc.between]) rfl (by simp [hp, FPc.cur])
      rfl (fun h => by cases h) hs rfl rfl rfl rfl rfl
  case unwait c l hp hh hw =>
    refine fprocs_frame h rfl rfl rfl rfl (fun _ => by simp [hp, FPc.live, FPc.cur]) (fun i h => by cases h) (by simp [hp, FPc.between]) rfl ?_
    intro d p h1 h2; cases h1
    have := (hc.wait c (by simp [hw])).1
    rw [this] at h2; cases h2
  case block c hp hc' =>
    refine fprocs_frame h rfl rfl rfl rfl (fun _ => by simp [hp, FPc.live, FPc.cur]) (fun i h => by cases h) (by simp [hp, FPc.between]) rfl ?_
    intro d p h1 h2; cases h1
    simp [FState.handOk, hp, hc'] at hhand
    simp [hhand.1] at h2
  case token id hp hh =>
    refine fprocs_frame h rfl rfl rfl rfl (fun _ => by simp [hp, FPc.live, FPc.cur]) (fun i h => by cases h) (by simp [hp, FPc.between]) rfl ?_
    intro d p h1 h2; cases h1; cases h2
  all_goals
    refine fprocs_frame h rfl rfl rfl rfl (fun _ => by simp_all [FPc.live, FPc.cur, FState.free, FState.uncount])
      (fun i h => by simp_all [FPc.cur, FState.free, FState.uncount]) (by simp_all [FPc.between]) (by simp_all [FPc.between])
      (fun c p h1 h2 => by simp_all [FState.free, FState.uncount])

end Remake
