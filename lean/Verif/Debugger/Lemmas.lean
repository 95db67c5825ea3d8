import Verif.Debugger.Spec
/-! The linked list of breakpoints. -/
namespace Remake
open Spec

/-- From `p` the nodes of the list lead to `q`. -/
def Seg (heap : Nat → Option BpNode) : Option Nat → List (Nat × BpNode) → Option Nat → Prop
  | p, [], q => p = q
  | p, (a, n) :: l, q => p = some a ∧ heap a = some n ∧ Seg heap n.next l q

theorem seg_append {heap : Nat → Option BpNode} {p q : Option Nat} {l m : List (Nat × BpNode)} :
    Seg heap p (l ++ m) q ↔ ∃ r, Seg heap p l r ∧ Seg heap r m q := by
  induction l generalizing p with
  | nil => simp [Seg]
  | cons x l ih =>
    obtain ⟨a, n⟩ := x
    simp only [List.cons_append, Seg, ih]
    constructor
    · rintro ⟨h1, h2, r, h3, h4⟩; exact ⟨r, ⟨h1, h2, h3⟩, h4⟩
    · rintro ⟨r, ⟨h1, h2, h3⟩, h4⟩; exact ⟨h1, h2, r, h3, h4⟩

theorem seg_frame {heap heap' : Nat → Option BpNode} {p q : Option Nat} {l : List (Nat × BpNode)}
    (h : ∀ x ∈ l, heap' x.1 = heap x.1) (hs : Seg heap p l q) : Seg heap' p l q := by
  induction l generalizing p with
  | nil => exact hs
  | cons x l ih =>
    obtain ⟨a, n⟩ := x
    obtain ⟨h1, h2, h3⟩ := hs
    exact ⟨h1, (h _ (List.mem_cons_self ..)).trans h2, ih (fun x hx => h x (List.mem_cons_of_mem _ hx)) h3⟩

/-- The user's view of a node. -/
def bpOf (x : Nat × BpNode) : Bp := ⟨x.2.num, x.2.target, x.2.mask⟩

/-- The state holds the list. -/
structure BpRep (st : BpState) (l : List (Nat × BpNode)) : Prop where
  seg : Seg st.heap st.top l none
  nodup : (l.map (·.1)).Nodup
  lt : ∀ x ∈ l, x.1 < st.fresh
  len : l.length ≤ st.fresh
  bottom : st.bottom = l.getLast?.map (·.1)
  num : ∀ x ∈ l, 0 < x.2.num ∧ x.2.num ≤ st.count
  incr : (l.map (·.2.num)).Pairwise (· < ·)

theorem rep_init : BpRep .init [] :=
  ⟨rfl, List.nodup_nil, by simp, Nat.le_refl _, rfl, by simp, List.Pairwise.nil⟩

theorem rep_add {st : BpState} {l : List (Nat × BpNode)} (h : BpRep st l) (t m : Nat)
    (hc : st.count + 1 < 2 ^ 32) :
    ∃ st' l', addBreakpoint st t m = some st' ∧ BpRep st' l' ∧ st'.count = st.count + 1 ∧
      l'.map bpOf = l.map bpOf ++ [⟨st.count + 1, t, m⟩] := by
  have hmod : (st.count + 1) % 2 ^ 32 = st.count + 1 := Nat.mod_eq_of_lt hc
  rcases l.eq_nil_or_concat with rfl | ⟨l0, ⟨b, nb⟩, rfl⟩
  · have htop : st.top = none := h.seg
    refine ⟨{ st with
        heap := fun a => if a = st.fresh then some ⟨t, st.count + 1, m, none⟩ else st.heap a
        fresh := st.fresh + 1, top := some st.fresh, bottom := some st.fresh, count := st.count + 1,
        tracing := fun u => if u = t then m else st.tracing u },
      [(st.fresh, ⟨t, st.count + 1, m, none⟩)], ?_, ?_, rfl, ?_⟩
    · simp only [addBreakpoint, BpState.store, htop, Option.map_some, hmod, Option.some.injEq, BpState.mk.injEq,
        true_and, and_true]
      funext a
      by_cases h1 : a = st.fresh <;> simp [h1]
    · constructor
      · simp [Seg, BpState.store, hmod]
      · simp
      · simp [BpState.store]
      · simp [BpState.store]
      · simp [BpState.store]
      · simp [BpState.store, hmod]
      · simp
    · simp [bpOf]
  · rw [List.concat_eq_append] at h ⊢
    obtain ⟨r, hs1, hs2⟩ := seg_append.mp h.seg
    obtain ⟨hr, hb, hn⟩ := hs2
    simp only [Seg] at hn
    have htop : ∃ x, st.top = some x := by
      cases l0 with
      | nil => exact ⟨b, by rw [← hr]; exact hs1⟩
      | cons y l0 => exact ⟨y.1, hs1.1⟩
    obtain ⟨x, htop⟩ := htop
    have hbot : st.bottom = some b := by rw [h.bottom]; simp
    have hbf : b < st.fresh := h.lt (b, nb) (by simp)
    have hbne : b ≠ st.fresh := by omega
    refine ⟨{ st with
        heap := fun a => if a = st.fresh then some ⟨t, st.count + 1, m, none⟩
          else if a = b then some { nb with next := some st.fresh } else st.heap a
        fresh := st.fresh + 1, bottom := some st.fresh, count := st.count + 1,
        tracing := fun u => if u = t then m else st.tracing u },
      l0 ++ [(b, { nb with next := some st.fresh }), (st.fresh, ⟨t, st.count + 1, m, none⟩)], ?_, ?_, rfl, ?_⟩
    · simp only [addBreakpoint, BpState.store, htop, hbot, BpState.setNext, if_neg hbne, hb, Option.map_some,
        hmod, Option.some.injEq, BpState.mk.injEq, true_and, and_true]
      funext a
      by_cases h1 : a = st.fresh
      · simp [h1]
      · by_cases h2 : a = b <;> simp [h1, h2]
    · constructor
      · refine seg_append.mpr ⟨r, seg_frame ?_ hs1, ?_⟩
        · intro y hy
          have h1 : y.1 < st.fresh := h.lt y (by simp [hy])
          have h2 : y.1 ≠ b := by
            have := h.nodup
            rw [List.map_append, List.nodup_append] at this
            exact this.2.2 y.1 (List.mem_map_of_mem hy) b (by simp)
          simp only
          rw [if_neg (by omega), if_neg h2]
        · refine ⟨hr, ?_, rfl, ?_, rfl⟩
          · simp [hbne]
          · simp
      · have hnd := h.nodup
        have : List.map (fun x : Nat × BpNode => x.1) (l0 ++ [(b, { nb with next := some st.fresh }), (st.fresh, ⟨t, st.count + 1, m, none⟩)])
            = (l0 ++ [(b, nb)]).map (·.1) ++ [st.fresh] := by simp
        rw [this, List.nodup_append]
        refine ⟨hnd, by simp, ?_⟩
        intro a ha c hc' hac
        simp only [List.mem_singleton] at hc'
        obtain ⟨y, hy, rfl⟩ := List.mem_map.mp ha
        have := h.lt y hy
        omega
      · intro y hy
        simp only [List.mem_append, List.mem_cons, List.not_mem_nil, or_false] at hy
        simp only
        rcases hy with hy | rfl | rfl
        · have := h.lt y (by simp [hy]); omega
        · simp only; omega
        · simp only; omega
      · have := h.len
        simp at this ⊢; omega
      · simp
      · intro y hy
        simp only [List.mem_append, List.mem_cons, List.not_mem_nil, or_false] at hy
        simp only
        rcases hy with hy | rfl | rfl
        · have := h.num y (by simp [hy]); omega
        · have := h.num (b, nb) (by simp); simp only at this ⊢; omega
        · simp only; omega
      · have hi := h.incr
        have : List.map (fun x : Nat × BpNode => x.2.num) (l0 ++ [(b, { nb with next := some st.fresh }), (st.fresh, ⟨t, st.count + 1, m, none⟩)])
            = (l0 ++ [(b, nb)]).map (·.2.num) ++ [st.count + 1] := by simp
        rw [this, List.pairwise_append]
        refine ⟨hi, by simp, ?_⟩
        intro a ha c hc'
        simp only [List.mem_singleton] at hc'
        obtain ⟨y, hy, rfl⟩ := List.mem_map.mp ha
        have := h.num y hy
        omega
    · simp [bpOf]

theorem findBp_none {heap : Nat → Option BpNode} {i : Nat} {l : List (Nat × BpNode)} :
    ∀ {p prev : Option Nat} {fuel : Nat}, Seg heap p l none → l.length < fuel →
    (∀ x ∈ l, x.2.num ≠ i) → ∃ q, findBp heap i fuel prev p = some (q, none) := by
  induction l with
  | nil =>
    intro p prev fuel hs hf _
    cases fuel with
    | zero => simp at hf
    | succ fuel => cases hs; exact ⟨prev, rfl⟩
  | cons x l ih =>
    intro p prev fuel hs hf hn
    obtain ⟨a, n⟩ := x
    obtain ⟨rfl, ha, hs⟩ := hs
    cases fuel with
    | zero => simp at hf
    | succ fuel =>
      simp only [findBp, ha]
      rw [if_neg (hn (a, n) (List.mem_cons_self ..))]
      exact ih hs (by simpa using hf) fun x hx => hn x (List.mem_cons_of_mem _ hx)

theorem findBp_some {heap : Nat → Option BpNode} {i a : Nat} {n : BpNode} {l2 l1 : List (Nat × BpNode)}
    (hi : n.num = i) : ∀ {p prev : Option Nat} {fuel : Nat}, Seg heap p (l1 ++ (a, n) :: l2) none →
    (l1 ++ (a, n) :: l2).length < fuel → (∀ x ∈ l1, x.2.num ≠ i) →
    findBp heap i fuel prev p = some ((l1.getLast?.map (·.1)).or prev, some a) := by
  induction l1 with
  | nil =>
    intro p prev fuel hs hf _
    cases fuel with
    | zero => simp at hf
    | succ fuel =>
      obtain ⟨rfl, ha, hs⟩ := hs
      simp [findBp, ha, hi]
  | cons x l1 ih =>
    intro p prev fuel hs hf hn
    obtain ⟨b, k⟩ := x
    obtain ⟨rfl, hb, hs⟩ := hs
    cases fuel with
    | zero => simp at hf
    | succ fuel =>
      simp only [findBp, hb]
      rw [if_neg (hn (b, k) (List.mem_cons_self ..)),
        ih hs (by simpa using hf) fun x hx => hn x (List.mem_cons_of_mem _ hx)]
      congr 2
      rcases l1.eq_nil_or_concat with rfl | ⟨l0, z, rfl⟩
      · simp
      · rw [List.concat_eq_append, ← List.cons_append]; simp only [List.getLast?_concat, Option.map_some, Option.some_or]

theorem rep_remove {st : BpState} {l : List (Nat × BpNode)} (h : BpRep st l) (i : Nat) :
    ∃ st' b l', removeBreakpoint st i = some (st', b) ∧ BpRep st' l' ∧ st'.count = st.count ∧
      l'.map bpOf = (l.map bpOf).filter (fun b => b.num ≠ i) := by
  have keep : (∀ x ∈ l, x.2.num ≠ i) → (l.map bpOf).filter (fun b => b.num ≠ i) = l.map bpOf := by
    intro hn
    rw [List.filter_eq_self]
    intro b hb
    obtain ⟨x, hx, rfl⟩ := List.mem_map.mp hb
    simp only [bpOf]; exact decide_eq_true (hn x hx)
  by_cases h0 : i = 0
  · refine ⟨st, false, l, by simp [removeBreakpoint, h0], h, rfl, (keep ?_).symm⟩
    intro x hx; have := h.num x hx; omega
  by_cases h1 : st.count < i
  · refine ⟨st, false, l, by simp [removeBreakpoint, h0, h1], h, rfl, (keep ?_).symm⟩
    intro x hx; have := h.num x hx; omega
  by_cases hex : ∃ x ∈ l, x.2.num = i
  case neg =>
    have hn : ∀ x ∈ l, x.2.num ≠ i := fun x hx e => hex ⟨x, hx, e⟩
    obtain ⟨q, hq⟩ := findBp_none (prev := none) h.seg (Nat.lt_succ_of_le h.len) hn
    refine ⟨st, false, l, ?_, h, rfl, (keep hn).symm⟩
    simp [removeBreakpoint, h0, h1, hq]
  obtain ⟨⟨p, n⟩, hx, hi⟩ := hex
  simp only at hi
  obtain ⟨l1, l2, rfl⟩ := List.append_of_mem hx
  have hinc := h.incr
  rw [List.map_append, List.map_cons, List.pairwise_append, List.pairwise_cons] at hinc
  have hn1 : ∀ x ∈ l1, x.2.num ≠ i := by
    intro x hx e
    have := hinc.2.2 x.2.num (List.mem_map_of_mem (f := fun x : Nat × BpNode => x.2.num) hx) n.num (by simp)
    omega
  have hn2 : ∀ x ∈ l2, x.2.num ≠ i := by
    intro x hx e
    have := hinc.2.1.1 x.2.num (List.mem_map_of_mem (f := fun x : Nat × BpNode => x.2.num) hx)
    simp only at this; omega
  have hfind := findBp_some (prev := none) hi h.seg (Nat.lt_succ_of_le h.len) hn1
  have hfilter : ((l1 ++ (p, n) :: l2).map bpOf).filter (fun b => b.num ≠ i) = (l1 ++ l2).map bpOf := by
    rw [List.map_append, List.map_cons, List.filter_append, List.filter_cons_of_neg (by simp [bpOf, hi]),
      List.map_append]
    congr 1
    · rw [List.filter_eq_self]
      intro b hb
      obtain ⟨x, hx, rfl⟩ := List.mem_map.mp hb
      simp only [bpOf]; exact decide_eq_true (hn1 x hx)
    · rw [List.filter_eq_self]
      intro b hb
      obtain ⟨x, hx, rfl⟩ := List.mem_map.mp hb
      simp only [bpOf]; exact decide_eq_true (hn2 x hx)
  rw [hfilter]
  have hnd := h.nodup
  rw [List.map_append, List.map_cons, List.nodup_append, List.nodup_cons] at hnd
  have hp1 : ∀ x ∈ l1, x.1 ≠ p := fun x hx => hnd.2.2 x.1 (List.mem_map_of_mem hx) p (by simp)
  have hp2 : ∀ x ∈ l2, x.1 ≠ p := by
    intro x hx e
    have := List.mem_map_of_mem (f := fun x : Nat × BpNode => x.1) hx
    simp only [e] at this
    exact hnd.2.1.1 this
  obtain ⟨r, hs1, hr, hp, hs2⟩ := seg_append.mp h.seg
  have hlast : n.next = none ↔ l2 = [] := by
    cases l2 with
    | nil => simpa [Seg] using hs2
    | cons y l2 => rw [hs2.1]; simp
  have hnodup' : ((l1 ++ l2).map (·.1)).Nodup := by
    rw [List.map_append, List.nodup_append]
    exact ⟨hnd.1, hnd.2.1.2, fun a ha b hb => hnd.2.2 a ha b (List.mem_cons_of_mem _ hb)⟩
  have hlt' : ∀ x ∈ l1 ++ l2, x.1 < st.fresh := by
    intro x hx; apply h.lt; simp at hx ⊢; rcases hx with hx | hx <;> simp [hx]
  have hnum' : ∀ x ∈ l1 ++ l2, 0 < x.2.num ∧ x.2.num ≤ st.count := by
    intro x hx; apply h.num; simp at hx ⊢; rcases hx with hx | hx <;> simp [hx]
  have hincr' : ((l1 ++ l2).map (·.2.num)).Pairwise (· < ·) := by
    rw [List.map_append, List.pairwise_append]
    exact ⟨hinc.1, hinc.2.1.2, fun a ha b hb => hinc.2.2 a ha b (List.mem_cons_of_mem _ hb)⟩
  have hlen' : (l1 ++ l2).length ≤ st.fresh := by
    have := h.len; simp at this ⊢; omega
  rcases l1.eq_nil_or_concat with rfl | ⟨l0, ⟨q, nq⟩, rfl⟩
  · -- the first node
    have htop : st.top = some p := by have : st.top = r := hs1; rw [this, hr]
    refine ⟨{ st with
        heap := fun b => if b = p then none else st.heap b
        top := n.next
        bottom := if n.next = none then none else st.bottom
        tracing := if st.tracing n.target ≠ 0 then
            fun t => if t = n.target then 0 else st.tracing t else st.tracing },
      decide (st.tracing n.target ≠ 0), l2, ?_, ?_, rfl, rfl⟩
    · have hpr : (Option.map (fun x => x.1) ([] : List (Nat × BpNode)).getLast?).or none = none := rfl
      simp only [removeBreakpoint, if_neg h0, if_neg h1, hfind, hp, hpr]
      by_cases hnx : n.next = none <;> by_cases htr : st.tracing n.target = 0 <;>
        simp [hnx, htr, htop, BpState.store]
    · constructor
      · refine seg_frame ?_ hs2
        intro x hx; simp only; rw [if_neg (hp2 x hx)]
      · simpa using hnodup'
      · simpa using hlt'
      · simpa using hlen'
      · simp only
        by_cases hnx : n.next = none
        · rw [if_pos hnx]; rw [hlast.mp hnx]; rfl
        · rw [if_neg hnx, h.bottom]
          rcases l2.eq_nil_or_concat with rfl | ⟨l3, z, rfl⟩
          · exact absurd (hlast.mpr rfl) hnx
          · rw [List.concat_eq_append, List.nil_append, ← List.cons_append]; simp only [List.getLast?_concat]
      · simpa using hnum'
      · simpa using hincr'
  · -- a later node
    rw [List.concat_eq_append] at *
    have hqp : q ≠ p := hp1 (q, nq) (by simp)
    obtain ⟨r', hs0, hrq, hq, hnq⟩ := seg_append.mp hs1
    have hprev : (Option.map (fun x => x.1) (l0 ++ [(q, nq)]).getLast?).or none = some q := by simp
    have htop : st.top ≠ some p := by
      intro e
      cases l0 with
      | nil =>
        have : st.top = r' := hs0
        rw [this, hrq] at e
        exact hqp (Option.some.inj e)
      | cons y l0 =>
        have h2 := hs0.1
        rw [h2] at e
        exact hp1 y (by simp) (Option.some.inj e)
    have hq0 : ∀ x ∈ l0, x.1 ≠ q := by
      intro x hx
      have := hnd.1
      rw [List.map_append, List.nodup_append] at this
      exact this.2.2 x.1 (List.mem_map_of_mem hx) q (by simp)
    have hq2 : ∀ x ∈ l2, x.1 ≠ q := by
      intro x hx e
      exact hnd.2.2 q (by simp) x.1 (List.mem_cons_of_mem _ (List.mem_map_of_mem hx)) e.symm
    refine ⟨{ st with
        heap := fun b => if b = p then none else if b = q then some { nq with next := n.next } else st.heap b
        bottom := if n.next = none then some q else st.bottom
        tracing := if st.tracing n.target ≠ 0 then
            fun t => if t = n.target then 0 else st.tracing t else st.tracing },
      decide (st.tracing n.target ≠ 0), l0 ++ (q, { nq with next := n.next }) :: l2, ?_, ?_, rfl, ?_⟩
    · simp only [removeBreakpoint, if_neg h0, if_neg h1, hfind, hp, hprev]
      by_cases hnx : n.next = none <;> by_cases htr : st.tracing n.target = 0 <;>
        simp [hnx, htr, htop, BpState.setNext, hq, BpState.store]
    · constructor
      · refine seg_append.mpr ⟨r', seg_frame ?_ hs0, hrq, ?_, ?_⟩
        · intro x hx
          simp only
          rw [if_neg (hp1 x (by simp [hx])), if_neg (hq0 x hx)]
        · simp [hqp]
        · refine seg_frame ?_ hs2
          intro x hx
          simp only
          rw [if_neg (hp2 x hx), if_neg (hq2 x hx)]
      · simpa using hnodup'
      · intro x hx
        simp only [List.mem_append, List.mem_cons] at hx
        rcases hx with hx | rfl | hx
        · exact hlt' x (by simp [hx])
        · exact hlt' (q, nq) (by simp)
        · exact hlt' x (by simp [hx])
      · simp only
        have := hlen'
        simp at this ⊢; omega
      · simp only
        by_cases hnx : n.next = none
        · rw [if_pos hnx, hlast.mp hnx]; simp
        · rw [if_neg hnx, h.bottom]
          rcases l2.eq_nil_or_concat with rfl | ⟨l3, z, rfl⟩
          · exact absurd (hlast.mpr rfl) hnx
          · rw [List.concat_eq_append]
            have e1 : l0 ++ [(q, nq)] ++ (p, n) :: (l3 ++ [z]) = (l0 ++ [(q, nq)] ++ (p, n) :: l3) ++ [z] := by simp
            have e2 : l0 ++ (q, { nq with next := n.next }) :: (l3 ++ [z]) =
                (l0 ++ (q, { nq with next := n.next }) :: l3) ++ [z] := by simp
            rw [e1, e2, List.getLast?_concat, List.getLast?_concat]
      · intro x hx
        simp only [List.mem_append, List.mem_cons] at hx
        rcases hx with hx | rfl | hx
        · exact hnum' x (by simp [hx])
        · exact hnum' (q, nq) (by simp)
        · exact hnum' x (by simp [hx])
      · simpa using hincr'
    · simp [bpOf]

theorem rep_deleteFrom {n : Nat} : ∀ {st : BpState} {l : List (Nat × BpNode)} (_ : BpRep st l) (i : Nat),
    ∃ st' l', deleteFrom st i n = some st' ∧ BpRep st' l' ∧ st'.count = st.count ∧
      l'.map bpOf = (l.map bpOf).filter (fun b => ¬ (i ≤ b.num ∧ b.num < i + n)) := by
  induction n with
  | zero =>
    intro st l h i
    refine ⟨st, l, rfl, h, rfl, ?_⟩
    symm; rw [List.filter_eq_self]
    intro b _; apply decide_eq_true; omega
  | succ n ih =>
    intro st l h i
    obtain ⟨st1, b, l1, e1, h1, c1, m1⟩ := rep_remove h i
    obtain ⟨st2, l2, e2, h2, c2, m2⟩ := ih h1 (i + 1)
    refine ⟨st2, l2, ?_, h2, c2.trans c1, ?_⟩
    · simp only [deleteFrom, e1, e2]
    · rw [m2, m1, List.filter_filter]
      congr 1
      funext b
      rw [Bool.eq_iff_iff, Bool.and_eq_true, decide_eq_true_iff, decide_eq_true_iff, decide_eq_true_iff]
      omega

theorem rep_shown {st : BpState} {l : List (Nat × BpNode)} (h : BpRep st l) : shown st = some (l.map bpOf) := by
  have key : ∀ (l : List (Nat × BpNode)) (p : Option Nat) (fuel : Nat), Seg st.heap p l none → l.length < fuel →
      listBreakpoints st.heap fuel p = some (l.map (·.2)) := by
    intro l
    induction l with
    | nil =>
      intro p fuel hs hf
      cases fuel with
      | zero => simp at hf
      | succ fuel => cases hs; rfl
    | cons x l ih =>
      intro p fuel hs hf
      obtain ⟨a, n⟩ := x
      obtain ⟨rfl, ha, hs⟩ := hs
      cases fuel with
      | zero => simp at hf
      | succ fuel =>
        simp only [listBreakpoints, ha]
        rw [ih _ _ hs (by simpa using hf)]; rfl
  simp only [shown]
  rw [key l _ _ h.seg (Nat.lt_succ_of_le h.len)]
  simp [bpOf]

theorem bpRun_rep (cmds : List BpCmd) (hc : cmds.length < 2 ^ 32 - 1) :
    ∃ st l, bpRun cmds = some st ∧ BpRep st l ∧ st.count = (bpList cmds).1 ∧ l.map bpOf = (bpList cmds).2 := by
  have key : ∀ (cmds : List BpCmd) (st : BpState) (l : List (Nat × BpNode)) (s : Nat × List Bp), BpRep st l →
      st.count = s.1 → l.map bpOf = s.2 → s.1 + cmds.length < 2 ^ 32 - 1 →
      ∃ st' l', cmds.foldlM (fun st c => c.run st) st = some st' ∧ BpRep st' l' ∧
        st'.count = (cmds.foldl bpStep s).1 ∧ l'.map bpOf = (cmds.foldl bpStep s).2 := by
    intro cmds
    induction cmds with
    | nil => intro st l s h h1 h2 _; exact ⟨st, l, rfl, h, h1, h2⟩
    | cons c cs ih =>
      intro st l s h h1 h2 hl
      simp only [List.length_cons] at hl
      have step : ∃ st1 l1, c.run st = some st1 ∧ BpRep st1 l1 ∧ st1.count = (bpStep s c).1 ∧
          l1.map bpOf = (bpStep s c).2 ∧ (bpStep s c).1 ≤ s.1 + 1 := by
        cases c with
        | break_ t m =>
          obtain ⟨st1, l1, e, hr, hc, hm⟩ := rep_add h t m (by omega)
          exact ⟨st1, l1, e, hr, by rw [hc, h1]; rfl, by rw [hm, h2, h1]; rfl, Nat.le_refl _⟩
        | delete i =>
          obtain ⟨st1, b, l1, e, hr, hc, hm⟩ := rep_remove h i
          exact ⟨st1, l1, by simp [BpCmd.run, e], hr, by rw [hc, h1]; rfl, by rw [hm, h2]; rfl, Nat.le_succ _⟩
        | deleteAll =>
          obtain ⟨st1, l1, e, hr, hc, hm⟩ := rep_deleteFrom (n := st.count) h 1
          refine ⟨st1, l1, e, hr, by rw [hc, h1]; rfl, ?_, Nat.le_succ _⟩
          rw [hm]
          simp only [bpStep]
          rw [List.filter_eq_nil_iff]
          intro b hb
          obtain ⟨x, hx, rfl⟩ := List.mem_map.mp hb
          have := h.num x hx
          simp [bpOf]; omega
      obtain ⟨st1, l1, e, hr, hc1, hm1, hle⟩ := step
      obtain ⟨st2, l2, e2, hr2, hc2, hm2⟩ := ih st1 l1 (bpStep s c) hr hc1 hm1 (by omega)
      refine ⟨st2, l2, ?_, hr2, hc2, hm2⟩
      rw [List.foldlM_cons, e]
      exact e2
  exact key cmds .init [] (0, []) rep_init rfl rfl (by simpa using hc)

end Remake
