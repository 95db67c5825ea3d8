import Verif.Var.Spec
/-!
# Lemmas about scopes and pattern-specific variables
-/
set_option linter.unusedVariables false
set_option linter.unusedSimpArgs false
namespace Remake
open Spec

/-! ### Scopes -/

theorem push_eq_global (st : Scopes) (hc : st.current = 0) (h0 : 0 < st.fresh) :
    pushScope st =
      { sets := fun j => if j = st.fresh then .empty else st.sets j
        lists := fun j =>
          if j = 0 then ⟨some st.fresh, st.fresh, (st.lists 0).nextIsParent⟩
          else if j = st.fresh then ⟨(st.lists 0).next, (st.lists 0).set, false⟩
          else st.lists j
        current := 0
        fresh := st.fresh + 1 } := by
  have h1 : ¬ 0 = st.fresh := by omega
  simp only [pushScope, createSet, Scopes.setSet, Scopes.setList, if_true, hc, Scopes.mk.injEq, and_true, true_and, h1, if_false]
  funext j
  by_cases hj : j = st.fresh
  · simp [hj]
  · simp [hj]

theorem push_eq_local (st : Scopes) (hc : st.current ≠ 0) :
    pushScope st =
      { sets := fun j => if j = st.fresh then .empty else st.sets j
        lists := fun j =>
          if j = st.fresh then ⟨some st.current, st.fresh, false⟩
          else st.lists j
        current := st.fresh
        fresh := st.fresh + 1 } := by
  have : ¬ some st.current = some 0 := by simpa using hc
  simp only [pushScope, createSet, Scopes.setSet, Scopes.setList, if_true, this, if_false]

theorem push_fresh (st : Scopes) : (pushScope st).fresh = st.fresh + 1 := by
  simp only [pushScope, createSet, Scopes.setSet, Scopes.setList, if_true]
  by_cases h : some st.current = some 0
  · rw [if_pos h]
  · rw [if_neg h]

theorem push_sets (st : Scopes) (i : Nat) (h : i < st.fresh) : (pushScope st).sets i = st.sets i := by
  have hi : i ≠ st.fresh := by omega
  by_cases hc : st.current = 0
  · rw [push_eq_global st hc (by omega)]; simp [hi]
  · rw [push_eq_local st hc]; simp [hi]

theorem push_global (st : Scopes) (h : ScopesOk st) (hc : st.current = 0) :
    (pushScope st).current = 0 ∧ (∀ i, i ≠ 0 → i ≠ st.fresh → (pushScope st).lists i = st.lists i) ∧
    (pushScope st).lists 0 = ⟨some st.fresh, st.fresh, (st.lists 0).nextIsParent⟩ ∧
    (pushScope st).lists st.fresh = ⟨(st.lists 0).next, (st.lists 0).set, false⟩ := by
  have h0 : ¬ st.fresh = 0 := by have := h.pos; omega
  rw [push_eq_global st hc h.pos]
  refine ⟨rfl, ?_, ?_, ?_⟩
  · intro i h1 h2
    simp [h1, h2]
  · simp
  · simp [h0]

theorem push_local (st : Scopes) (hc : st.current ≠ 0) :
    (pushScope st).current = st.fresh ∧ (∀ i, i ≠ st.fresh → (pushScope st).lists i = st.lists i) ∧
    (pushScope st).lists st.fresh = ⟨some st.current, st.fresh, false⟩ := by
  rw [push_eq_local st hc]
  refine ⟨rfl, ?_, ?_⟩
  · intro i h1
    simp [h1]
  · simp

theorem push_ok (st : Scopes) (h : ScopesOk st) : ScopesOk (pushScope st) := by
  by_cases hc : st.current = 0
  · obtain ⟨h1, h2, h3, h4⟩ := push_global st h hc
    refine ⟨?_, ?_, ?_, ?_, ?_⟩
    · rw [push_fresh]; omega
    · rw [push_fresh, h1]; have := h.pos; omega
    · intro i hi
      rw [push_fresh] at hi ⊢
      by_cases hi0 : i = 0
      · subst hi0; rw [h3]; simp
      · by_cases hif : i = st.fresh
        · subst hif; rw [h4]; have := h.set 0 h.pos; simp; omega
        · rw [h2 i hi0 hif]; have := h.set i (by omega); omega
    · intro i hi n hn
      rw [push_fresh] at hi ⊢
      by_cases hi0 : i = 0
      · subst hi0; rw [h3] at hn; simp at hn; omega
      · by_cases hif : i = st.fresh
        · subst hif; rw [h4] at hn; have := h.next 0 h.pos n hn; omega
        · rw [h2 i hi0 hif] at hn; have := h.next i (by omega) n hn; omega
    · rw [h3]; exact h.global
  · obtain ⟨h1, h2, h3⟩ := push_local st hc
    have h0 : 0 ≠ st.fresh := by have := h.pos; omega
    refine ⟨?_, ?_, ?_, ?_, ?_⟩
    · rw [push_fresh]; omega
    · rw [push_fresh, h1]; omega
    · intro i hi
      rw [push_fresh] at hi ⊢
      by_cases hif : i = st.fresh
      · subst hif; rw [h3]; simp
      · rw [h2 i hif]; have := h.set i (by omega); omega
    · intro i hi n hn
      rw [push_fresh] at hi ⊢
      by_cases hif : i = st.fresh
      · subst hif; rw [h3] at hn; simp at hn; have := h.cur; omega
      · rw [h2 i hif] at hn; have := h.next i (by omega) n hn; omega
    · rw [h2 0 h0]; exact h.global

/-- The set of the current scope is the new one after a push. -/
theorem push_curset (st : Scopes) (h : ScopesOk st) :
    ((pushScope st).lists (pushScope st).current).set = st.fresh := by
  by_cases hc : st.current = 0
  · obtain ⟨h1, h2, h3, h4⟩ := push_global st h hc
    rw [h1, h3]
  · obtain ⟨h1, h2, h3⟩ := push_local st hc
    rw [h1, h3]

/-- Popping undoes a push, given that the lists are again as after the push. -/
theorem pop_push (st st2 : Scopes) (h : ScopesOk st)
    (hc : st2.current = (pushScope st).current) (hf : st.fresh + 1 ≤ st2.fresh)
    (hl : ∀ j, j < st.fresh + 1 → st2.lists j = (pushScope st).lists j) :
    ∃ st3, popScope st2 = some st3 ∧ st3.current = st.current ∧ st3.fresh = st2.fresh ∧
      st3.sets = st2.sets ∧ (∀ j, j < st.fresh → st3.lists j = st.lists j) ∧
      (∀ j, st.fresh < j → st3.lists j = st2.lists j) ∧
      st3.lists st.fresh = (pushScope st).lists st.fresh := by
  by_cases hcur : st.current = 0
  · obtain ⟨h1, h2, h3, h4⟩ := push_global st h hcur
    have l0 : st2.lists 0 = ⟨some st.fresh, st.fresh, (st.lists 0).nextIsParent⟩ := by
      rw [hl 0 (by omega), h3]
    have lf : st2.lists st.fresh = ⟨(st.lists 0).next, (st.lists 0).set, false⟩ := by
      rw [hl _ (by omega), h4]
    have c0 : st2.current = 0 := by rw [hc, h1]
    have hp := h.pos
    refine ⟨st2.setList 0 ⟨(st.lists 0).next, (st.lists 0).set, false⟩, ?_, ?_, rfl, rfl, ?_, ?_, ?_⟩
    · rw [popScope, c0, l0]
      simp only [ne_eq, not_true_eq_false, if_false, lf]
    · show st2.current = _
      rw [c0, hcur]
    · intro j hj
      by_cases hj0 : j = 0
      · subst hj0
        simp only [Scopes.setList, if_true]
        have := h.global
        cases hh : st.lists 0 with
        | mk nx s nip => rw [hh] at this; simp at this; simp [this]
      · simp only [Scopes.setList, hj0, if_false]
        rw [hl j (by omega), h2 j hj0 (by omega)]
    · intro j hj
      have hj0 : j ≠ 0 := by omega
      simp [Scopes.setList, hj0]
    · have hj0 : st.fresh ≠ 0 := by omega
      simp only [Scopes.setList, hj0, if_false]
      rw [hl _ (by omega)]
  · obtain ⟨h1, h2, h3⟩ := push_local st hcur
    have lf : st2.lists st.fresh = ⟨some st.current, st.fresh, false⟩ := by
      rw [hl _ (by omega), h3]
    have c0 : st2.current = st.fresh := by rw [hc, h1]
    have hp := h.pos
    have hne : st.fresh ≠ 0 := by omega
    refine ⟨{ st2 with current := st.current }, ?_, rfl, rfl, rfl, ?_, fun _ _ => rfl, ?_⟩
    · rw [popScope, c0, lf]
      simp only
      rw [if_pos hne]
    · intro j hj
      show st2.lists j = _
      rw [hl j (by omega), h2 j (by omega)]
    · show st2.lists st.fresh = _
      rw [lf, h3]

theorem setSet_ok (st : Scopes) (h : ScopesOk st) (i : Nat) (s : VarSet) : ScopesOk (st.setSet i s) :=
  ⟨h.pos, h.cur, h.set, h.next, h.global⟩

/-- What every balanced sequence preserves. -/
structure Kept (st st' : Scopes) (ops : List ScopeOp) : Prop where
  ok : ScopesOk st'
  current : st'.current = st.current
  fresh : st.fresh ≤ st'.fresh
  lists : ∀ j, j < st.fresh → st'.lists j = st.lists j
  sets : ∀ i, i < st.fresh → i ≠ (st.lists st.current).set → st'.sets i = explicit i ops (st.sets i)

theorem explicit_append (i : Nat) (a b : List ScopeOp) (s : VarSet) :
    explicit i (a ++ b) s = explicit i b (explicit i a s) := by
  induction a generalizing s with
  | nil => rfl
  | cons op a ih =>
    cases op with
    | push => exact ih s
    | pop => exact ih s
    | defCur e n v o r => exact ih s
    | defIn j e n v o r =>
      simp only [List.cons_append, explicit]
      split
      · exact ih _
      · exact ih _

theorem runAll_append (a b : List ScopeOp) (st : Scopes) :
    ScopeOp.runAll (a ++ b) st = (ScopeOp.runAll a st).bind (ScopeOp.runAll b) := by
  induction a generalizing st with
  | nil => rfl
  | cons op a ih =>
    simp only [List.cons_append, ScopeOp.runAll]
    cases op.run st with
    | none => rfl
    | some st' => exact ih st'

/-- One bracketed scope. -/
theorem scope_kept (a : List ScopeOp) (st : Scopes) (h : ScopesOk st)
    (ih : ∀ st, ScopesOk st → ∃ st', ScopeOp.runAll a st = some st' ∧ Kept st st' a) :
    ∃ st', ScopeOp.runAll (.push :: a ++ [.pop]) st = some st' ∧ ScopesOk st' ∧
      st'.current = st.current ∧ st.fresh ≤ st'.fresh ∧
      (∀ j, j < st.fresh → st'.lists j = st.lists j) ∧
      (∀ i, i < st.fresh → st'.sets i = explicit i a (st.sets i)) := by
  obtain ⟨st2, hr, hk⟩ := ih (pushScope st) (push_ok st h)
  have hf := hk.fresh
  rw [push_fresh] at hf
  obtain ⟨st3, hp, hc3, hf3, hs3, hl3, hg3, hm3⟩ := pop_push st st2 h hk.current hf
    (fun j hj => hk.lists j (by rw [push_fresh]; exact hj))
  refine ⟨st3, ?_, ?_, hc3, by omega, hl3, ?_⟩
  · simp only [List.cons_append, ScopeOp.runAll, ScopeOp.run]
    rw [runAll_append, hr]
    simp only [Option.bind_some, ScopeOp.runAll, ScopeOp.run, hp]
  · have pok := push_ok st h
    have key : ∀ i, i < st3.fresh → (st3.lists i).set < st3.fresh ∧ ∀ n, (st3.lists i).next = some n → n < st3.fresh := by
      intro i hi
      by_cases h1 : i < st.fresh
      · rw [hl3 i h1]
        exact ⟨by have := h.set i h1; omega, fun n hn => by have := h.next i h1 n hn; omega⟩
      · by_cases h2 : i = st.fresh
        · subst h2
          rw [hm3]
          have a1 := pok.set st.fresh (by rw [push_fresh]; omega)
          rw [push_fresh] at a1
          refine ⟨by omega, fun n hn => ?_⟩
          have a2 := pok.next st.fresh (by rw [push_fresh]; omega) n hn
          rw [push_fresh] at a2; omega
        · rw [hg3 i (by omega)]
          rw [hf3] at hi ⊢
          exact ⟨hk.ok.set i hi, hk.ok.next i hi⟩
    refine ⟨by have := h.pos; omega, by rw [hc3]; have := h.cur; omega, fun i hi => (key i hi).1,
      fun i hi => (key i hi).2, ?_⟩
    rw [hl3 0 h.pos]; exact h.global
  · intro i hi
    rw [hs3, hk.sets i (by rw [push_fresh]; omega) (by rw [push_curset st h]; omega), push_sets st i hi]

theorem balanced_kept {ops : List ScopeOp} (hb : Balanced ops) :
    ∀ st, ScopesOk st → ∃ st', ScopeOp.runAll ops st = some st' ∧ Kept st st' ops := by
  induction hb with
  | nil => exact fun st h => ⟨st, rfl, h, rfl, Nat.le_refl _, fun _ _ => rfl, fun _ _ _ => rfl⟩
  | @defCur ops e n v o r _ ih =>
    intro st h
    obtain ⟨st', hr, hk⟩ := ih (defineCurrent e st n v o r) (setSet_ok st h _ _)
    refine ⟨st', hr, hk.ok, hk.current, hk.fresh, hk.lists, ?_⟩
    intro i hi hne
    rw [hk.sets i hi hne]
    simp only [explicit, defineCurrent, Scopes.setSet, hne, if_false]
  | @defIn ops j e n v o r _ ih =>
    intro st h
    obtain ⟨st', hr, hk⟩ := ih (defineIn e st j n v o r) (setSet_ok st h _ _)
    refine ⟨st', hr, hk.ok, hk.current, hk.fresh, hk.lists, ?_⟩
    intro i hi hne
    rw [hk.sets i hi hne]
    simp only [explicit, defineIn, Scopes.setSet]
    by_cases hij : j = i
    · subst hij; simp
    · simp [hij, Ne.symm hij]
  | @scope a b _ _ iha ihb =>
    intro st h
    obtain ⟨st1, hr, hok, hc, hf, hl, hs⟩ := scope_kept a st h iha
    obtain ⟨st2, hr2, hk⟩ := ihb st1 hok
    have e : (ScopeOp.push :: a ++ .pop :: b) = (.push :: a ++ [.pop]) ++ b := by simp
    refine ⟨st2, ?_, hk.ok, by rw [hk.current, hc], by have := hk.fresh; omega, ?_, ?_⟩
    · rw [e, runAll_append, hr]; exact hr2
    · intro j hj
      rw [hk.lists j (by omega), hl j hj]
    · intro i hi hne
      rw [hk.sets i (by omega) (by rw [hc, hl _ h.cur]; exact hne), hs i hi]
      simp only [List.cons_append, explicit]
      rw [explicit_append]
      rfl

/-! ### Chains of scopes -/

theorem chain_congr {st st' : Scopes} {i : Nat} {l} (h : ScopesOk st) (hi : i < st.fresh)
    (hc : ChainOf st i l) (hl : ∀ j, j < st.fresh → st'.lists j = st.lists j) : ChainOf st' i l := by
  induction hc with
  | @last i hn =>
    rw [← hl i hi] at hn ⊢
    exact .last hn
  | @cons i j l hn _ ih =>
    have := h.next i hi j hn
    rw [← hl i hi] at hn ⊢
    exact .cons hn (ih this)

theorem chain_unique {st : Scopes} {i : Nat} {a b} (ha : ChainOf st i a) (hb : ChainOf st i b) : a = b := by
  induction ha generalizing b with
  | @last i hn =>
    cases hb with
    | last _ => rfl
    | cons h _ => rw [hn] at h; simp at h
  | @cons i j l hn _ ih =>
    cases hb with
    | last h => rw [hn] at h; simp at h
    | cons h h2 =>
      rw [hn] at h
      obtain rfl := Option.some.inj h
      rw [ih h2]

theorem reaches_chain {st : Scopes} {k i : Nat} {l} (hr : Reaches st k i) (hl : ChainOf st i l) :
    ∃ pre g, l = pre ++ g ∧ ChainOf st k g := by
  induction hr generalizing l with
  | here => exact ⟨[], l, rfl, hl⟩
  | @step i j hn _ ih =>
    cases hl with
    | last h => rw [hn] at h; simp at h
    | cons h h2 =>
      rw [hn] at h
      obtain rfl := Option.some.inj h
      obtain ⟨pre, g, rfl, hg⟩ := ih h2
      exact ⟨_ :: pre, g, rfl, hg⟩

theorem chain_noreach {st st' : Scopes} {i : Nat} {l} (h : ScopesOk st) (hi : i < st.fresh)
    (hc : ChainOf st i l) (hr : ¬ Reaches st 0 i)
    (hl : ∀ j, j < st.fresh → j ≠ 0 → st'.lists j = st.lists j) : ChainOf st' i l := by
  have h0 : ∀ {i}, ¬ Reaches st 0 i → i ≠ 0 := by
    rintro i hr rfl; exact hr .here
  induction hc with
  | @last i hn =>
    rw [← hl i hi (h0 hr)] at hn ⊢
    exact .last hn
  | @cons i j l hn _ ih =>
    have hj := h.next i hi j hn
    have ih := ih hj (fun h => hr (.step hn h))
    rw [← hl i hi (h0 hr)] at hn ⊢
    exact .cons hn ih

theorem push_chain_global (st : Scopes) (h : ScopesOk st) (hc : st.current = 0) {g i l}
    (hg : ChainOf st 0 g) (hr : Reaches st 0 i) (hi : i < st.fresh) (hl : ChainOf st i l) :
    ∃ own, l = own ++ g ∧ ChainOf (pushScope st) i (own ++ (st.fresh, false) :: g) := by
  obtain ⟨h1, h2, h3, h4⟩ := push_global st h hc
  have base : ChainOf (pushScope st) 0 ((st.fresh, false) :: g) := by
    have key : ChainOf (pushScope st) st.fresh g := by
      cases hg with
      | last hn =>
        have e := ChainOf.last (st := pushScope st) (i := st.fresh) (by rw [h4]; exact hn)
        rw [h4] at e
        rw [h.global]; exact e
      | @cons _ j l' hn h' =>
        have hnr : ¬ Reaches st 0 j := by
          intro hr
          obtain ⟨pre, g', he, hg'⟩ := reaches_chain hr h'
          have := chain_unique hg' (ChainOf.cons hn h')
          have := congrArg List.length this
          have := congrArg List.length he
          simp at *
          omega
        have hj := h.next 0 h.pos j hn
        have e := ChainOf.cons (st := pushScope st) (i := st.fresh) (by rw [h4]; exact hn)
          (chain_noreach h hj h' hnr (fun k hk hk0 => h2 k hk0 (by omega)))
        rw [h4] at e
        rw [h.global]; exact e
    have e := ChainOf.cons (st := pushScope st) (i := 0) (j := st.fresh) (by rw [h3]) key
    rw [h3, h.global] at e
    exact e
  induction hr generalizing l with
  | here =>
    rw [chain_unique hl hg]
    exact ⟨[], rfl, base⟩
  | @step i j hn _ ih =>
    by_cases hi0 : i = 0
    · subst hi0
      rw [chain_unique hl hg]
      exact ⟨[], rfl, base⟩
    cases hl with
    | last h => rw [hn] at h; simp at h
    | @cons _ j' l' h' h2' =>
      rw [hn] at h'
      obtain rfl := Option.some.inj h'
      obtain ⟨own, rfl, ho⟩ := ih (h.next i hi j hn) h2'
      have hli : (pushScope st).lists i = st.lists i := h2 i hi0 (by omega)
      have e := ChainOf.cons (st := pushScope st) (i := i) (by rw [hli]; exact hn) ho
      rw [hli] at e
      exact ⟨_ :: own, rfl, e⟩

/-! ### Pattern-specific variables -/

theorem patLength_eq (p : PatVar) : patLength p = p.len := by
  simp [patLength, PatVar.len]; omega

/-- The list is in order and the cache points at the last element of each length. -/
structure PatOk (st : PatVars) (m : Nat) : Prop where
  sorted : st.list.Pairwise PatBefore
  ids : ∀ p ∈ st.list, p.id < m
  unique : st.list.Pairwise (fun a b => a.id ≠ b.id)
  last : ∀ n id, st.last n = some id → n < 256 ∧ ∃ q ∈ st.list, q.id = id ∧ q.len = n ∧ ∀ x ∈ st.list, x.len = n → x.id ≤ id

theorem insertByLen_perm (p : PatVar) (l : List PatVar) : (insertByLen p l).Perm (p :: l) := by
  induction l with
  | nil => exact .refl _
  | cons q qs ih =>
    simp only [insertByLen]
    split
    · exact .refl _
    · exact (ih.cons q).trans (.swap ..)

theorem insertAfter_perm (id : Nat) (p : PatVar) (l : List PatVar) (h : ∃ q ∈ l, q.id = id) :
    (insertAfter id p l).Perm (p :: l) := by
  induction l with
  | nil => simp at h
  | cons q qs ih =>
    simp only [insertAfter]
    split
    · exact .swap ..
    · rename_i hne
      obtain ⟨x, hx, hid⟩ := h
      rcases List.mem_cons.mp hx with rfl | hx
      · exact absurd hid hne
      · exact ((ih ⟨x, hx, hid⟩).cons q).trans (.swap ..)

theorem before_new {p q : PatVar} (h : q.len ≤ p.len) (hid : q.id < p.id) : PatBefore q p := by
  unfold PatBefore
  rw [patLength_eq, patLength_eq]
  rcases Nat.lt_or_eq_of_le h with h | h
  · exact Or.inl h
  · exact Or.inr ⟨h, hid⟩

theorem before_len {p q : PatVar} (h : PatBefore p q) : p.len ≤ q.len := by
  unfold PatBefore at h
  rw [patLength_eq, patLength_eq] at h
  omega

theorem insertByLen_sorted (p : PatVar) (l : List PatVar) (hs : l.Pairwise PatBefore)
    (hid : ∀ q ∈ l, q.id < p.id) : (insertByLen p l).Pairwise PatBefore := by
  induction l with
  | nil => simp [insertByLen]
  | cons q qs ih =>
    rw [List.pairwise_cons] at hs
    simp only [insertByLen]
    split
    · rename_i hlt
      rw [List.pairwise_cons]
      refine ⟨?_, List.pairwise_cons.mpr hs⟩
      intro x hx
      left
      rw [patLength_eq, patLength_eq]
      rcases List.mem_cons.mp hx with rfl | hx
      · exact hlt
      · have := before_len (hs.1 x hx); omega
    · rename_i hge
      rw [List.pairwise_cons]
      refine ⟨?_, ih hs.2 (fun x hx => hid x (by simp [hx]))⟩
      intro x hx
      have hx := (insertByLen_perm p qs).mem_iff.mp hx
      rcases List.mem_cons.mp hx with rfl | hx
      · exact before_new (by omega) (hid q (by simp))
      · exact hs.1 x hx

theorem insertAfter_eq (p : PatVar) (id : Nat) (l : List PatVar) (hs : l.Pairwise PatBefore)
    (hu : l.Pairwise (fun a b => a.id ≠ b.id))
    (hq : ∃ q ∈ l, q.id = id ∧ q.len = p.len ∧ ∀ x ∈ l, x.len = p.len → x.id ≤ id) :
    insertAfter id p l = insertByLen p l := by
  induction l with
  | nil => simp at hq
  | cons a l ih =>
    obtain ⟨q, hm, hid, hlen, hmax⟩ := hq
    rw [List.pairwise_cons] at hs hu
    simp only [insertAfter, insertByLen]
    by_cases ha : a.id = id
    · have haq : q = a := by
        rcases List.mem_cons.mp hm with h | h
        · exact h
        · exact absurd (by rw [ha, hid]) (hu.1 q h)
      subst haq
      rw [if_pos ha, if_neg (by omega)]
      congr 1
      cases l with
      | nil => rfl
      | cons b l =>
        have hb := hs.1 b (by simp)
        have hbm := hmax b (by simp)
        unfold PatBefore at hb
        rw [patLength_eq, patLength_eq] at hb
        rw [insertByLen, if_pos]
        rcases hb with hb | hb
        · omega
        · have := hbm (by omega); omega
    · have hql : q ∈ l := by
        rcases List.mem_cons.mp hm with h | h
        · exact absurd (h ▸ hid) ha
        · exact h
      have := before_len (hs.1 q hql)
      rw [if_neg ha, if_neg (by omega)]
      congr 1
      exact ih hs.2 hu.2 ⟨q, hql, hid, hlen, fun x hx => hmax x (by simp [hx])⟩

theorem create_list (st : PatVars) (m : Nat) (h : PatOk st m) (p : PatVar) :
    (createPatternVar st p).list = insertByLen p st.list := by
  simp only [createPatternVar]
  by_cases hne : st.list = []
  · simp [hne, insertByLen]
  · rw [if_pos hne]
    by_cases hp : p.len < 256
    · rw [if_pos hp]
      cases hl : st.last p.len with
      | none => rfl
      | some id => exact insertAfter_eq p id st.list h.sorted h.unique (h.last _ _ hl).2
    · rw [if_neg hp]

theorem create_ok (st : PatVars) (m : Nat) (h : PatOk st m) (p : PatVar) (hp : p.id = m) :
    PatOk (createPatternVar st p) (m + 1) := by
  have hl := create_list st m h p
  have hperm := insertByLen_perm p st.list
  refine ⟨?_, ?_, ?_, ?_⟩
  · rw [hl]
    exact insertByLen_sorted p st.list h.sorted (fun q hq => by have := h.ids q hq; omega)
  · rw [hl]
    intro q hq
    rcases List.mem_cons.mp (hperm.mem_iff.mp hq) with rfl | hq
    · omega
    · have := h.ids q hq; omega
  · rw [hl]
    refine (hperm.symm.pairwise ?_ (fun {a b} hab => Ne.symm hab))
    rw [List.pairwise_cons]
    refine ⟨?_, h.unique⟩
    intro q hq
    have := h.ids q hq; omega
  · intro n id hn
    rw [hl]
    simp only [createPatternVar] at hn
    have old : n ≠ p.len → st.last n = some id →
        n < 256 ∧ ∃ q ∈ insertByLen p st.list, q.id = id ∧ q.len = n ∧
          ∀ x ∈ insertByLen p st.list, x.len = n → x.id ≤ id := by
      intro hne hk
      obtain ⟨h0, q, h1, h2, h3, h4⟩ := h.last n id hk
      refine ⟨h0, q, hperm.mem_iff.mpr (by simp [h1]), h2, h3, ?_⟩
      intro x hx hxn
      rcases List.mem_cons.mp (hperm.mem_iff.mp hx) with rfl | hx
      · exact absurd hxn.symm hne
      · exact h4 x hx hxn
    by_cases hp256 : p.len < 256
    · rw [if_pos hp256] at hn
      by_cases hnp : n = p.len
      · simp only [hnp, if_true, Option.some.injEq] at hn
        refine ⟨by omega, p, hperm.mem_iff.mpr (by simp), hn, hnp.symm, ?_⟩
        intro x hx _
        rcases List.mem_cons.mp (hperm.mem_iff.mp hx) with rfl | hx
        · omega
        · have := h.ids x hx; omega
      · simp only [hnp, if_false] at hn
        exact old hnp hn
    · rw [if_neg hp256] at hn
      exact old (by have := (h.last n id hn).1; omega) hn

theorem patVarMatches_iff (p : PatVar) (t : Str) : patVarMatches p t = true ↔ PatMatches p t := by
  unfold patVarMatches PatMatches PatVar.len
  constructor
  · intro h
    split at h
    · simp at h
    · rename_i hlen
      simp only [Bool.and_eq_true, beq_iff_eq] at h
      obtain ⟨h1, h2⟩ := h
      refine ⟨(t.drop p.pre.length).take (t.length - (p.pre.length + 1 + p.post.length) + 1), ?_, ?_⟩
      · intro hh
        have := congrArg List.length hh
        simp at this
        omega
      · rw [List.append_assoc]
        have e1 := List.take_append_drop p.pre.length t
        have e2 := List.take_append_drop (t.length - (p.pre.length + 1 + p.post.length) + 1) (t.drop p.pre.length)
        rw [h1] at e1
        rw [h2] at e2
        rw [e2]
        exact e1.symm
  · rintro ⟨stem, hne, rfl⟩
    have hl : 0 < stem.length := List.length_pos_iff.mpr hne
    rw [if_neg (by simp; omega)]
    have e : (p.pre ++ stem ++ p.post).length - (p.pre.length + 1 + p.post.length) + 1 = stem.length := by
      simp; omega
    simp only [e]
    simp [List.append_assoc]

theorem patternVarsFor_eq (t : Str) (l : List PatVar) :
    patternVarsFor t l = l.filter (fun p => patVarMatches p t) := by
  induction l with
  | nil => rw [patternVarsFor]; simp [lookupPatternVar]
  | cons p l ih =>
    rw [patternVarsFor]
    by_cases hp : patVarMatches p t = true
    · rw [List.filter_cons, if_pos hp, ← ih]
      split
      · rename_i h; simp [lookupPatternVar, hp] at h
      · rename_i h
        simp only [lookupPatternVar, hp, if_true, Option.some.injEq, Prod.mk.injEq] at h
        rw [← h.1, ← h.2]
    · rw [List.filter_cons, if_neg hp, ← ih]
      have e : lookupPatternVar t (p :: l) = lookupPatternVar t l := by
        simp [lookupPatternVar, hp]
      split
      · rename_i h
        rw [e] at h
        rw [patternVarsFor]
        split
        · rfl
        · rename_i h'; rw [h] at h'; simp at h'
      · rename_i q r h
        rw [e] at h
        conv => rhs; rw [patternVarsFor]
        split
        · rename_i h'; rw [h] at h'; simp at h'
        · rename_i h'
          rw [h] at h'
          simp only [Option.some.injEq, Prod.mk.injEq] at h'
          rw [h'.1, h'.2]

theorem createAll_ok (ps : List (Str × Str)) (m : Nat) (st : PatVars) (h : PatOk st m) :
    PatOk (createAll m st ps) (m + ps.length) ∧
      (createAll m st ps).list.Perm
        (st.list ++ (ps.zipIdx m).map (fun q => (⟨q.2, q.1.1, q.1.2⟩ : PatVar))) := by
  induction ps generalizing m st with
  | nil => exact ⟨h, by simp [createAll]⟩
  | cons q ps ih =>
    obtain ⟨pre, post⟩ := q
    have h1 := create_ok st m h ⟨m, pre, post⟩ rfl
    obtain ⟨a, b⟩ := ih (m + 1) _ h1
    refine ⟨by simpa [createAll, Nat.add_assoc, Nat.add_comm 1] using a, ?_⟩
    rw [createAll]
    refine b.trans ?_
    rw [create_list st m h]
    simp only [List.zipIdx_cons, List.map_cons]
    exact ((insertByLen_perm _ _).append_right _).trans (by
      simp only [List.cons_append]
      exact List.perm_middle.symm)

end Remake
