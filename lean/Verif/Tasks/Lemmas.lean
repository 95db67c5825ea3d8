import Verif.Tasks.Spec
set_option linter.unusedVariables false
set_option linter.unusedSimpArgs false
/-!
# Lemmas for C149
-/
namespace Remake
open Spec

theorem dscRun_append (st : DscSt) (a b : List DscOp) : dscRun st (a ++ b) = dscRun (dscRun st a) b := by
  simp [dscRun, List.foldl_append]

theorem atMostOne_tail {l : DscLine} {ls : List DscLine} (h : AtMostOne (l :: ls)) : AtMostOne ls := by
  intro a r ts mid b e
  exact h (l :: a) r ts mid b (by rw [e]; rfl)

/-- The state is that of a reader that has `cur` for the next rule; `pend` is what waits, with its description, and `k` whether there has been a description since. -/
def DscInv (st : DscSt) (cur : Option Str) (pend : List (List Str × Option Str)) (w : List (Option (List Str × Nat))) (m : Nat) (k : Bool) : Prop :=
  (st.dl ≤ m ∨ (st.d = none ∧ st.p = none)) ∧
  ((st.waiting = none :: w ∧ pend = [] ∧ st.d = cur) ∨
    ∃ ts n D, n ≤ m ∧ st.waiting = some (ts, n) :: w ∧ pend = [(ts, D)] ∧
      ((k = false ∧ (st.dl ≤ n ∨ (st.d = none ∧ st.p = none)) ∧ st.d = D ∧ cur = none) ∨
        (k = true ∧ n < st.dl ∧ st.dl ≤ m ∧ st.p = D ∧ st.d = cur)))

/-- After recording, nothing waits, and what waited has been put out. -/
theorem DscInv.record {st cur pend w m k} (h : DscInv st cur pend w m k) :
    DscInv (dscRecord st) cur [] w m false ∧ (dscRecord st).out = st.out ++ pend ∧ (dscRecord st).waiting = none :: w := by
  obtain ⟨hj, ⟨h1, h2, h3⟩ | ⟨ts, n, D, hn, h1, h2, h3⟩⟩ := h
  · have e : dscRecord st = st := by simp [dscRecord, h1]
    rw [e, h2]
    exact ⟨⟨hj, .inl ⟨h1, rfl, h3⟩⟩, by simp, h1⟩
  · have e : dscRecord st = { d := if st.dl > n then st.d else none
                              p := if st.dl > n then none else st.p
                              dl := st.dl
                              waiting := none :: w
                              out := st.out ++ [(ts, if st.dl > n then st.p else st.d)] } := by
      simp [dscRecord, h1]
    rw [e, h2]
    rcases h3 with ⟨hk, ha, hd, hc⟩ | ⟨hk, ha, hb, hd, hc⟩
    · by_cases hg : st.dl > n
      · have hz : st.d = none ∧ st.p = none := by
          rcases ha with ha | ha
          · omega
          · exact ha
        simp only [if_pos hg]
        refine ⟨⟨.inr ⟨hz.1, rfl⟩, .inl ⟨rfl, rfl, by rw [hz.1, hc]⟩⟩, ?_, by trivial⟩
        rw [← hd, hz.1, hz.2]
      · simp only [if_neg hg]
        refine ⟨⟨.inl (by show st.dl ≤ m; omega), .inl ⟨rfl, rfl, by rw [hc]⟩⟩, ?_, by trivial⟩
        rw [hd]
    · simp only [if_pos (show st.dl > n from ha)]
      refine ⟨⟨.inl hb, .inl ⟨rfl, rfl, hc⟩⟩, ?_, by trivial⟩
      rw [hd]

/-- Nothing that waits: later lines. -/
theorem DscInv.mono {st cur pend w m m' k} (h : DscInv st cur pend w m k) (hm : m ≤ m') : DscInv st cur pend w m' k := by
  obtain ⟨hj, h | ⟨ts, n, D, hn, h1, h2, h3⟩⟩ := h
  · exact ⟨hj.imp_left (by omega), .inl h⟩
  · refine ⟨hj.imp_left (by omega), .inr ⟨ts, n, D, by omega, h1, h2, h3.imp_right ?_⟩⟩
    rintro ⟨a, b, c, d⟩
    exact ⟨a, b, by omega, d⟩

/-- A description, when there has been none since the rule that waits. -/
theorem DscInv.comment {st cur pend w m no k} (h : DscInv st cur pend w m k) (hk : k = true → pend = []) (hm : m < no) (t : Str) :
    DscInv (dscOp st (.comment no t)) (some t) pend w no true := by
  refine ⟨.inl (Nat.le_refl _), ?_⟩
  obtain ⟨hj, ⟨h1, h2, h3⟩ | ⟨ts, n, D, hn, h1, h2, h3⟩⟩ := h
  · exact .inl ⟨h1, h2, rfl⟩
  · rcases h3 with ⟨_, _, hd, _⟩ | ⟨hk', _⟩
    · exact .inr ⟨ts, n, D, by omega, h1, h2, .inr ⟨rfl, by show n < no; omega, Nat.le_refl _, hd, rfl⟩⟩
    · have := hk hk'
      rw [h2] at this
      cases this

/-- A rule line, after the recording. -/
theorem DscInv.starts {st cur w m} (h : DscInv st cur [] w m false) (hw : st.waiting = none :: w) (ts : List Str) :
    DscInv (dscOp st (.starts m ts)) none [(ts, cur)] w m false := by
  obtain ⟨hj, ⟨h1, h2, h3⟩ | ⟨ts', n, D, hn, h1, h2, h3⟩⟩ := h
  · refine ⟨hj, .inr ⟨ts, m, cur, Nat.le_refl _, by simp [dscOp, hw], rfl, .inl ⟨rfl, hj, h3, rfl⟩⟩⟩
  · cases h2

theorem DscInv.nopend {st cur w m k k'} (h : DscInv st cur [] w m k) : DscInv st cur [] w m k' := by
  obtain ⟨hj, h | ⟨ts', n, D, hn, h1, h2, h3⟩⟩ := h
  · exact ⟨hj, .inl h⟩
  · cases h2

/-- The whole file. -/
theorem dscRun_lines (w : List (Option (List Str × Nat))) : ∀ (ls : List DscLine) (st : DscSt) (cur : Option Str)
    (pend : List (List Str × Option Str)) (m : Nat) (k : Bool),
    DscInv st cur pend w m k → ls.Pairwise (·.no < ·.no) → (∀ l ∈ ls, m < l.no) → AtMostOne ls →
    (pend ≠ [] → ∀ mid b, ls = mid ++ b → (∀ l ∈ mid.dropLast, l.kind = .other) → (if k then 1 else 0) + (mid.filter hasDescription).length ≤ 1) →
    (dscRun st (ls.flatMap dscLineOps ++ [.leave])).out = st.out ++ pend ++ descriptions cur ls ∧
    (dscRun st (ls.flatMap dscLineOps ++ [.leave])).waiting = w := by
  intro ls
  induction ls with
  | nil =>
    intro st cur pend m k h _ _ _ _
    have := h.record
    simp [dscRun, dscOp, this.2.1, this.2.2, descriptions]
  | cons l ls ih =>
    intro st cur pend m k h hp hm ho hs
    have hlm : m < l.no := hm l (by simp)
    rw [List.pairwise_cons] at hp
    -- after the comment
    have hc : ∃ k', DscInv (dscRun st (match commentDescription l.text with
          | some t => [.comment l.no t]
          | none => [])) ((commentDescription l.text).or cur) pend w l.no k' ∧
        (dscRun st (match commentDescription l.text with
          | some t => [.comment l.no t]
          | none => [])).out = st.out ∧
        (pend ≠ [] → (if k' then 1 else 0) = (if k then 1 else 0) + (if hasDescription l then 1 else 0)) := by
      cases e : commentDescription l.text with
      | none =>
        refine ⟨k, h.mono (by omega), rfl, ?_⟩
        intro _
        simp [hasDescription, e]
      | some t =>
        have hkf : pend ≠ [] → k = false := by
          intro hpn
          have := hs hpn [l] ls rfl (by simp)
          have e2 : hasDescription l = true := by simp [hasDescription, e]
          rw [List.filter_cons_of_pos e2] at this
          cases k with
          | false => rfl
          | true => simp at this
        refine ⟨true, ?_, rfl, ?_⟩
        · apply DscInv.comment h _ hlm
          intro hk
          by_cases hpn : pend = []
          · exact hpn
          · rw [hkf hpn] at hk; cases hk
        · intro hpn
          rw [hkf hpn]
          simp [hasDescription, e]
    obtain ⟨k', hi, hout, hk'⟩ := hc
    rw [List.flatMap_cons, List.append_assoc]
    unfold dscLineOps
    rw [List.append_assoc, dscRun_append]
    generalize dscRun st (match commentDescription l.text with
          | some t => [.comment l.no t]
          | none => []) = s1 at hi hout ⊢
    show (dscRun s1 (_ ++ (ls.flatMap dscLineOps ++ [.leave]))).out = _ ∧ (dscRun s1 (_ ++ (ls.flatMap dscLineOps ++ [.leave]))).waiting = _
    have hsub := atMostOne_tail ho
    have hnos : ∀ x ∈ ls, l.no < x.no := fun x hx => hp.1 x hx
    cases hkind : l.kind with
    | other =>
      simp only [List.nil_append]
      have := ih s1 _ pend l.no k' hi hp.2 hnos hsub (by
        intro hpn mid b e hmid
        have h1 := hs hpn (l :: mid) b (by rw [e]; rfl) (by
          intro x hx
          cases mid with
          | nil => simp at hx
          | cons y ys =>
            rw [List.dropLast_cons_of_ne_nil (by simp)] at hx
            rcases List.mem_cons.1 hx with rfl | hx
            · exact hkind
            · exact hmid x hx)
        rw [hk' hpn]
        by_cases hd : hasDescription l = true
        · rw [List.filter_cons_of_pos hd, List.length_cons] at h1
          rw [if_pos hd]
          omega
        · rw [List.filter_cons_of_neg hd] at h1
          rw [if_neg hd]
          omega)
      rw [hout] at this
      simpa [descriptions, hkind] using this
    | ends =>
      rw [dscRun_append]
      have hr := hi.record
      have := ih (dscRecord s1) _ [] l.no false hr.1 hp.2 hnos hsub (by intro h; exact absurd rfl h)
      rw [hr.2.1, hout] at this
      simpa [descriptions, hkind, dscRun, dscOp] using this
    | rule ts =>
      rw [dscRun_append]
      have hr := hi.record
      have hst := hr.1.starts hr.2.2 ts
      have := ih (dscOp (dscRecord s1) (.starts l.no ts)) none [(ts, (commentDescription l.text).or cur)] l.no false hst hp.2 hnos hsub (by
        intro _ mid b e hmid
        have := ho [] l ts mid b (by rw [e]; rfl) hkind hmid
        simpa using this)
      have ho2 : (dscOp (dscRecord s1) (.starts l.no ts)).out = (dscRecord s1).out := rfl
      rw [ho2, hr.2.1, hout] at this
      simpa [descriptions, hkind, dscRun, dscOp] using this

end Remake
