import Verif.Tasks.Props
set_option linter.unusedVariables false
set_option linter.unusedSimpArgs false
/-!
# C149: descriptions in makefiles that include others
-/
namespace Remake
open Spec

/-- A makefile: lines, and includes of other makefiles, with what follows. -/
inductive DscText where
  | nil
  | line (l : DscLine) (rest : DscText)
  | incl (sub rest : DscText)

/-- The events of the lines (read.c 909-965 for `include`: the rule before it ends, then `eval` is called for the other makefile). -/
def DscText.ops : DscText → List DscOp
  | .nil => []
  | .line l rest => dscLineOps l ++ rest.ops
  | .incl sub rest => .ends :: .enter :: (sub.ops ++ .leave :: rest.ops)

/-- The rules in the order in which they are read, each with its description. -/
def Spec.textDescriptions : Option Str → DscText → List (List Str × Option Str)
  | _, .nil => []
  | cur, .line l rest =>
    let cur := (commentDescription l.text).or cur
    match l.kind with
    | .rule ts => (ts, cur) :: textDescriptions none rest
    | _ => textDescriptions cur rest
  | cur, .incl sub rest => textDescriptions none sub ++ textDescriptions cur rest

/-- Every description has its rule: after it there is no other one, no include and no end before the rule.  (`open'` says whether there is one without its rule.)  The lines of each
makefile have increasing numbers. -/
def Spec.Tidy : Bool → Nat → DscText → Prop
  | open', _, .nil => open' = false
  | open', m, .line l rest =>
    m < l.no ∧ (hasDescription l = true → open' = false) ∧
    (match l.kind with
      | .rule _ => Tidy false l.no rest
      | _ => Tidy (open' || hasDescription l) l.no rest)
  | open', m, .incl sub rest => open' = false ∧ Tidy false 0 sub ∧ Tidy false m rest

/-- As `DscInv`, and the older description is forgotten when it is not needed. -/
def DscTidy (st : DscSt) (cur : Option Str) (pend : List (List Str × Option Str)) (w : List (Option (List Str × Nat))) (m : Nat) : Prop :=
  (st.waiting = none :: w ∧ pend = [] ∧ st.d = cur ∧ st.p = none ∧ (st.dl ≤ m ∨ st.d = none)) ∨
  ∃ ts n D, n ≤ m ∧ st.waiting = some (ts, n) :: w ∧ pend = [(ts, D)] ∧
    (((st.dl ≤ n ∨ st.d = none) ∧ st.d = D ∧ st.p = none ∧ cur = none) ∨
      (n < st.dl ∧ st.dl ≤ m ∧ st.p = D ∧ st.d = cur ∧ cur.isSome))

theorem DscTidy.record {st cur pend w m} (h : DscTidy st cur pend w m) :
    DscTidy (dscRecord st) cur [] w m ∧ (dscRecord st).out = st.out ++ pend ∧ (dscRecord st).waiting = none :: w := by
  rcases h with ⟨h1, h2, h3, h4, h5⟩ | ⟨ts, n, D, hn, h1, h2, h3⟩
  · have e : dscRecord st = st := by simp [dscRecord, h1]
    rw [e, h2]
    exact ⟨.inl ⟨h1, rfl, h3, h4, h5⟩, by simp, h1⟩
  · have e : dscRecord st = { d := if st.dl > n then st.d else none
                              p := if st.dl > n then none else st.p
                              dl := st.dl
                              waiting := none :: w
                              out := st.out ++ [(ts, if st.dl > n then st.p else st.d)] } := by
      simp [dscRecord, h1]
    rw [e, h2]
    rcases h3 with ⟨ha, hd, hp, hc⟩ | ⟨ha, hb, hp, hd, hc⟩
    · by_cases hg : st.dl > n
      · have hz : st.d = none := by
          rcases ha with ha | ha
          · omega
          · exact ha
        simp only [if_pos hg]
        refine ⟨.inl ⟨rfl, rfl, by rw [hc]; exact hz, rfl, .inr hz⟩, ?_, by trivial⟩
        rw [← hd, hz, hp]
      · simp only [if_neg hg]
        refine ⟨.inl ⟨rfl, rfl, by rw [hc], hp, .inr rfl⟩, ?_, by trivial⟩
        rw [hd]
    · simp only [if_pos (show st.dl > n from ha)]
      refine ⟨.inl ⟨rfl, rfl, hd, rfl, .inl hb⟩, ?_, by trivial⟩
      rw [hp]

theorem DscTidy.mono {st cur pend w m m'} (h : DscTidy st cur pend w m) (hm : m ≤ m') : DscTidy st cur pend w m' := by
  rcases h with ⟨h1, h2, h3, h4, h5⟩ | ⟨ts, n, D, hn, h1, h2, h3⟩
  · exact .inl ⟨h1, h2, h3, h4, h5.imp_left (by omega)⟩
  · refine .inr ⟨ts, n, D, by omega, h1, h2, h3.imp_right ?_⟩
    rintro ⟨a, b, c⟩
    exact ⟨a, by omega, c⟩

theorem DscTidy.comment {st pend w m no} (h : DscTidy st none pend w m) (hm : m < no) (t : Str) :
    DscTidy (dscOp st (.comment no t)) (some t) pend w no := by
  rcases h with ⟨h1, h2, h3, h4, h5⟩ | ⟨ts, n, D, hn, h1, h2, h3⟩
  · exact .inl ⟨h1, h2, rfl, h3, .inl (Nat.le_refl _)⟩
  · rcases h3 with ⟨_, hd, _, _⟩ | ⟨_, _, _, _, hc⟩
    · exact .inr ⟨ts, n, D, by omega, h1, h2, .inr ⟨by show n < no; omega, Nat.le_refl _, hd, rfl, rfl⟩⟩
    · cases hc

/-- A whole makefile. -/
theorem dscRun_text (tx : DscText) : ∀ (w : List (Option (List Str × Nat))) (st : DscSt) (cur : Option Str) (pend : List (List Str × Option Str)) (m : Nat),
    DscTidy st cur pend w m → Tidy cur.isSome m tx →
    (dscRun st (tx.ops ++ [.leave])).out = st.out ++ pend ++ textDescriptions cur tx ∧
    (dscRun st (tx.ops ++ [.leave])).waiting = w ∧ (dscRun st (tx.ops ++ [.leave])).d = none ∧ (dscRun st (tx.ops ++ [.leave])).p = none := by
  induction tx with
  | nil =>
    intro w st cur pend m h ht
    simp only [Tidy] at ht
    have hc : cur = none := by cases cur <;> simp at ht ⊢
    subst hc
    obtain ⟨h1, h2, h3⟩ := h.record
    rcases h1 with ⟨_, _, h4, h5, _⟩ | ⟨_, _, _, _, h4, h5, _⟩
    · simp [DscText.ops, dscRun, dscOp, h2, h3, h4, h5, textDescriptions]
    · cases h5
  | line l rest ih =>
    intro w st cur pend m h ht
    simp only [Tidy] at ht
    obtain ⟨hlm, hone, ht⟩ := ht
    have hc : DscTidy (dscRun st (match commentDescription l.text with
          | some t => [.comment l.no t]
          | none => [])) ((commentDescription l.text).or cur) pend w l.no ∧
        (dscRun st (match commentDescription l.text with
          | some t => [.comment l.no t]
          | none => [])).out = st.out := by
      cases e : commentDescription l.text with
      | none => exact ⟨h.mono (by omega), rfl⟩
      | some t =>
        have : cur = none := by
          have := hone (by simp [hasDescription, e])
          cases cur <;> simp at this ⊢
        subst this
        exact ⟨h.comment hlm t, rfl⟩
    have hsome : ((commentDescription l.text).or cur).isSome = (cur.isSome || hasDescription l) := by
      unfold hasDescription
      cases commentDescription l.text <;> cases cur <;> rfl
    obtain ⟨hi, hout⟩ := hc
    simp only [DscText.ops]
    unfold dscLineOps
    rw [List.append_assoc, List.append_assoc, dscRun_append]
    generalize dscRun st (match commentDescription l.text with
          | some t => [.comment l.no t]
          | none => []) = s1 at hi hout ⊢
    cases hkind : l.kind with
    | other =>
      simp only [hkind] at ht
      rw [← hsome] at ht
      have := ih w s1 _ pend l.no hi ht
      rw [hout] at this
      simpa [textDescriptions, hkind] using this
    | ends =>
      simp only [hkind] at ht
      rw [← hsome] at ht
      rw [dscRun_append]
      obtain ⟨h1, h2, h3⟩ := hi.record
      have := ih w (dscRecord s1) _ [] l.no h1 ht
      rw [h2, hout] at this
      simpa [textDescriptions, hkind, dscRun, dscOp] using this
    | rule ts =>
      simp only [hkind] at ht
      rw [dscRun_append]
      obtain ⟨h1, h2, h3⟩ := hi.record
      have hst : DscTidy (dscOp (dscRecord s1) (.starts l.no ts)) none [(ts, (commentDescription l.text).or cur)] w l.no := by
        rcases h1 with ⟨_, _, h4, h5, h6⟩ | ⟨_, _, _, _, _, h5, _⟩
        · exact .inr ⟨ts, l.no, _, Nat.le_refl _, by simp [dscOp, h3], rfl, .inl ⟨h6, h4, h5, rfl⟩⟩
        · cases h5
      have := ih w (dscOp (dscRecord s1) (.starts l.no ts)) none _ l.no hst ht
      have ho2 : (dscOp (dscRecord s1) (.starts l.no ts)).out = (dscRecord s1).out := rfl
      rw [ho2, h2, hout] at this
      simpa [textDescriptions, hkind, dscRun, dscOp] using this
  | incl sub rest ihs ihr =>
    intro w st cur pend m h ht
    simp only [Tidy] at ht
    obtain ⟨hc, hts, htr⟩ := ht
    have hc : cur = none := by cases cur <;> simp at hc ⊢
    subst hc
    obtain ⟨h1, h2, h3⟩ := h.record
    have e : DscText.ops (.incl sub rest) ++ [.leave] = [.ends, .enter] ++ ((sub.ops ++ [.leave]) ++ (rest.ops ++ [.leave])) := by
      simp [DscText.ops]
    rw [e, dscRun_append, dscRun_append]
    have e2 : dscRun st [.ends, .enter] = dscOp (dscRecord st) .enter := rfl
    rw [e2]
    obtain ⟨a, b, c, d⟩ := ihs (none :: w) (dscOp (dscRecord st) .enter) none [] 0 (.inl ⟨by simp [dscOp, h3], rfl, rfl, rfl, .inr rfl⟩) hts
    generalize dscRun (dscOp (dscRecord st) .enter) (sub.ops ++ [.leave]) = s2 at a b c d ⊢
    obtain ⟨a2, b2, c2, d2⟩ := ihr w s2 none [] m (.inl ⟨b, rfl, c, d, .inr c⟩) htr
    refine ⟨?_, b2, c2, d2⟩
    rw [a2, a]
    have ho : (dscOp (dscRecord st) .enter).out = (dscRecord st).out := rfl
    rw [ho, h2]
    simp [textDescriptions]

/-- **C149** Where every description has its rule, the rules get their descriptions over any nesting of included makefiles too, and nothing is left over. -/
theorem C149_included_partial (tx : DscText) (h : Tidy false 0 tx) (st : DscSt) :
    (dscRun st (.enter :: (tx.ops ++ [.leave]))).out = st.out ++ textDescriptions none tx ∧
    (dscRun st (.enter :: (tx.ops ++ [.leave]))).waiting = st.waiting ∧
    (dscRun st (.enter :: (tx.ops ++ [.leave]))).d = none ∧ (dscRun st (.enter :: (tx.ops ++ [.leave]))).p = none := by
  have := dscRun_text tx st.waiting (dscOp st .enter) none [] 0 (.inl ⟨rfl, rfl, rfl, rfl, .inr rfl⟩) h
  rw [List.append_nil] at this
  exact this

/-- A makefile with a rule, an include of a longer one, and another rule. -/
def dscIncluding : DscText :=
  .line ⟨1, "#: first".toList, .other⟩ (.line ⟨2, "a:".toList, .rule ["a".toList]⟩
    (.incl (.line ⟨40, "#: second".toList, .other⟩ (.line ⟨41, "b:".toList, .rule ["b".toList]⟩ .nil))
      (.line ⟨4, "c:".toList, .rule ["c".toList]⟩ .nil)))

example : Tidy false 0 dscIncluding := by
  have h1 : hasDescription ⟨1, "#: first".toList, .other⟩ = true := by decide +kernel
  have h2 : hasDescription ⟨40, "#: second".toList, .other⟩ = true := by decide +kernel
  have h3 : hasDescription ⟨2, "a:".toList, .rule ["a".toList]⟩ = false := by decide +kernel
  have h4 : hasDescription ⟨41, "b:".toList, .rule ["b".toList]⟩ = false := by decide +kernel
  simp only [dscIncluding, Tidy, h1, h2, h3, h4]
  simp
example : textDescriptions none dscIncluding =
    [(["a".toList], some "first".toList), (["b".toList], some "second".toList), (["c".toList], none)] := by decide +kernel

end Remake
