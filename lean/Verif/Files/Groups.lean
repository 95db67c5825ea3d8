import Verif.Files.Runs
/-! Groups of targets that are made together. -/
set_option linter.unusedSimpArgs false
namespace Remake
open Spec

/-- The name has a single record, and no double-colon rules. -/
def Solo (db : FileDb) (n : Str) (f : FEntry) : Prop := slotAt db n = ⟨[f], false⟩

theorem set_isSome {db : FileDb} {n m : Str} {s : FSlot} (h : (db n).isSome) :
    ((db.set m s) n).isSome := by
  unfold FileDb.set; split <;> simp [h]

theorem enterFile_isSome {db : FileDb} {n m : Str} (h : (db n).isSome) :
    ((enterFile db m) n).isSome := by
  unfold enterFile
  cases db m with
  | none => exact set_isSome h
  | some s =>
    cases hd : s.double
    · simp only [hd, Bool.false_eq_true, if_false]; exact h
    · simp only [hd, if_true]; exact set_isSome h

theorem enterPrereqs_isSome {n : Str} : ∀ (ds : List PreReq) {db : FileDb}, (db n).isSome →
    ((enterPrereqs db ds).1 n).isSome := by
  intro ds
  induction ds with
  | nil => intro db h; exact h
  | cons d ds ih =>
    intro db h
    unfold enterPrereqs
    simp only
    apply ih
    split
    · exact h
    · exact enterFile_isSome h

theorem recordTarget_isSome {r : FRule} {deps : List PreReq} {db db' : FileDb} {m n : Str}
    {w : List FWarn} {i : Nat} (h : recordTarget r deps db m = .ok (db', w, i))
    (hs : m = n ∨ (db n).isSome) : (db' n).isSome := by
  rw [recordTarget_eq] at h
  simp only at h
  have key : ∀ s, (((enteredDeps r deps (enterFile db m) m).1.set m s) n).isSome := by
    intro s
    rcases hs with rfl | hs
    · simp [FileDb.set]
    · apply set_isSome
      unfold enteredDeps
      split
      · exact enterPrereqs_isSome _ (enterFile_isSome hs)
      · exact enterFile_isSome hs
  split at h
  · split at h
    · cases h
    · cases h; exact key _
  · split at h
    · cases h
    · cases h; exact key _

theorem recordTargets_isSome {r : FRule} {deps : List PreReq} {n : Str} :
    ∀ (ns : List Str) {db db' : FileDb} {w : List FWarn} {hs : List (Str × Nat)},
      recordTargets r deps db ns = .ok (db', w, hs) → n ∈ ns ∨ (db n).isSome → (db' n).isSome := by
  intro ns
  induction ns with
  | nil => intro db db' w hs h hn; cases h; simpa using hn
  | cons m ns ih =>
    intro db db' w hs h hn
    unfold recordTargets at h
    cases h1 : recordTarget r deps db m with
    | fatal => rw [h1] at h; cases h
    | ok x =>
      obtain ⟨db1, w1, i⟩ := x
      rw [h1] at h
      simp only at h
      cases h2 : recordTargets r deps db1 ns with
      | fatal => rw [h2] at h; cases h
      | ok y =>
        obtain ⟨db2, w2, is⟩ := y
        rw [h2] at h
        cases h
        refine ih h2 ?_
        rcases hn with hn | hn
        · rcases List.mem_cons.1 hn with rfl | hn
          · exact .inr (recordTarget_isSome h1 (.inl rfl))
          · exact .inl hn
        · exact .inr (recordTarget_isSome h1 (.inr hn))

theorem recordTarget_also {r : FRule} {deps : List PreReq} {db db' : FileDb} {m n : Str}
    {w : List FWarn} {i : Nat} {f : FEntry} (hn : lookupName n = n) (hm : m = n → r.double = false)
    (hs : Solo db n f) (h : recordTarget r deps db m = .ok (db', w, i)) :
    (∃ f', Solo db' n f' ∧ f'.also = f.also) ∧ (m = n → i = 0) := by
  by_cases hmn : m = n
  · subst hmn
    rw [recordTarget_eq] at h
    simp only [hm rfl, Bool.not_false, if_true, double_eq, enterFile_entries] at h
    rw [hs] at h
    simp only [Bool.false_eq_true, if_false, List.getLast?_singleton, Option.getD_some] at h
    cases h
    exact ⟨⟨_, slotAt_set_self _ _ _, rfl⟩, fun _ => rfl⟩
  · obtain ⟨h1, -⟩ := recordTarget_other hn hmn h
    exact ⟨⟨f, by unfold Solo; rw [h1]; exact hs, rfl⟩, fun h => absurd h hmn⟩

theorem recordTargets_also {r : FRule} {deps : List PreReq} {n : Str} (hn : lookupName n = n) :
    ∀ (ns : List Str) {db db' : FileDb} {w : List FWarn} {hs : List (Str × Nat)} {f : FEntry},
      (n ∈ ns → r.double = false) → Solo db n f →
      recordTargets r deps db ns = .ok (db', w, hs) →
      (∃ f', Solo db' n f' ∧ f'.also = f.also) ∧ hs.map (·.1) = ns ∧ ∀ x ∈ hs, x.1 = n → x.2 = 0 := by
  intro ns
  induction ns with
  | nil => intro db db' w hs f _ hs' h; cases h; exact ⟨⟨f, hs', rfl⟩, rfl, by simp⟩
  | cons m ns ih =>
    intro db db' w hs f hm hs' h
    unfold recordTargets at h
    cases h1 : recordTarget r deps db m with
    | fatal => rw [h1] at h; cases h
    | ok x =>
      obtain ⟨db1, w1, i⟩ := x
      rw [h1] at h
      simp only at h
      cases h2 : recordTargets r deps db1 ns with
      | fatal => rw [h2] at h; cases h
      | ok y =>
        obtain ⟨db2, w2, is⟩ := y
        rw [h2] at h
        cases h
        obtain ⟨⟨f1, a1, a2⟩, a3⟩ := recordTarget_also hn (fun e => hm (by simp [e])) hs' h1
        obtain ⟨⟨f2, b1, b2⟩, b3, b4⟩ := ih (fun e => hm (by simp [e])) a1 h2
        refine ⟨⟨f2, b1, b2.trans a2⟩, by simp [b3], ?_⟩
        intro x hx
        rcases List.mem_cons.1 hx with rfl | hx
        · exact a3
        · exact b4 x hx

theorem modify_also {db : FileDb} {n m : Str} {i : Nat} {f : FEntry} {g : List Str}
    (hi : m = n → i = 0) (he : m = n → (db n).isSome) (hs : Solo db n f) :
    Solo (db.modify m i fun f => { f with also := g }) n
      (if m = n then { f with also := g } else f) := by
  unfold FileDb.modify
  by_cases hmn : m = n
  · subst hmn
    rw [hi rfl]
    cases hd : db m with
    | none => simp [hd] at he
    | some s =>
      simp only
      have : s = ⟨[f], false⟩ := by simpa [Solo, slotAt, hd] using hs
      subst this
      simp [Solo, slotAt_set_self]
  · simp only [hmn, if_false]
    cases hd : db m with
    | none => exact hs
    | some s =>
      simp only
      unfold Solo
      rw [slotAt_set_ne _ _ (Ne.symm hmn)]
      exact hs

theorem modify_isSome {db : FileDb} {n m : Str} {i : Nat} {g : FEntry → FEntry}
    (h : (db n).isSome) : ((db.modify m i g) n).isSome := by
  unfold FileDb.modify
  cases db m with
  | none => exact h
  | some s => exact set_isSome h

theorem recordGroup_also {n : Str} (g : List Str) : ∀ (hs : List (Str × Nat)) {db : FileDb}
    {f : FEntry}, (∀ x ∈ hs, x.1 = n → x.2 = 0) → (n ∈ hs.map (·.1) → (db n).isSome) →
    Solo db n f →
    ∃ f', Solo (recordGroup g db hs).1 n f' ∧
      f'.also = if n ∈ hs.map (·.1) then g else f.also := by
  intro hs
  induction hs with
  | nil => intro db f _ _ h; exact ⟨f, h, by simp⟩
  | cons x hs ih =>
    intro db f hi he h
    obtain ⟨m, i⟩ := x
    unfold recordGroup
    simp only
    have h1 := modify_also (g := g) (m := m) (i := i) (hi (m, i) (by simp))
      (fun e => he (by simp [e])) h
    obtain ⟨f', a1, a2⟩ := ih (fun x hx => hi x (by simp [hx]))
      (fun e => modify_isSome (he (by simp only [List.map_cons, List.mem_cons]; exact .inr e))) h1
    refine ⟨f', a1, ?_⟩
    rw [a2]
    by_cases hmn : m = n
    · subst hmn; simp
    · simp only [hmn, if_false, List.map_cons, List.mem_cons, Ne.symm hmn, false_or]

/-- The rule makes `n` in a group. -/
def FRule.groups (r : FRule) (n : Str) : Bool :=
  r.grouped && r.explicit && decide (n ∈ r.targets.map plainName)

theorem recordFiles_also {r : FRule} {db db' : FileDb} {w : List FWarn} {n : Str} {f : FEntry}
    (hn : lookupName n = n)
    (hd : r.explicit → n ∈ r.targets.map plainName → r.double = false) (hs : Solo db n f)
    (h : recordFiles r db = .ok (db', w)) :
    ∃ f', Solo db' n f' ∧
      f'.also = if r.groups n then (r.targets.map plainName).reverse else f.also := by
  unfold recordFiles at h
  split at h
  · cases h
  · split at h
    · rename_i h2
      have : r.groups n = false := by simp [FRule.groups, FRule.explicit, h2]
      split at h
      · cases h
      · cases h; exact ⟨f, hs, by simp [this]⟩
    · rename_i h2
      have hex : r.explicit = true := by simp [FRule.explicit, h2]
      simp only at h
      have hv : Solo (if r.pattern.isSome then (db, r.deps) else enterPrereqs db r.deps).1 n f := by
        cases hp : r.pattern with
        | none =>
          simp only [Option.isSome_none, Bool.false_eq_true, if_false]
          unfold Solo
          rw [slotAt_enterPrereqs n r.deps db (.inl hn)]
          exact hs
        | some p => exact hs
      generalize (if r.pattern.isSome then (db, r.deps) else enterPrereqs db r.deps) = e at h hv
      cases hr : recordTargets r e.2 e.1 (r.targets.map plainName) with
      | fatal => rw [hr] at h; cases h
      | ok x =>
        obtain ⟨db1, w1, hds⟩ := x
        rw [hr] at h
        simp only at h
        obtain ⟨⟨f1, a1, a2⟩, a3, a4⟩ := recordTargets_also hn _ (hd hex) hv hr
        cases hg : r.grouped with
        | false =>
          simp only [hg, Bool.false_eq_true, if_false] at h
          cases h
          exact ⟨f1, a1, by simp [FRule.groups, hg, a2]⟩
        | true =>
          simp only [hg, if_true] at h
          cases h
          obtain ⟨f', b1, b2⟩ := recordGroup_also (r.targets.map plainName).reverse hds.reverse
            (fun x hx => a4 x (List.mem_reverse.1 hx))
            (fun e => recordTargets_isSome _ hr (.inl (by
              rw [List.map_reverse, List.mem_reverse, a3] at e; exact e))) a1
          refine ⟨f', b1, ?_⟩
          rw [b2, List.map_reverse, a3]
          simp only [List.mem_reverse, FRule.groups, hg, hex, Bool.and_self, Bool.true_and,
            decide_eq_true_eq, a2]

theorem recordAll_also {n : Str} (hn : lookupName n = n) : ∀ (rs : List FRule) {db db' : FileDb}
    {w : List FWarn} {f : FEntry},
    (∀ r ∈ rs, r.explicit → n ∈ r.targets.map plainName → r.double = false) → Solo db n f →
    recordAll db rs = .ok (db', w) →
    ∃ f', Solo db' n f' ∧
      f'.also = ((rs.filter (·.groups n)).getLast?.map
        fun r => (r.targets.map plainName).reverse).getD f.also := by
  intro rs
  induction rs with
  | nil => intro db db' w f _ hs h; cases h; exact ⟨f, hs, rfl⟩
  | cons r rs ih =>
    intro db db' w f hd hs h
    unfold recordAll at h
    cases h1 : recordFiles r db with
    | fatal => rw [h1] at h; cases h
    | ok x =>
      obtain ⟨db1, w1⟩ := x
      rw [h1] at h
      simp only at h
      cases h2 : recordAll db1 rs with
      | fatal => rw [h2] at h; cases h
      | ok y =>
        obtain ⟨db2, w2⟩ := y
        rw [h2] at h
        cases h
        obtain ⟨f1, a1, a2⟩ := recordFiles_also hn (hd r (by simp)) hs h1
        obtain ⟨f2, b1, b2⟩ := ih (fun r hr => hd r (by simp [hr])) a1 h2
        refine ⟨f2, b1, ?_⟩
        rw [b2, List.filter_cons]
        split
        · rename_i hg
          rw [List.getLast?_cons]
          rw [a2, if_pos hg]
          cases (rs.filter (·.groups n)).getLast? <;> simp
        · rename_i hg
          rw [a2, if_neg hg]

end Remake
