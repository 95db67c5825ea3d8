import Verif.Var.Lemmas
/-!
# Lemmas about assignments and the environment
-/
set_option linter.unusedVariables false
set_option linter.unusedSimpArgs false
namespace Remake
open Spec

/-! ### Assignments -/

theorem locate_lookup (st : DefState) (chain : List (Nat × Bool)) (b : Bool) (n : Str) :
    lookupGo b (chain.map fun (i, nip) => (st.sets i, nip)) n =
      (locateGo st b chain n).bind fun i => st.sets i n := by
  induction chain generalizing b with
  | nil => rfl
  | cons x rest ih =>
    obtain ⟨i, nip⟩ := x
    simp only [List.map_cons, lookupGo, locateGo]
    cases hs : st.sets i n with
    | none => simpa using ih _
    | some v =>
      cases b <;> cases hv : v.priv
      · simp [hs, hv]
      · simp [hs, hv]
      · simp [hs, hv]
      · simpa [hv] using ih true

theorem locate_some {st : DefState} {chain : List (Nat × Bool)} {b : Bool} {n : Str} {i : Nat}
    (h : locateGo st b chain n = some i) : ∃ v, st.sets i n = some v := by
  induction chain generalizing b with
  | nil => simp [locateGo] at h
  | cons x rest ih =>
    obtain ⟨j, nip⟩ := x
    simp only [locateGo] at h
    cases hs : st.sets j n with
    | none => rw [hs] at h; exact ih h
    | some v =>
      rw [hs] at h
      simp only at h
      split at h
      · obtain rfl := Option.some.inj h
        exact ⟨v, hs⟩
      · exact ih h

theorem locate_none_iff (st : DefState) (n : Str) :
    locateGo st false st.chain n = none ↔ lookupVariable st.scopes n = none := by
  rw [lookupVariable, DefState.scopes, locate_lookup]
  constructor
  · intro h; rw [h]; rfl
  · intro h
    cases hl : locateGo st false st.chain n with
    | none => rfl
    | some i =>
      obtain ⟨v, hv⟩ := locate_some hl
      rw [hl] at h
      simp [hv] at h

theorem locate_of_lookup {st : DefState} {n : Str} {v : Var} (h : lookupVariable st.scopes n = some v) :
    ∃ i, locateGo st false st.chain n = some i ∧ st.sets i n = some v := by
  rw [lookupVariable, DefState.scopes, locate_lookup] at h
  cases hl : locateGo st false st.chain n with
  | none => rw [hl] at h; simp at h
  | some i =>
    rw [hl] at h
    exact ⟨i, rfl, h⟩

theorem dest_eq (st : DefState) (t : Bool) :
    (if t then (st.chain.head?.map (·.1)).getD 0 else 0) = destination st t := by
  cases t
  · simp [destination]
  · unfold destination
    cases hc : st.chain with
    | nil => simp
    | cons x xs => obtain ⟨i, b⟩ := x; simp

theorem finish_dest (E : DefEnv) (st : DefState) (n p : Str) (o : Origin) (r t a c : Bool) :
    (finishDefinition E st n p o r t a c).sets (destination st t) n =
      some { defineVar E.envOv (st.sets (destination st t) n) n [] p o r with append := a, conditional := c } := by
  simp only [finishDefinition, dest_eq, if_true, put_same]

theorem finish_same (E : DefEnv) (st : DefState) (n p : Str) (o : Origin) (r t a c : Bool) :
    SameElsewhere st (finishDefinition E st n p o r t a c) (destination st t) n := by
  refine ⟨rfl, ?_⟩
  intro j m hne
  simp only [finishDefinition, dest_eq]
  by_cases hj : j = destination st t
  · rw [if_pos hj, put_other _ _ (fun hm => hne ⟨hj, hm⟩), hj]
  · rw [if_neg hj]

theorem finish_assigned (E : DefEnv) (st : DefState) (n p : Str) (o : Origin) (r t a c : Bool) :
    Assigned E.envOv (st.sets (destination st t) n)
      ((finishDefinition E st n p o r t a c).sets (destination st t) n) p o r := by
  rw [finish_dest]
  refine ⟨_, rfl, ?_⟩
  cases ho : st.sets (destination st t) n with
  | none => exact Or.inr ⟨by simp, rfl, rfl, promote_eq ..⟩
  | some v =>
    simp only [defineVar, rank_promote]
    by_cases hs : strength E.envOv v.origin ≤ strength E.envOv o
    · rw [if_pos hs]
      right
      refine ⟨?_, rfl, rfl, promote_eq ..⟩
      intro w hw
      rw [← Option.some.inj hw]; exact hs
    · rw [if_neg hs]
      left
      exact ⟨v, rfl, by omega, rfl, rfl, promote_eq ..⟩

/-! ### Appending variables -/

theorem variableAppend_eq (chain : List (VarSet × Bool)) (n : Str) (isLocal : Bool) :
    variableAppend chain n isLocal = (contributions (visibleDefs (!isLocal) chain n)).reverse := by
  induction chain generalizing isLocal with
  | nil => rfl
  | cons x rest ih =>
    obtain ⟨s, nip⟩ := x
    have e : (!isLocal || nip) = !(isLocal && !nip) := by cases isLocal <;> cases nip <;> rfl
    simp only [variableAppend, visibleDefs, e]
    cases hs : s n with
    | none => exact ih _
    | some v =>
      simp only [Option.toList_some, List.filter_cons, List.filter_nil]
      cases hl : isLocal <;> cases hp : v.priv <;> cases ha : v.append <;>
        simp [contributions, ha, hl, hp, ih]

theorem lookup_visibleDefs (chain : List (VarSet × Bool)) (n : Str) (b : Bool) :
    lookupGo b chain n = (visibleDefs b chain n).head? := by
  induction chain generalizing b with
  | nil => rfl
  | cons x rest ih =>
    obtain ⟨s, nip⟩ := x
    simp only [lookupGo, visibleDefs]
    cases hs : s n with
    | none => simpa using ih _
    | some v =>
      cases b <;> cases hp : v.priv <;> simp [hp, ih]

/-! ### The environment -/

theorem envEntry_iff (x : Bool) (sv : Option Var) (g : Option Export) (n : Str) (v : Var)
    (hn : n ≠ "SHELL".toList) :
    (envEntry x sv g n v).isSome ↔ Exported x g v := by
  have hn' : (n = "SHELL".toList) = False := by simpa using hn
  cases v with
  | mk value recursive origin append conditional perTarget special exportable priv exp =>
    unfold envEntry Exported
    generalize "SHELL".toList = sh at hn'
    cases perTarget <;> cases exp <;> cases x <;> cases exportable <;> cases origin <;> cases g with
    | none => simp [hn']
    | some g => cases g <;> simp [hn']

theorem envEntry_fields {x : Bool} {sv : Option Var} {g : Option Export} {n : Str} {v w : Var}
    (hn : n ≠ "SHELL".toList) (h : envEntry x sv g n v = some w) :
    ∃ e, w = { v with exp := e } := by
  have key : ∀ u : Var, (∃ e, u = { v with exp := e }) →
      (match u.exp with
      | .default =>
        if u.origin = .default ∨ u.origin = .automatic then none
        else if !u.exportable then none
        else if !x ∧ u.origin ≠ .command ∧ u.origin ≠ .env ∧ u.origin ≠ .envOverride then none
        else some u
      | .export_ => some u
      | .noexport => if n = "SHELL".toList then sv else none
      | .ifset => if u.origin = .default then none else some u) = some w →
      ∃ e, w = { v with exp := e } := by
    intro u hu hw
    split at hw
    · repeat (first | (split at hw; · simp at hw))
      rw [← Option.some.inj hw]; exact hu
    · rw [← Option.some.inj hw]; exact hu
    · rw [if_neg hn] at hw; simp at hw
    · split at hw
      · simp at hw
      · rw [← Option.some.inj hw]; exact hu
  unfold envEntry at h
  by_cases hp : v.perTarget = true ∧ v.exp = .default
  · rw [if_pos hp] at h
    exact key { v with exp := g.getD v.exp } ⟨_, rfl⟩ h
  · rw [if_neg hp] at h
    exact key v ⟨v.exp, rfl⟩ h

theorem envTable_nodup (x : Bool) (sv : Option Var) (g : VarSet) (l t : List (Str × Var))
    (h : (t.map (·.1)).Nodup) : ((envTable x sv g t l).map (·.1)).Nodup := by
  induction l generalizing t with
  | nil => exact h
  | cons e l ih =>
    obtain ⟨n, v⟩ := e
    simp only [envTable]
    split
    · exact ih t h
    · split
      · exact ih t h
      · rename_i w _ hne
        apply ih
        rw [List.map_append, List.nodup_append]
        refine ⟨h, by simp, ?_⟩
        intro a ha b hb
        simp only [List.map_cons, List.map_nil, List.mem_singleton] at hb
        subst hb
        rintro rfl
        apply hne
        rw [List.any_eq_true]
        obtain ⟨e, he, rfl⟩ := List.mem_map.mp ha
        exact ⟨e, he, by simp⟩

/-- The entry of a name in the table: what was there, or the first that is entered. -/
theorem envTable_find (x : Bool) (sv : Option Var) (g : VarSet) (n : Str) (l t : List (Str × Var)) :
    (envTable x sv g t l).find? (fun e => e.1 == n) =
      match t.find? (fun e => e.1 == n) with
      | some e => some e
      | none => l.findSome? (fun e => if e.1 = n then (envEntry x sv ((g n).map (·.exp)) n e.2).map (fun w => (n, w)) else none) := by
  induction l generalizing t with
  | nil => simp only [envTable, List.findSome?_nil]; cases t.find? (fun e => e.1 == n) <;> rfl
  | cons e l ih =>
    obtain ⟨m, v⟩ := e
    simp only [envTable, List.findSome?_cons]
    by_cases hm : m = n
    · subst hm
      simp only [if_true]
      cases he : envEntry x sv ((g m).map (·.exp)) m v with
      | none => simp only [Option.map_none]; rw [ih]
      | some w =>
        simp only [Option.map_some]
        split
        · rename_i hany
          rw [ih]
          cases hf : t.find? (fun e => e.1 == m) with
          | some e => rfl
          | none =>
            rw [List.find?_eq_none] at hf
            rw [List.any_eq_true] at hany
            obtain ⟨y, hy, hy'⟩ := hany
            exact absurd hy' (hf y hy)
        · rename_i hany
          rw [ih, List.find?_append]
          cases hf : t.find? (fun e => e.1 == m) with
          | some e => rfl
          | none => simp
    · simp only [hm, if_false]
      cases he : envEntry x sv ((g m).map (·.exp)) m v with
      | none => exact ih t
      | some w =>
        simp only
        split
        · exact ih t
        · rw [ih, List.find?_append]
          have : ([(m, w)] : List (Str × Var)).find? (fun e => e.1 == n) = none := by simp [hm]
          rw [this]; simp

theorem findSome_enum {l : List (Str × Var)} {s : VarSet} (h : Enumerates l s) (n : Str) (f : Var → Option (Str × Var)) :
    l.findSome? (fun e => if e.1 = n then f e.2 else none) = (s n).bind f := by
  cases hs : s n with
  | none =>
    rw [List.findSome?_eq_none_iff.mpr]
    · rfl
    · intro e he
      by_cases hn : e.1 = n
      · have := (h e.1 e.2).mp he
        rw [hn, hs] at this; simp at this
      · simp [hn]
  | some v =>
    have hm := (h n v).mpr hs
    have uniq : ∀ e ∈ l, e.1 = n → e.2 = v := by
      intro e he hn
      have := (h e.1 e.2).mp he
      rw [hn, hs] at this
      exact (Option.some.inj this).symm
    simp only [Option.bind_some]
    cases hf : f v with
    | none =>
      rw [List.findSome?_eq_none_iff]
      intro e he
      by_cases hn : e.1 = n
      · simp [hn, uniq e he hn, hf]
      · simp [hn]
    | some w =>
      clear hs h
      induction l with
      | nil => simp at hm
      | cons e l ih =>
        simp only [List.findSome?_cons]
        by_cases hn : e.1 = n
        · simp [hn, uniq e (by simp) hn, hf]
        · simp only [hn, if_false]
          refine ih ?_ (fun e he => uniq e (by simp [he]))
          rcases List.mem_cons.mp hm with hh | hh
          · rw [← hh] at hn; simp at hn
          · exact hh


theorem findSome_append {α β} (f : α → Option β) (a b : List α) :
    (a ++ b).findSome? f = (a.findSome? f).or (b.findSome? f) := by
  induction a with
  | nil => simp
  | cons x a ih =>
    simp only [List.cons_append, List.findSome?_cons]
    cases f x <;> simp [ih]

/-- The entry found through all sets. -/
theorem findSome_flatten (x : Bool) (sv : Option Var) (g : VarSet) (n : Str) (hn : n ≠ "SHELL".toList)
    (P : Var → Prop) (enums : List (List (Str × Var))) (sets : List VarSet) (h : EnumAll enums sets)
    (hP : ∀ v e, P v ↔ P { v with exp := e }) :
    (∃ w, enums.flatten.findSome? (fun e => if e.1 = n then
        (envEntry x sv ((g n).map (·.exp)) n e.2).map (fun w => (n, w)) else none) = some (n, w) ∧ P w) ↔
      firstExported x g sets n P := by
  induction enums generalizing sets with
  | nil =>
    cases sets with
    | nil => simp [firstExported]
    | cons s sets => exact absurd h (by simp [EnumAll])
  | cons l enums ih =>
    cases sets with
    | nil => exact absurd h (by simp [EnumAll])
    | cons s sets =>
      obtain ⟨h1, h2⟩ := h
      rw [List.flatten_cons, findSome_append]
      have he := findSome_enum h1 n (fun v => (envEntry x sv ((g n).map (·.exp)) n v).map (fun w => (n, w)))
      rw [he]
      simp only [firstExported]
      cases hs : s n with
      | none =>
        rw [Option.bind_none, Option.none_or, ih sets h2]
        simp
      | some v =>
        rw [Option.bind_some]
        cases hv : envEntry x sv ((g n).map (·.exp)) n v with
        | none =>
          have hx : ¬ Exported x ((g n).map (·.exp)) v := by
            rw [← envEntry_iff x sv _ n v hn, hv]; simp
          rw [Option.map_none, Option.none_or, ih sets h2]
          constructor
          · intro hh
            right
            refine ⟨?_, hh⟩
            intro u hu
            rw [← Option.some.inj hu]; exact hx
          · rintro (⟨u, hu, hu', _⟩ | ⟨_, hh⟩)
            · rw [← Option.some.inj hu] at hu'
              exact absurd hu' hx
            · exact hh
        | some w =>
          have hx : Exported x ((g n).map (·.exp)) v := by
            rw [← envEntry_iff x sv _ n v hn, hv]; simp
          obtain ⟨e, rfl⟩ := envEntry_fields hn hv
          rw [Option.map_some, Option.some_or]
          constructor
          · rintro ⟨w', hw', hp⟩
            have := Option.some.inj hw'
            simp only [Prod.mk.injEq, true_and] at this
            rw [← this] at hp
            exact Or.inl ⟨v, rfl, hx, (hP v e).mpr hp⟩
          · rintro (⟨u, hu, _, hp⟩ | ⟨hh, _⟩)
            · rw [← Option.some.inj hu] at hp
              exact ⟨_, rfl, (hP v e).mp hp⟩
            · exact absurd hx (hh v rfl)

theorem mem_of_find {t : List (Str × Var)} (hd : (t.map (·.1)).Nodup) (n : Str) (w : Var) :
    (n, w) ∈ t ↔ t.find? (fun e => e.1 == n) = some (n, w) := by
  induction t with
  | nil => simp
  | cons e t ih =>
    rw [List.map_cons, List.nodup_cons] at hd
    rw [List.find?_cons]
    by_cases he : e.1 = n
    · simp only [he, beq_self_eq_true, List.mem_cons, Option.some.injEq]
      constructor
      · rintro (h | h)
        · exact h.symm
        · exact absurd (List.mem_map.mpr ⟨_, h, rfl⟩) (he ▸ hd.1)
      · intro h; exact Or.inl h.symm
    · have : (e.1 == n) = false := by simpa using he
      rw [this]
      simp only [List.mem_cons]
      rw [← ih hd.2]
      constructor
      · rintro (h | h)
        · rw [← h] at he; exact absurd rfl he
        · exact h
      · exact Or.inr

end Remake
