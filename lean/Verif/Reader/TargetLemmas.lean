import Verif.Reader.TargetSpec
import Verif.Var.Props
import Verif.Quote.Props
/-!
# Lemmas about target-specific definitions
-/
set_option linter.unusedVariables false
set_option linter.unusedSimpArgs false
namespace Remake
open Remake.Spec

theorem pure_expand {E : DefEnv} (hE : PureEnv E) (st : DefState) (s : Str) :
    E.expand st s = (st, (E.expand st s).2) := Prod.ext (hE st s).1 rfl

theorem pure_shell {E : DefEnv} (hE : PureEnv E) (st : DefState) (s : Str) :
    E.shell st s = (st, (E.shell st s).2) := Prod.ext (hE st s).2 rfl

theorem finish_at (E : DefEnv) (st : DefState) (i : Nat) {b : Bool} {rest : List (Nat × Bool)} (hc : st.chain = (i, b) :: rest) (n p : Str) (o : Origin)
    (r a c : Bool) :
    SameElsewhere st (finishDefinition E st n p o r true a c) i n ∧
      ∃ u, (finishDefinition E st n p o r true a c).sets i n = some u ∧ u.append = a ∧
        Assigned E.envOv (st.sets i n) (some u) p o r := by
  have hd : destination st true = i := by simp [destination, hc]
  have h1 := finish_same E st n p o r true a c
  have h2 := finish_dest E st n p o r true a c
  have h3 := finish_assigned E st n p o r true a c
  rw [hd] at h1 h2 h3
  refine ⟨h1, _, h2, rfl, ?_⟩
  rw [h2] at h3
  exact h3

theorem locate_none {st : DefState} {chain : List (Nat × Bool)} {n : Str} {b : Bool} (h : ∀ p ∈ chain, st.sets p.1 n = none) :
    locateGo st b chain n = none := by
  induction chain generalizing b with
  | nil => rfl
  | cons p rest ih =>
    have h0 := h p (by simp)
    simp only [locateGo, h0]
    exact ih fun q hq => h q (by simp [hq])

theorem define_head {E : DefEnv} (hE : PureEnv E) {st st' : DefState} {i : Nat} {b : Bool} {rest : List (Nat × Bool)}
    (hc : st.chain = (i, b) :: rest)
    {n value : Str} {o : Origin} {fl : Flavor} (hq : fl = .conditional → ∀ p ∈ rest, st.sets p.1 n = none)
    (h : doVariableDefinition E st n value o fl true = some st') :
    definedIn st n fl = i ∧ SameElsewhere st st' i n ∧
      ∃ u, st'.sets i n = some u ∧ Stores E st (st.sets i n) fl value o u := by
  have hx := pure_expand hE st value
  have hs := pure_shell hE st (E.expand st value).2
  cases fl with
  | bogus => simp [doVariableDefinition] at h
  | recursive =>
    simp only [doVariableDefinition, Option.some.injEq] at h
    obtain ⟨h1, u, h2, h3, h4⟩ := finish_at E st i hc n value o true false false
    subst h
    exact ⟨by simp [definedIn, hc], h1, u, h2, h3, h4⟩
  | simple =>
    simp only [doVariableDefinition, Option.some.injEq] at h
    have e1 := congrArg Prod.fst hx
    simp only at e1
    rw [e1] at h
    obtain ⟨h1, u, h2, h3, h4⟩ := finish_at E st i hc n (E.expand st value).2 o false false false
    subst h
    exact ⟨by simp [definedIn, hc], h1, u, h2, h3, h4⟩
  | shell =>
    simp only [doVariableDefinition, Option.some.injEq] at h
    have e1 := congrArg Prod.fst hx
    have e2 := congrArg Prod.fst hs
    simp only at e1 e2
    rw [e1, e2] at h
    obtain ⟨h1, u, h2, h3, h4⟩ := finish_at E st i hc n (E.shell st (E.expand st value).2).2 o true false false
    subst h
    exact ⟨by simp [definedIn, hc], h1, u, h2, h3, h4⟩
  | conditional =>
    have hq := hq rfl
    cases hv : st.sets i n with
    | none =>
      have hl : locateGo st false st.chain n = none := by simp [hc, locateGo, hv, locate_none hq]
      simp only [doVariableDefinition, hl, Option.some.injEq] at h
      obtain ⟨h1, u, h2, h3, h4⟩ := finish_at E st i hc n value o true false true
      subst h
      refine ⟨by unfold definedIn; rw [hl]; simp [hc], h1, u, h2, ?_⟩
      rw [hv] at h4
      exact ⟨fun _ => ⟨h3, h4⟩, by simp⟩
    | some v =>
      have hl : locateGo st false st.chain n = some i := by simp [hc, locateGo, hv]
      simp only [doVariableDefinition, hl, Option.some.injEq] at h
      subst h
      exact ⟨by simp [definedIn, hl], ⟨rfl, fun _ _ _ => rfl⟩, v, hv, by simp, by simp⟩
  | append =>
    refine ⟨by simp [definedIn, hc], ?_⟩
    cases hv : st.sets i n with
    | none =>
      simp [doVariableDefinition, hc, hv] at h
      obtain ⟨h1, u, h2, h3, h4⟩ := finish_at E st i hc n value o true true false
      subst h
      rw [hv] at h4
      exact ⟨h1, u, h2, fun _ => ⟨h3, h4⟩, by simp⟩
    | some v =>
      simp only [doVariableDefinition, hc, hv, List.head?_cons, Option.map_some, Option.getD_some, if_true, Option.isSome_some] at h
      rw [hx] at h
      have hst : (if v.recursive = true then (st, value) else if Flavor.append ≠ Flavor.appendValue then (st, (E.expand st value).2)
          else (st, value)) = (st, if v.recursive then value else (E.expand st value).2) := by
        cases v.recursive <;> simp
      rw [hst] at h
      simp only [hv] at h
      by_cases hx0 : (if v.recursive then value else (E.expand st value).2) = []
      · rw [if_pos hx0] at h
        obtain rfl := Option.some.inj h
        refine ⟨⟨rfl, fun _ _ _ => rfl⟩, v, hv, by simp, ?_⟩
        intro w hw
        obtain rfl := Option.some.inj hw
        exact ⟨fun _ => rfl, fun hne => absurd (by simpa using hx0) hne⟩
      · rw [if_neg hx0] at h
        obtain rfl := Option.some.inj h
        obtain ⟨h1, u, h2, h3, h4⟩ := finish_at E st i hc n (if v.value = [] then (if v.recursive then value else (E.expand st value).2)
          else v.value ++ ' ' :: (if v.recursive then value else (E.expand st value).2)) o v.recursive v.append false
        refine ⟨by simpa using h1, u, by simpa using h2, by simp, ?_⟩
        intro w hw
        obtain rfl := Option.some.inj hw
        refine ⟨fun he => absurd (by simpa using he) hx0, fun _ => ⟨h3, ?_⟩⟩
        rw [hv] at h4
        simpa [List.append_assoc] using h4
  | appendValue =>
    refine ⟨by simp [definedIn, hc], ?_⟩
    cases hv : st.sets i n with
    | none =>
      simp [doVariableDefinition, hc, hv] at h
      obtain ⟨h1, u, h2, h3, h4⟩ := finish_at E st i hc n value o true true false
      subst h
      rw [hv] at h4
      exact ⟨h1, u, h2, fun _ => ⟨h3, h4⟩, by simp⟩
    | some v =>
      simp only [doVariableDefinition, hc, hv, List.head?_cons, Option.map_some, Option.getD_some, if_true, Option.isSome_some] at h
      have hst : (if v.recursive = true then (st, value) else if Flavor.appendValue ≠ Flavor.appendValue then E.expand st value
          else (st, value)) = (st, value) := by
        cases v.recursive <;> simp
      rw [hst] at h
      simp only [hv] at h
      by_cases hx0 : value = []
      · rw [if_pos hx0] at h
        obtain rfl := Option.some.inj h
        refine ⟨⟨rfl, fun _ _ _ => rfl⟩, v, hv, by simp, ?_⟩
        intro w hw
        obtain rfl := Option.some.inj hw
        exact ⟨fun _ => rfl, fun hne => absurd (by simpa using hx0) hne⟩
      · rw [if_neg hx0] at h
        obtain rfl := Option.some.inj h
        obtain ⟨h1, u, h2, h3, h4⟩ := finish_at E st i hc n (if v.value = [] then value
          else v.value ++ ' ' :: value) o v.recursive v.append false
        refine ⟨by simpa using h1, u, by simpa using h2, by simp, ?_⟩
        intro w hw
        obtain rfl := Option.some.inj hw
        refine ⟨fun he => absurd (by simpa using he) hx0, fun _ => ⟨h3, ?_⟩⟩
        rw [hv] at h4
        simpa [List.append_assoc] using h4

theorem define_target {E : DefEnv} (hE : PureEnv E) {st st' : DefState} {i : Nat} (hc : st.chain = [(i, true), (0, false)])
    (hi : i ≠ 0) {n value : Str} {o : Origin} {fl : Flavor} (hq : fl = .conditional → st.sets 0 n = none)
    (h : doVariableDefinition E st n value o fl true = some st') :
    definedIn st n fl = i ∧ SameElsewhere st st' i n ∧
      ∃ u, st'.sets i n = some u ∧ Stores E st (st.sets i n) fl value o u :=
  define_head hE hc (fun h p hp => by simp only [List.mem_singleton] at hp; subst hp; exact hq h) h

theorem locate_congr {st st' : DefState} {chain : List (Nat × Bool)} {n : Str} (b : Bool)
    (h : ∀ p ∈ chain, st'.sets p.1 n = st.sets p.1 n) : locateGo st' b chain n = locateGo st b chain n := by
  induction chain generalizing b with
  | nil => rfl
  | cons p rest ih =>
    obtain ⟨i, nip⟩ := p
    have h0 := h (i, nip) (by simp)
    have ht : ∀ b, locateGo st' b rest n = locateGo st b rest n := fun b => ih b (fun q hq => h q (by simp [hq]))
    simp only at h0
    simp only [locateGo, h0, ht]

theorem locate_mem {st : DefState} {chain : List (Nat × Bool)} {n : Str} {b : Bool} {j : Nat}
    (h : locateGo st b chain n = some j) : ∃ p ∈ chain, p.1 = j := by
  induction chain generalizing b with
  | nil => simp [locateGo] at h
  | cons p rest ih =>
    obtain ⟨i, nip⟩ := p
    simp only [locateGo] at h
    split at h
    · split at h
      · exact ⟨(i, nip), by simp, by simpa using h⟩
      · obtain ⟨q, hq, he⟩ := ih h; exact ⟨q, by simp [hq], he⟩
    · obtain ⟨q, hq, he⟩ := ih h; exact ⟨q, by simp [hq], he⟩

theorem settle_spec {st : DefState} {i : Nat} {n : Str} {m : VMods} {u : Var} (hu : st.sets i n = some u)
    (hch : ∀ p ∈ st.chain, p.1 ≠ i) :
    SameElsewhere st (settleVar st i n m) i n ∧
      ∃ v, (settleVar st i n m).sets i n = some v ∧ Effective (lookupVariable st.scopes n) m u v := by
  have hl : lookupVariable st.scopes n = (locateGo st false st.chain n).bind fun i => st.sets i n := by
    rw [lookupVariable, DefState.scopes, locate_lookup]
  have same : ∀ w : Var, SameElsewhere st { st with sets := fun j => if j = i then (st.sets i).put n (some w) else st.sets j } i n := by
    intro w
    refine ⟨rfl, ?_⟩
    intro j k hne
    by_cases hj : j = i
    · subst hj
      simp only [if_true]
      rw [put_other _ _ (fun hm => hne ⟨rfl, hm⟩)]
    · simp [hj]
  have same2 : ∀ w w' : Var, SameElsewhere st { st with sets := fun j => if j = i then
      ((if i = i then (st.sets i).put n (some w) else st.sets i)).put n (some w') else (if j = i then (st.sets i).put n (some w) else st.sets j) } i n := by
    intro w w'
    refine ⟨rfl, ?_⟩
    intro j k hne
    by_cases hj : j = i
    · subst hj
      simp only [if_true]
      rw [put_other _ _ (fun hm => hne ⟨rfl, hm⟩), put_other _ _ (fun hm => hne ⟨rfl, hm⟩)]
    · simp [hj]
  let u1 : Var := { u with perTarget := true, priv := m.privateV, exp := if m.exportV then .export_ else .default }
  let st1 : DefState := { st with sets := fun j => if j = i then (st.sets i).put n (some u1) else st.sets j }
  have hloc : locateGo st1 false st.chain n = locateGo st false st.chain n := by
    apply locate_congr
    intro p hp
    simp [st1, hch p hp]
  have hst1 : st1.sets i n = some u1 := by simp [st1, put_same]
  have hdef : settleVar st i n m =
      if u.origin = .override then st1 else
      match locateGo st false st.chain n with
      | none => st1
      | some j =>
        match st1.sets j n with
        | none => st1
        | some gv =>
          if j ≠ i ∧ gv.origin.wins then
            { st1 with sets := fun k => if k = i then (st1.sets i).put n (some { u1 with value := gv.value, origin := gv.origin, recursive := gv.recursive, append := false }) else st1.sets k }
          else st1 := by
    rw [← hloc]
    unfold settleVar
    rw [hu]
    rfl
  rw [hdef]
  have keep : (u.origin = .override ∨ ∀ w, lookupVariable st.scopes n = some w → w.origin ≠ .command ∧ w.origin ≠ .envOverride) →
      SameElsewhere st st1 i n ∧ ∃ v, st1.sets i n = some v ∧ Effective (lookupVariable st.scopes n) m u v := by
    intro h
    exact ⟨same u1, u1, hst1, rfl, rfl, rfl, Or.inr ⟨h, rfl, rfl, rfl, rfl⟩⟩
  by_cases ho : u.origin = .override
  · rw [if_pos ho]; exact keep (Or.inl ho)
  · rw [if_neg ho]
    cases hj : locateGo st false st.chain n with
    | none =>
      apply keep
      right
      intro w hw
      rw [hl, hj] at hw
      simp at hw
    | some j =>
      obtain ⟨p, hp, hpj⟩ := locate_mem hj
      have hji : j ≠ i := hpj ▸ hch p hp
      have hsj : st1.sets j n = st.sets j n := by simp [st1, hji]
      obtain ⟨gv, hgv⟩ := locate_some hj
      have hlk : lookupVariable st.scopes n = some gv := by rw [hl, hj]; exact hgv
      simp only [hsj, hgv]
      by_cases hw : gv.origin.wins = true
      · rw [if_pos ⟨hji, hw⟩]
        refine ⟨same2 u1 _, ({ u1 with value := gv.value, origin := gv.origin, recursive := gv.recursive, append := false } : Var), ?_, rfl, rfl, rfl, Or.inl ⟨ho, gv, hlk, ?_, rfl, rfl, rfl, rfl⟩⟩
        · simp [put_same]
        · simp only [Origin.wins, Bool.or_eq_true, decide_eq_true_eq] at hw
          exact hw.symm
      · rw [if_neg (fun h => hw h.2)]
        apply keep
        right
        intro w hw'
        rw [hlk] at hw'
        obtain rfl := Option.some.inj hw'
        simp only [Origin.wins, Bool.or_eq_true, decide_eq_true_eq] at hw
        exact ⟨fun h => hw (Or.inr h), fun h => hw (Or.inl h)⟩

/-- One plain target. -/
structure PlainStep (E : DefEnv) (t t' : TvState) (name n value : Str) (fl : Flavor) (o : Origin) (m : VMods) : Prop where
  ok : TvOk t'
  chain : t'.defs.chain = t.defs.chain
  scopes : t'.defs.scopes = t.defs.scopes
  glob : t'.defs.sets 0 = t.defs.sets 0
  others : ∀ x y, ¬ (x = name ∧ y = n) → ownVar t' x y = ownVar t x y
  pats : t'.pats = t.pats
  patDef : t'.patDef = t.patDef
  patFresh : t'.patFresh = t.patFresh
  stored : ∃ st u v, TargetScope t name st ∧ Stores E st (ownVar t name n) fl value o u ∧
    ownVar t' name n = some v ∧ Effective (lookupVariable t.defs.scopes n) m u v

theorem targetSet_spec {t : TvState} (h : TvOk t) (name : Str) :
    let r := targetSet t name
    TvOk r.1 ∧ r.1.own name = some r.2 ∧ r.1.defs.chain = t.defs.chain ∧ r.1.defs.scopes = t.defs.scopes ∧
      r.1.defs.sets 0 = t.defs.sets 0 ∧ (∀ x y, ownVar r.1 x y = ownVar t x y) ∧ r.1.pats = t.pats ∧ r.1.patDef = t.patDef ∧
      r.1.patFresh = t.patFresh := by
  simp only [targetSet]
  cases ho : t.own name with
  | some i => exact ⟨h, ho, rfl, rfl, rfl, fun _ _ => rfl, rfl, rfl, rfl⟩
  | none =>
    have hpos := h.pos
    refine ⟨⟨by simp, ?_, ?_, ?_⟩, by simp, rfl, ?_, ?_, ?_, rfl, rfl, rfl⟩
    · intro x i hx
      simp only at hx
      split at hx
      · obtain rfl := Option.some.inj hx; simp; exact hpos
      · have := h.own x i hx; simp; omega
    · intro x y i hx hy
      simp only at hx hy
      split at hx <;> split at hy
      · simp_all
      · obtain rfl := Option.some.inj hx
        have := h.own y _ hy; omega
      · obtain rfl := Option.some.inj hy
        have := h.own x _ hx; omega
      · exact h.inj x y i hx hy
    · intro p hp
      have := h.chain p hp
      refine ⟨by simp; omega, ?_⟩
      intro x
      simp only
      split
      · intro he; have := Option.some.inj he; omega
      · exact this.2 x
    · simp only [DefState.scopes]
      apply List.map_congr_left
      intro p hp
      have := (h.chain p hp).1
      obtain ⟨a, b⟩ := p
      simp only at this ⊢
      rw [if_neg (by omega)]
    · simp only
      rw [if_neg (by omega)]
    · intro x y
      simp only [ownVar]
      by_cases hx : x = name
      · subst hx; simp [ho, VarSet.empty]
      · simp only [hx, if_false]
        cases hox : t.own x with
        | none => rfl
        | some j =>
          have := (h.own x j hox).2
          simp only [Option.bind_some]
          rw [if_neg (by omega)]

theorem recordPlain_step {E : DefEnv} (hE : PureEnv E) {t t' : TvState} (h : TvOk t) {name defn n : Str} {o : Origin} {m : VMods}
    {a : Assignment} (ha : parseVariableDefinition defn = some a) (hn : ∀ st, (E.expand st a.name).2 = n)
    (hq : a.flavor = .conditional → t.defs.sets 0 n = none) (hr : recordPlain E t name defn o m = .done t') :
    PlainStep E t t' name n a.value a.flavor o m := by
  obtain ⟨k1, k2, k3, k4, k5, k6, k7, k8, k9⟩ := targetSet_spec h name
  simp only [recordPlain] at hr
  generalize hts : targetSet t name = r at hr k1 k2 k3 k4 k5 k6 k7 k8 k9
  obtain ⟨t1, i⟩ := r
  simp only [ha] at hr k1 k2 k3 k4 k5 k6 k7 k8 k9
  have hi := k1.own name i k2
  generalize hst : ({ t1.defs with chain := [(i, true), (0, false)] } : DefState) = st at hr
  have hc : st.chain = [(i, true), (0, false)] := by rw [← hst]
  have hset : st.sets = t1.defs.sets := by rw [← hst]
  have e1 : (E.expand st a.name).1 = st := (hE st _).1
  have e2 : (E.expand st a.name).2 = n := hn st
  rw [e1, e2] at hr
  by_cases hn0 : n = []
  · rw [if_pos hn0] at hr; cases hr
  rw [if_neg hn0] at hr
  cases hd : doVariableDefinition E st n a.value o a.flavor true with
  | none => rw [hd] at hr; cases hr
  | some st2 =>
    rw [hd] at hr
    simp only [TvRes.done.injEq] at hr
    obtain ⟨d1, ⟨d2, d3⟩, u, d4, d5⟩ := define_target hE hc (by omega) (fun hf => by rw [hset, k5]; exact hq hf) hd
    rw [d1] at hr
    have hchn : ∀ p ∈ t1.defs.chain, p.1 ≠ i := by
      intro p hp he
      exact (k1.chain p hp).2 name (by rw [he]; exact k2)
    obtain ⟨⟨e1, e2⟩, v, e3, e4⟩ := settle_spec (st := { st2 with chain := t1.defs.chain }) (m := m) d4 hchn
    have hsets : ∀ j y, ¬ (j = i ∧ y = n) → t'.defs.sets j y = t1.defs.sets j y := by
      intro j y hne
      rw [← hr]
      rw [← hset, ← d3 j y hne]
      exact e2 j y hne
    have hown : t'.own = t1.own := by rw [← hr]
    have hchain : t'.defs.chain = t1.defs.chain := by rw [← hr]; exact e1
    have hsc : t'.defs.scopes = t1.defs.scopes := by
      simp only [DefState.scopes, hchain]
      apply List.map_congr_left
      intro p hp
      obtain ⟨j, b⟩ := p
      have := hchn (j, b) hp
      simp only at this ⊢
      congr 1
      funext y
      exact hsets j y (fun hh => this hh.1)
    have hsc2 : ({ st2 with chain := t1.defs.chain } : DefState).scopes = t1.defs.scopes := by
      simp only [DefState.scopes]
      apply List.map_congr_left
      intro p hp
      obtain ⟨j, b⟩ := p
      have := hchn (j, b) hp
      simp only at this ⊢
      congr 1
      funext y
      rw [d3 j y (fun hh => this hh.1), hset]
    refine ⟨⟨?_, ?_, ?_, ?_⟩, hchain.trans k3, hsc.trans k4, ?_, ?_, ?_, ?_, ?_, ?_⟩
    · rw [← hr]; exact k1.pos
    · rw [← hr]; exact k1.own
    · rw [← hr]; exact k1.inj
    · rw [hchain, hown]
      have hf : t'.fresh = t1.fresh := by rw [← hr]
      rw [hf]; exact k1.chain
    · rw [← k5]
      funext y
      exact hsets 0 y (fun hh => by omega)
    · intro x y hne
      rw [← k6]
      simp only [ownVar, hown]
      cases hox : t1.own x with
      | none => rfl
      | some j =>
        simp only [Option.bind_some]
        apply hsets
        rintro ⟨rfl, rfl⟩
        exact hne ⟨k1.inj x name _ hox k2, rfl⟩
    · rw [← hr]; exact k7
    · rw [← hr]; exact k8
    · rw [← hr]; exact k9
    · refine ⟨st, u, v, ⟨i, hc, by omega, by rw [hset, k5], ?_⟩, ?_, ?_, ?_⟩
      · intro y
        rw [← k6, hset, ownVar, k2]; rfl
      · have : ownVar t name n = st.sets i n := by rw [← k6, hset, ownVar, k2]; rfl
        rw [this]; exact d5
      · rw [ownVar, hown, k2]
        rw [← hr]
        exact e3
      · rw [← k4, ← hsc2]; exact e4

/-- The state after one pattern. -/
def afterPat (t : TvState) (pre post : Str) (d : PatDef) : TvState :=
  { t with pats := createPatternVar t.pats ⟨t.patFresh, pre, post⟩
           patDef := fun k => if k = t.patFresh then some d else t.patDef k, patFresh := t.patFresh + 1 }

theorem recordPattern_step {E : DefEnv} (hE : PureEnv E) {t t' : TvState} {pre post defn n : Str} {o : Origin} {m : VMods}
    {a : Assignment} (ha : parseVariableDefinition defn = some a) (hn : ∀ st, (E.expand st a.name).2 = n)
    (hr : recordPattern E t pre post defn o m = .done t') :
    ∃ d, PatKept E t.defs (lookupVariable t.defs.scopes n) m n a.value a.flavor o d ∧
      t' = afterPat t pre post d := by
  simp only [recordPattern, ha] at hr
  have e1 : (E.expand t.defs a.name).1 = t.defs := (hE t.defs _).1
  have e2 : (E.expand t.defs a.name).2 = n := hn t.defs
  have e3 : (E.expand t.defs a.value).1 = t.defs := (hE t.defs _).1
  rw [e1, e2] at hr
  by_cases hn0 : n = []
  · rw [if_pos hn0] at hr; cases hr
  rw [if_neg hn0] at hr
  have hif : (if a.flavor = .simple then E.expand t.defs a.value else (t.defs, a.value)) =
      (t.defs, if a.flavor = .simple then (E.expand t.defs a.value).2 else a.value) := by
    split
    · exact Prod.ext e3 rfl
    · rfl
  rw [hif] at hr
  simp only [TvRes.done.injEq] at hr
  refine ⟨_, ?_, hr.symm⟩
  by_cases ho : o = .override
  · rw [if_pos ho]
    exact ⟨rfl, rfl, rfl, rfl, rfl, Or.inr ⟨Or.inl ho, rfl, rfl⟩⟩
  · rw [if_neg ho]
    cases hl : lookupVariable t.defs.scopes n with
    | none => exact ⟨rfl, rfl, rfl, rfl, rfl, Or.inr ⟨Or.inr (by simp), rfl, rfl⟩⟩
    | some gv =>
      simp only
      by_cases hw : gv.origin.wins = true
      · rw [if_pos hw]
        refine ⟨rfl, rfl, rfl, rfl, rfl, Or.inl ⟨ho, gv, rfl, ?_, rfl, rfl⟩⟩
        simp only [Origin.wins, Bool.or_eq_true, decide_eq_true_eq] at hw
        exact hw.symm
      · rw [if_neg hw]
        refine ⟨rfl, rfl, rfl, rfl, rfl, Or.inr ⟨Or.inr ?_, rfl, rfl⟩⟩
        intro w hw'
        obtain rfl := Option.some.inj hw'
        simp only [Origin.wins, Bool.or_eq_true, decide_eq_true_eq] at hw
        exact ⟨fun h => hw (Or.inr h), fun h => hw (Or.inl h)⟩

/-- What is done for a name read so. -/
def onPct (E : DefEnv) (t : TvState) (defn : Str) (m : VMods) : Pct → TvRes
  | .lit x => recordPlain E t x defn (lineOrigin m) m
  | .pat pre post => recordPattern E t pre post defn (lineOrigin m) m

theorem recordOneVar_eq {E : DefEnv} {t : TvState} {w defn : Str} {m : VMods} {p : Pct} (hp : ReadsAs '%' w p) :
    recordOneVar E t w defn m = onPct E t defn m p := by
  have h := (C19_find_percent w p).mp hp
  rw [← h]
  simp only [recordOneVar, (C19_cached w).1, lineOrigin]
  cases findPercent w <;> rfl

/-- What a whole line does. -/
structure LineStep (E : DefEnv) (t t' : TvState) (names : List Str) (n value : Str) (fl : Flavor) (m : VMods) : Prop where
  ok : TvOk t'
  chain : t'.defs.chain = t.defs.chain
  scopes : t'.defs.scopes = t.defs.scopes
  glob : t'.defs.sets 0 = t.defs.sets 0
  others : ∀ x y, ¬ (y = n ∧ ∃ w ∈ names, ReadsAs '%' w (.lit x)) → ownVar t' x y = ownVar t x y
  stored : names.Pairwise (fun w w' => ∀ x, ReadsAs '%' w (.lit x) → ¬ ReadsAs '%' w' (.lit x)) →
    ∀ w ∈ names, ∀ x, ReadsAs '%' w (.lit x) → ∃ st u v, TargetScope t x st ∧ Stores E st (ownVar t x n) fl value (lineOrigin m) u ∧
      ownVar t' x n = some v ∧ Effective (lookupVariable t.defs.scopes n) m u v
  pats : ∀ qs, PatNames names qs → PatOk t.pats t.patFresh →
    PatOk t'.pats t'.patFresh ∧ t'.patFresh = t.patFresh + qs.length ∧
    (∀ p, p ∈ t'.pats.list ↔ p ∈ t.pats.list ∨ ∃ k, qs[k]? = some (p.pre, p.post) ∧ p.id = t.patFresh + k) ∧
    (∀ k < t.patFresh, t'.patDef k = t.patDef k) ∧
    ∀ k < qs.length, ∃ st d, st.scopes = t.defs.scopes ∧ t'.patDef (t.patFresh + k) = some d ∧
      PatKept E st (lookupVariable t.defs.scopes n) m n value fl (lineOrigin m) d

theorem targetScope_mono {t t1 : TvState} {x : Str} {st : DefState} (h : TargetScope t1 x st) (h0 : t1.defs.sets 0 = t.defs.sets 0)
    (ho : ∀ y, ownVar t1 x y = ownVar t x y) : TargetScope t x st := by
  obtain ⟨i, a, b, c, d⟩ := h
  exact ⟨i, a, b, by rw [c, h0], fun y => by rw [d, ho]⟩

theorem readsAs_unique {w : Str} {p q : Pct} (h1 : ReadsAs '%' w p) (h2 : ReadsAs '%' w q) : p = q :=
  ((C19_find_percent w p).mp h1).symm.trans ((C19_find_percent w q).mp h2)

theorem recordTargetVar_step {E : DefEnv} (hE : PureEnv E) {names : List Str} {t t' : TvState} (h : TvOk t) {defn n : Str} {m : VMods}
    {a : Assignment} (ha : parseVariableDefinition defn = some a) (hn : ∀ st, (E.expand st a.name).2 = n)
    (hq : a.flavor = .conditional → t.defs.sets 0 n = none) (hr : recordTargetVar E t names defn m = .done t') :
    LineStep E t t' names n a.value a.flavor m := by
  induction names generalizing t with
  | nil =>
    simp only [recordTargetVar, TvRes.done.injEq] at hr
    subst hr
    refine ⟨h, rfl, rfl, rfl, fun _ _ _ => rfl, by simp, ?_⟩
    intro qs hqs hok
    cases hqs
    exact ⟨hok, rfl, by simp, fun _ _ => rfl, by simp⟩
  | cons w ws ih =>
    simp only [recordTargetVar] at hr
    cases h1 : recordOneVar E t w defn m with
    | fatal => rw [h1] at hr; cases hr
    | undef => rw [h1] at hr; cases hr
    | done t1 =>
      rw [h1] at hr
      simp only at hr
      obtain ⟨p, hp⟩ : ∃ p, ReadsAs '%' w p := ⟨_, (C19_find_percent w _).mpr rfl⟩
      rw [recordOneVar_eq hp] at h1
      cases p with
      | lit x =>
        have s := recordPlain_step hE h ha hn hq h1
        have r := ih s.ok (by rw [s.glob]; exact hq) hr
        refine ⟨r.ok, r.chain.trans s.chain, r.scopes.trans s.scopes, r.glob.trans s.glob, ?_, ?_, ?_⟩
        · intro y k hne
          rw [r.others y k, s.others y k]
          · rintro ⟨rfl, rfl⟩; exact hne ⟨rfl, w, by simp, hp⟩
          · rintro ⟨rfl, w', hw', hx'⟩; exact hne ⟨rfl, w', by simp [hw'], hx'⟩
        · intro hd w' hw' y hy
          rw [List.pairwise_cons] at hd
          rcases List.mem_cons.mp hw' with rfl | hw'
          · obtain rfl : x = y := Pct.lit.inj (readsAs_unique hp hy)
            obtain ⟨st, u, v, g1, g2, g3, g4⟩ := s.stored
            refine ⟨st, u, v, g1, g2, ?_, g4⟩
            rw [r.others x n, g3]
            rintro ⟨_, w', hw', hx'⟩
            exact hd.1 w' hw' x hp hx'
          · have hxy : y ≠ x := by
              rintro rfl
              exact hd.1 w' hw' y hp hy
            obtain ⟨st, u, v, g1, g2, g3, g4⟩ := r.stored hd.2 w' hw' y hy
            have ho : ∀ k, ownVar t1 y k = ownVar t y k := fun k => s.others y k (fun hh => hxy hh.1)
            refine ⟨st, u, v, (targetScope_mono g1 s.glob ho), by rw [← ho]; exact g2, g3, by rw [← s.scopes]; exact g4⟩
        · intro qs hqs hok
          cases hqs with
          | lit _ hqs =>
            have := r.pats qs hqs (by rw [s.pats, s.patFresh]; exact hok)
            rw [s.pats, s.patFresh, s.patDef, s.scopes] at this
            exact this
          | pat hp' _ => cases readsAs_unique hp hp'
      | pat pre post =>
        obtain ⟨d, hd, rfl⟩ := recordPattern_step hE ha hn h1
        have h' : TvOk (afterPat t pre post d) := ⟨h.pos, h.own, h.inj, h.chain⟩
        have r := ih h' hq hr
        refine ⟨r.ok, r.chain, r.scopes, r.glob, ?_, ?_, ?_⟩
        · intro y k hne
          refine (r.others y k ?_).trans rfl
          rintro ⟨rfl, w', hw', hx'⟩; exact hne ⟨rfl, w', by simp [hw'], hx'⟩
        · intro hdj w' hw' y hy
          rw [List.pairwise_cons] at hdj
          rcases List.mem_cons.mp hw' with rfl | hw'
          · cases readsAs_unique hp hy
          · obtain ⟨st, u, v, g1, g2, g3, g4⟩ := r.stored hdj.2 w' hw' y hy
            exact ⟨st, u, v, (targetScope_mono g1 rfl (fun _ => rfl)), g2, g3, g4⟩
        · intro qs hqs hok
          cases hqs with
          | lit hp' _ => cases readsAs_unique hp hp'
          | @pat _ pre' post' _ qs hp' hqs =>
            have hpp := readsAs_unique hp hp'
            simp only [Pct.pat.injEq] at hpp
            obtain ⟨rfl, rfl⟩ := hpp
            obtain ⟨f1, f2, f3, f4, f5⟩ := r.pats qs hqs (create_ok t.pats t.patFresh hok _ rfl)
            simp only [afterPat] at f2 f3 f4 f5
            refine ⟨f1, by simp [f2]; omega, ?_, ?_, ?_⟩
            · intro q
              rw [f3 q, create_list t.pats t.patFresh hok, (insertByLen_perm _ _).mem_iff, List.mem_cons]
              constructor
              · rintro ((rfl | hm) | ⟨k, hk, hid⟩)
                · exact Or.inr ⟨0, by simp, by simp⟩
                · exact Or.inl hm
                · exact Or.inr ⟨k + 1, by simpa using hk, by omega⟩
              · rintro (hm | ⟨k, hk, hid⟩)
                · exact Or.inl (Or.inr hm)
                · cases k with
                  | zero =>
                    left; left
                    obtain ⟨qi, qp, qq⟩ := q
                    simp only [List.getElem?_cons_zero, Option.some.injEq, Prod.mk.injEq] at hk
                    simp only at hid
                    rw [hk.1, hk.2, hid]; rfl
                  | succ k => exact Or.inr ⟨k, by simpa using hk, by omega⟩
            · intro k hk
              rw [f4 k (by omega), if_neg (by omega)]
            · intro k hk
              cases k with
              | zero =>
                refine ⟨t.defs, d, rfl, ?_, hd⟩
                rw [Nat.add_zero, f4 t.patFresh (by omega), if_pos rfl]
              | succ k =>
                obtain ⟨st, d', g1, g2, g3⟩ := f5 k (by simpa using hk)
                exact ⟨st, d', g1, by rw [← g2]; congr 1; omega, g3⟩

end Remake
