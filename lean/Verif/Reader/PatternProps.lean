import Verif.Reader.TargetProps
/-!
# C106: the pattern-specific variables of a target
-/
set_option linter.unusedVariables false
set_option linter.unusedSimpArgs false
namespace Remake

namespace Spec

/-- What a definition for a pattern makes of the variable `old`: the operator stores `u` (for `:=` the value expanded when the line was
read), which gets the modifiers of the line. -/
def PatStores (E : DefEnv) (st : DefState) (old : Option Var) (d : PatDef) (v : Var) : Prop :=
  ∃ u, (if d.flavor = .simple then u.append = false ∧ Assigned E.envOv old (some u) d.value d.origin false
        else Stores E st old d.flavor d.value d.origin u) ∧
    v.value = u.value ∧ v.origin = u.origin ∧ v.recursive = u.recursive ∧ v.append = u.append ∧
    v.perTarget = d.perTarget ∧ v.exp = d.exp ∧ v.priv = d.priv

/-- Definitions made one after the other: `s` are the variables before, `s'` those after.  While one is made, expansions see the variables so far and then those
outside (`seen`). -/
inductive PatSteps (E : DefEnv) (seen : List (VarSet × Bool)) : (Str → Option Var) → List PatDef → (Str → Option Var) → Prop
  | nil {s : Str → Option Var} : PatSteps E seen s [] s
  | cons {s s1 s2 : Str → Option Var} {d : PatDef} {ds : List PatDef} {st : DefState} {b : Bool} {v : Var} :
      st.scopes = (s, b) :: seen → PatStores E st (s d.name) d v → s1 d.name = some v → (∀ y, y ≠ d.name → s1 y = s y) →
      PatSteps E seen s1 ds s2 → PatSteps E seen s (d :: ds) s2

/-- The definitions that apply to a target: those of the patterns that match it, the shorter patterns first, equally long ones in the order of the lines. -/
def Applies (t : TvState) (target : Str) (ds : List PatDef) : Prop :=
  ∃ ps : List PatVar, ps.Pairwise PatBefore ∧ (∀ p, p ∈ ps ↔ p ∈ t.pats.list ∧ PatMatches p target) ∧
    ps.map (fun p => t.patDef p.id) = ds.map some

end Spec

open Remake.Spec

/-- The marks put on the variable that was defined. -/
def markVar (d : PatDef) (v : Var) : Var := { v with perTarget := d.perTarget, exp := d.exp, priv := d.priv }

theorem applyPattern_step {E : DefEnv} (hE : PureEnv E) {st : DefState} {i : Nat} {b : Bool} {rest : List (Nat × Bool)}
    (hc : st.chain = (i, b) :: rest) {d : PatDef} (hf : d.flavor ≠ .bogus)
    (hq : d.flavor = .conditional → ∀ p ∈ rest, st.sets p.1 d.name = none)
    (ha : d.flavor = .simple → ∀ v, st.sets i d.name = some v → v.append = false) :
    ∃ st' v, applyPattern E st i d = some st' ∧ SameElsewhere st st' i d.name ∧ st'.sets i d.name = some v ∧
      PatStores E st (st.sets i d.name) d v ∧
      (v.append = true → d.flavor = .append ∨ d.flavor = .appendValue ∨ ∃ w, st.sets i d.name = some w ∧ w.append = true) := by
  by_cases hs : d.flavor = .simple
  · have hA : ∃ u, defineVar E.envOv (st.sets i d.name) d.name [] d.value d.origin false = u ∧ u.append = false ∧
        Assigned E.envOv (st.sets i d.name) (some u) d.value d.origin false := by
      have h3 := finish_assigned E st d.name d.value d.origin false true false false
      have hd : destination st true = i := by simp [destination, hc]
      have h2 := finish_dest E st d.name d.value d.origin false true false false
      rw [hd] at h2 h3
      rw [h2] at h3
      refine ⟨_, rfl, ?_, ?_⟩
      · cases hv : st.sets i d.name with
        | none => rfl
        | some v =>
          have := ha hs v hv
          simp only [defineVar]
          split <;> exact this
      · obtain ⟨w, hw, h⟩ := h3
        obtain rfl := Option.some.inj hw
        exact ⟨_, rfl, h⟩
    obtain ⟨u, hu, h1, h2⟩ := hA
    have e : (st.sets i).define E.envOv d.name d.value d.origin false d.name = some u := by
      simp [VarSet.define, VarSet.put, hu]
    refine ⟨_, markVar d u, by rw [applyPattern]; rw [if_pos hs], ?_, ?_, ⟨u, ?_, rfl, rfl, rfl, rfl, rfl, rfl, rfl⟩, ?_⟩
    · simp only [if_true, e]
      refine ⟨rfl, ?_⟩
      intro j m hjm
      by_cases hj : j = i
      · subst hj
        have hm : m ≠ d.name := fun e => hjm ⟨rfl, e⟩
        simp [VarSet.define, VarSet.put, hm]
      · simp [hj]
    · simp only [if_true, e]
      simp [VarSet.put, markVar]
    · rw [if_pos hs]; exact ⟨h1, h2⟩
    · intro h; have : u.append = true := h; rw [h1] at this; cases this
  · obtain ⟨st', hd⟩ := define_some hE st d.name d.value d.origin hf
    obtain ⟨h1, h2, u, h3, h4⟩ := define_head hE hc hq hd
    refine ⟨_, markVar d u, by rw [applyPattern]; rw [if_neg hs, hd]; rfl, ?_, ?_, ⟨u, ?_, rfl, rfl, rfl, rfl, rfl, rfl, rfl⟩, ?_⟩
    · simp only [h1, h3]
      refine ⟨h2.1, ?_⟩
      intro j m hjm
      by_cases hj : j = i
      · subst hj
        have hm : m ≠ d.name := fun e => hjm ⟨rfl, e⟩
        simp [VarSet.put, hm]; exact h2.2 _ _ hjm
      · simp [hj]; exact h2.2 _ _ hjm
    · simp only [h1, h3]
      simp [VarSet.put, markVar]
    · rw [if_neg hs]; exact h4
    · intro h
      have h : u.append = true := h
      cases hfl : d.flavor with
      | bogus => exact absurd hfl hf
      | simple => exact absurd hfl hs
      | append => exact .inl rfl
      | appendValue => exact .inr (.inl rfl)
      | recursive => rw [hfl] at h4; rw [h4.1] at h; cases h
      | shell => rw [hfl] at h4; rw [h4.1] at h; cases h
      | conditional =>
        rw [hfl] at h4
        cases hv : st.sets i d.name with
        | none => rw [(h4.1 hv).1] at h; cases h
        | some w => refine .inr (.inr ⟨w, rfl, ?_⟩); rw [← h4.2 w hv]; exact h

/-- No definition with `:=` applies after one with `+=` for the same variable. -/
def NoAppendBefore (ds : List PatDef) : Prop :=
  ds.Pairwise fun d d' => d'.name = d.name → d'.flavor = .simple → d.flavor ≠ .append ∧ d.flavor ≠ .appendValue

theorem applyAll {E : DefEnv} (hE : PureEnv E) {i : Nat} {b : Bool} {rest : List (Nat × Bool)} (hi : ∀ p ∈ rest, p.1 ≠ i) (ds : List PatDef) :
    ∀ (st : DefState), st.chain = (i, b) :: rest → (∀ d ∈ ds, d.flavor ≠ .bogus) →
    (∀ d ∈ ds, d.flavor = .conditional → ∀ p ∈ rest, st.sets p.1 d.name = none) → NoAppendBefore ds →
    (∀ d ∈ ds, d.flavor = .simple → ∀ v, st.sets i d.name = some v → v.append = false) →
    ∃ st', ds.foldl (fun st d => st.bind fun st => applyPattern E st i d) (some st) = some st' ∧ st'.chain = st.chain ∧
      (∀ j, j ≠ i → st'.sets j = st.sets j) ∧ PatSteps E (rest.map fun p => (st.sets p.1, p.2)) (st.sets i) ds (st'.sets i) := by
  induction ds with
  | nil => intro st hc _ _ _ _; exact ⟨st, rfl, rfl, fun _ _ => rfl, .nil⟩
  | cons d ds ih =>
    intro st hc hf hq hn ha
    obtain ⟨st1, v, g1, g2, g3, g4, g5⟩ := applyPattern_step hE hc (hf d (by simp)) (hq d (by simp)) (ha d (by simp))
    have hs : ∀ j, j ≠ i → st1.sets j = st.sets j := fun j hj => funext fun m => g2.2 j m (fun e => hj e.1)
    have hn2 := List.pairwise_cons.1 hn
    obtain ⟨st', k1, k2, k3, k4⟩ := ih st1 (g2.1.trans hc) (fun x hx => hf x (by simp [hx]))
      (fun x hx h p hp => by rw [hs _ (hi p hp)]; exact hq x (by simp [hx]) h p hp) hn2.2 (by
        intro x hx hxs w hw
        by_cases hnm : x.name = d.name
        · rw [hnm, g3] at hw
          obtain rfl := Option.some.inj hw
          cases hv : v.append with
          | false => rfl
          | true =>
            have h1 := hn2.1 x hx hnm hxs
            rcases g5 hv with e | e | ⟨w, hw, hwa⟩
            · exact absurd e h1.1
            · exact absurd e h1.2
            · have := ha x (by simp [hx]) hxs w (by rw [hnm]; exact hw)
              rw [this] at hwa; cases hwa
        · rw [g2.2 i x.name (fun e => hnm e.2)] at hw
          exact ha x (by simp [hx]) hxs w hw)
    refine ⟨st', by rw [List.foldl_cons, Option.bind_some, g1]; exact k1, k2.trans g2.1, fun j hj => (k3 j hj).trans (hs j hj), ?_⟩
    have e : (rest.map fun p => (st1.sets p.1, p.2)) = rest.map fun p => (st.sets p.1, p.2) :=
      List.map_congr_left fun p hp => by rw [hs _ (hi p hp)]
    rw [e] at k4
    exact .cons (st := st) (b := b) (by simp [DefState.scopes, hc]) g4 g3 (fun y hy => g2.2 i y (fun e => hy e.2)) k4

theorem fold_defs (E : DefEnv) (i : Nat) (pd : Nat → Option PatDef) (ps : List PatVar) : ∀ (ds : List PatDef) (o : Option DefState),
    ps.map (fun p => pd p.id) = ds.map some →
    ps.foldl (fun st p => st.bind fun st => match pd p.id with
      | none => some st
      | some d => applyPattern E st i d) o = ds.foldl (fun st d => st.bind fun st => applyPattern E st i d) o := by
  induction ps with
  | nil => intro ds o h; cases ds with | nil => rfl | cons d ds => cases h
  | cons p ps ih =>
    intro ds o h
    cases ds with
    | nil => cases h
    | cons d ds =>
      simp only [List.map_cons, List.cons.injEq] at h
      rw [List.foldl_cons, List.foldl_cons, ih ds _ h.2]
      simp only [h.1]

theorem pairwise_unique {l₁ l₂ : List PatVar} (h₁ : l₁.Pairwise PatBefore) (h₂ : l₂.Pairwise PatBefore) (h : ∀ p, p ∈ l₁ ↔ p ∈ l₂) : l₁ = l₂ := by
  have irr : ∀ p q, PatBefore p q → PatBefore q p → False := by
    intro p q h1 h2; unfold PatBefore at h1 h2; omega
  induction l₁ generalizing l₂ with
  | nil =>
    cases l₂ with
    | nil => rfl
    | cons q l => exact absurd ((h q).2 (by simp)) (by simp)
  | cons p l ih =>
    cases l₂ with
    | nil => exact absurd ((h p).1 (by simp)) (by simp)
    | cons q l' =>
      have a1 := List.pairwise_cons.1 h₁
      have a2 := List.pairwise_cons.1 h₂
      have e : p = q := by
        rcases List.mem_cons.1 ((h p).1 (by simp)) with e | e
        · exact e
        · rcases List.mem_cons.1 ((h q).2 (by simp)) with e' | e'
          · exact e'.symm
          · exact (irr _ _ (a1.1 q e') (a2.1 p e)).elim
      subst e
      congr 1
      refine ih a1.2 a2.2 fun x => ?_
      constructor
      · intro hx
        rcases List.mem_cons.1 ((h x).1 (by simp [hx])) with e | e
        · subst e; exact (irr _ _ (a1.1 _ hx) (a1.1 _ hx)).elim
        · exact e
      · intro hx
        rcases List.mem_cons.1 ((h x).2 (by simp [hx])) with e | e
        · subst e; exact (irr _ _ (a2.1 _ hx) (a2.1 _ hx)).elim
        · exact e

section
variable {E : DefEnv} (hE : PureEnv E) {t : TvState} (ht : TvOk t) (hp : PatOk t.pats t.patFresh) {target : Str} {ds : List PatDef}
  (hd : Applies t target ds) (hf : ∀ d ∈ ds, d.flavor ≠ .bogus)
  (hq : ∀ d ∈ ds, d.flavor = .conditional → ∀ p ∈ t.defs.chain, t.defs.sets p.1 d.name = none) (hn : NoAppendBefore ds)
include hE ht hp hd hf hq hn

/-- **C106** (partial: expansions without side effects; no `?=` for a variable that is defined outside, see `C89_not_conditional`; no `:=` after `+=` for the same
variable, see `C106_not_simple`) A target gets the variables of all patterns that match it, as if the lines were
assignments made one after the other, from the shortest pattern to the longest; and nothing else changes: neither the variables of other targets nor
those outside. -/
theorem C106_applied_partial : ∃ t' i, patternSet E t target = some (t', i) ∧
    PatSteps E t.defs.scopes (fun _ => none) ds (t'.defs.sets i) ∧
    (∀ x, t'.own x = t.own x ∧ t.own x ≠ some i) ∧ (∀ x y, ownVar t' x y = ownVar t x y) ∧ t'.defs.scopes = t.defs.scopes ∧ TvOk t' := by
  obtain ⟨ps, h1, h2, h3⟩ := hd
  have hps : patternVarsFor target t.pats.list = ps := by
    rw [patternVarsFor_eq]
    refine pairwise_unique (hp.sorted.filter _) h1 fun p => ?_
    rw [List.mem_filter, patVarMatches_iff, h2]
  have hfr : ∀ p ∈ t.defs.chain, p.1 ≠ t.fresh := fun p hp => Nat.ne_of_lt (ht.chain p hp).1
  obtain ⟨st', k1, k2, k3, k4⟩ := applyAll hE hfr ds
    { sets := fun j => if j = t.fresh then .empty else t.defs.sets j, chain := (t.fresh, false) :: t.defs.chain } rfl hf
    (fun d hd hc p hp => by simp only [if_neg (hfr p hp)]; exact hq d hd hc p hp) hn
    (by intro d _ _ v hv; simp [VarSet.empty] at hv)
  have e0 : (t.defs.chain.map fun p => ((if p.1 = t.fresh then VarSet.empty else t.defs.sets p.1), p.2)) = t.defs.scopes :=
    List.map_congr_left fun p hp => by rw [if_neg (hfr p hp)]
  simp only [if_true] at k4
  rw [e0] at k4
  have k3' : ∀ j, j ≠ t.fresh → st'.sets j = t.defs.sets j := fun j hj => by rw [k3 j hj]; simp [hj]
  refine ⟨{ t with defs := { st' with chain := t.defs.chain }, fresh := t.fresh + 1 }, t.fresh, ?_, k4, ?_, ?_, ?_, ?_⟩
  · unfold patternSet
    simp only [hps]
    exact congrArg (Option.map _) ((fold_defs E t.fresh t.patDef ps ds _ h3).trans k1)
  · exact fun x => ⟨rfl, fun e => Nat.lt_irrefl _ (ht.own x _ e).2⟩
  · intro x y
    unfold ownVar
    cases ho : t.own x with
    | none => rfl
    | some j => simp only [Option.bind_some]; rw [k3' j (Nat.ne_of_lt (ht.own x j ho).2)]
  · exact List.map_congr_left fun p hp => by simp only; rw [k3' _ (hfr p hp)]
  · refine ⟨Nat.succ_pos _, fun x i h => ⟨(ht.own x i h).1, Nat.lt_succ_of_lt (ht.own x i h).2⟩, ht.inj, fun p hp => ⟨Nat.lt_succ_of_lt (ht.chain p hp).1, (ht.chain p hp).2⟩⟩

end

theorem steps_frame {E : DefEnv} {seen : List (VarSet × Bool)} {s s' : Str → Option Var} {ds : List PatDef} (h : PatSteps E seen s ds s') {n : Str}
    (hn : ∀ d ∈ ds, d.name ≠ n) : s' n = s n := by
  induction h with
  | nil => rfl
  | @cons s s1 s2 d ds st b v _ _ _ h4 _ ih =>
    rw [ih fun d hd => hn d (by simp [hd]), h4 n (Ne.symm (hn d (by simp)))]

theorem steps_split {E : DefEnv} {seen : List (VarSet × Bool)} {s s' : Str → Option Var} {a b : List PatDef} (h : PatSteps E seen s (a ++ b) s') :
    ∃ s1, PatSteps E seen s a s1 ∧ PatSteps E seen s1 b s' := by
  induction a generalizing s with
  | nil => exact ⟨s, .nil, h⟩
  | cons d a ih =>
    cases h with
    | cons h1 h2 h3 h4 h5 =>
      obtain ⟨s1, g1, g2⟩ := ih h5
      exact ⟨s1, .cons h1 h2 h3 h4 g1, g2⟩

/-- No variable becomes stronger than the definitions made. -/
theorem steps_origin {E : DefEnv} {seen : List (VarSet × Bool)} {s s' : Str → Option Var} {ds : List PatDef} (h : PatSteps E seen s ds s') {n : Str} {k : Nat}
    (hk : ∀ d ∈ ds, d.name = n → strength E.envOv (reported E.envOv d.origin) ≤ k) (h0 : ∀ v, s n = some v → strength E.envOv v.origin ≤ k ∧ strength E.envOv (reported E.envOv v.origin) ≤ k) :
    ∀ v, s' n = some v → strength E.envOv v.origin ≤ k ∧ strength E.envOv (reported E.envOv v.origin) ≤ k := by
  have rr : ∀ o, strength E.envOv (reported E.envOv (reported E.envOv o)) = strength E.envOv (reported E.envOv o) := by
    intro o; cases E.envOv <;> cases o <;> decide
  induction h with
  | nil => exact h0
  | @cons s s1 s2 d ds st b v h1 h2 h3 h4 h5 ih =>
    refine ih (fun d hd => hk d (by simp [hd])) ?_
    intro w hw
    by_cases hnm : d.name = n
    · subst hnm
      rw [h3] at hw
      obtain rfl := Option.some.inj hw
      have hd := hk d (by simp) rfl
      obtain ⟨u, g1, g2, g3, _⟩ := h2
      rw [g3]
      have key : ∀ {val r}, Assigned E.envOv (s d.name) (some u) val d.origin r → strength E.envOv u.origin ≤ k ∧ strength E.envOv (reported E.envOv u.origin) ≤ k := by
        rintro val r ⟨w, hw, hx | hx⟩
        · obtain rfl := Option.some.inj hw
          obtain ⟨v, hv, _, _, _, ho⟩ := hx
          rw [ho, rr]
          exact ⟨(h0 v hv).2, (h0 v hv).2⟩
        · obtain rfl := Option.some.inj hw
          rw [hx.2.2.2, rr]
          exact ⟨hd, hd⟩
      split at g1
      · exact key g1.2
      · cases hfl : d.flavor with
        | bogus => rw [hfl] at g1; exact g1.elim
        | simple => next hh => exact absurd hfl hh
        | recursive => rw [hfl] at g1; exact key g1.2
        | shell => rw [hfl] at g1; exact key g1.2
        | conditional =>
          rw [hfl] at g1
          cases hv : s d.name with
          | none => exact key (g1.1 hv).2
          | some w => rw [g1.2 w hv]; exact h0 w hv
        | append =>
          rw [hfl] at g1
          cases hv : s d.name with
          | none => exact key (g1.1 hv).2
          | some w =>
            have := g1.2 w hv
            simp only at this
            by_cases hx : (if w.recursive = true then d.value else if Flavor.append = Flavor.append then (E.expand st d.value).2 else d.value) = []
            · rw [this.1 hx]; exact h0 w hv
            · exact key (this.2 hx).2
        | appendValue =>
          rw [hfl] at g1
          cases hv : s d.name with
          | none => exact key (g1.1 hv).2
          | some w =>
            have := g1.2 w hv
            simp only at this
            by_cases hx : (if w.recursive = true then d.value else if Flavor.appendValue = Flavor.append then (E.expand st d.value).2 else d.value) = []
            · rw [this.1 hx]; exact h0 w hv
            · exact key (this.2 hx).2
    · rw [h4 n (Ne.symm hnm)] at hw
      exact h0 w hw

section
variable {E : DefEnv} (hE : PureEnv E) {t : TvState} (ht : TvOk t) (hp : PatOk t.pats t.patFresh) {target : Str} {ds : List PatDef}
  (hd : Applies t target ds) (hf : ∀ d ∈ ds, d.flavor ≠ .bogus)
  (hq : ∀ d ∈ ds, d.flavor = .conditional → ∀ p ∈ t.defs.chain, t.defs.sets p.1 d.name = none) (hn : NoAppendBefore ds)
include hE ht hp hd hf hq hn

/-- **C106** (partial: as `C106_applied_partial`) Of several definitions with `=` or `:=` for a variable the one with the longest pattern counts, and of equally long ones the
last line; the variable has the modifiers of that line only. -/
theorem C106_longest_partial {a b : List PatDef} {d : PatDef} (he : ds = a ++ d :: b) (hb : ∀ x ∈ b, x.name ≠ d.name)
    (hfl : d.flavor = .simple ∨ d.flavor = .recursive)
    (ho : ∀ x ∈ a, x.name = d.name → strength E.envOv x.origin ≤ strength E.envOv d.origin) :
    ∃ t' i v, patternSet E t target = some (t', i) ∧ t'.defs.sets i d.name = some v ∧ v.value = d.value ∧
      v.recursive = decide (d.flavor = .recursive) ∧ v.append = false ∧ v.origin = reported E.envOv d.origin ∧ v.exp = d.exp ∧ v.priv = d.priv := by
  obtain ⟨t', i, h1, h2, _⟩ := C106_applied_partial hE ht hp hd hf hq hn
  subst he
  obtain ⟨s1, g1, g2⟩ := steps_split h2
  cases g2 with
  | @cons _ s2 _ _ _ st bb v k1 k2 k3 k4 k5 =>
    have hv : t'.defs.sets i d.name = some v := by rw [steps_frame k5 hb, k3]
    have hw := steps_origin g1 (n := d.name) (k := strength E.envOv d.origin)
      (fun x hx hnm => by rw [show strength E.envOv (reported E.envOv x.origin) = strength E.envOv x.origin by
        cases E.envOv <;> cases x.origin <;> decide]; exact ho x hx hnm) (by intro v hv; cases hv)
    obtain ⟨u, q1, q2, q3, q4, q5, q6, q7, q8⟩ := k2
    have key : ∀ {r}, Assigned E.envOv (s1 d.name) (some u) d.value d.origin r → u.value = d.value ∧ u.recursive = r ∧ u.origin = reported E.envOv d.origin := by
      rintro r ⟨w, hw', hx | hx⟩
      · obtain ⟨x, hx1, hx2, _⟩ := hx
        have := (hw x hx1).1
        omega
      · obtain rfl := Option.some.inj hw'
        exact hx.2
    rcases hfl with hfl | hfl
    · rw [if_pos hfl] at q1
      obtain ⟨e1, e2, e3⟩ := key q1.2
      exact ⟨t', i, v, h1, hv, q2.trans e1, by rw [q4, e2, hfl]; rfl, q5.trans q1.1, q3.trans e3, q7, q8⟩
    · rw [if_neg (by rw [hfl]; decide), hfl] at q1
      obtain ⟨e1, e2, e3⟩ := key q1.2
      exact ⟨t', i, v, h1, hv, q2.trans e1, by rw [q4, e2, hfl]; rfl, q5.trans q1.1, q3.trans e3, q7, q8⟩

/-- **C106** (partial: as `C106_applied_partial`) A variable that no pattern that matches defines is not defined. -/
theorem C106_no_other_partial {n : Str} (hnn : ∀ d ∈ ds, d.name ≠ n) :
    ∃ t' i, patternSet E t target = some (t', i) ∧ t'.defs.sets i n = none := by
  obtain ⟨t', i, h1, h2, _⟩ := C106_applied_partial hE ht hp hd hf hq hn
  exact ⟨t', i, h1, steps_frame h2 hnn⟩

end

/-! ### Cases -/

/-- The lines `%.o: X = 1`, `a%.o: private X := 2` and `%.c: Y = 3` have been read. -/
def exPat : TvState :=
  { exTv exGlobal with
    pats := createAll 0 noPatVars [([], ".o".toList), (['a'], ".o".toList), ([], ".c".toList)]
    patDef := fun k => [some { name := "X".toList, value := "1".toList, flavor := .recursive, origin := .file, perTarget := true : PatDef },
      some { name := "X".toList, value := "2".toList, flavor := .simple, origin := .file, perTarget := true, priv := true },
      some { name := "Y".toList, value := "3".toList, flavor := .recursive, origin := .file, perTarget := true }][k]?.join
    patFresh := 3 }

theorem exPat_applies : Applies exPat "ab.o".toList [{ name := "X".toList, value := "1".toList, flavor := .recursive, origin := .file, perTarget := true },
    { name := "X".toList, value := "2".toList, flavor := .simple, origin := .file, perTarget := true, priv := true }] := by
  have h := C25_order [([], ".o".toList), (['a'], ".o".toList), ([], ".c".toList)] "ab.o".toList
  have e : patternVarsFor "ab.o".toList (createAll 0 noPatVars [([], ".o".toList), (['a'], ".o".toList), ([], ".c".toList)]).list =
      [⟨0, [], ".o".toList⟩, ⟨1, ['a'], ".o".toList⟩] := by rw [patternVarsFor_eq]; decide +kernel
  refine ⟨_, h.1, fun p => ?_, by rw [e]; decide +kernel⟩
  rw [patternVarsFor_eq, List.mem_filter, patVarMatches_iff]
  rfl

/-- For `ab.o` the variable X is 2, private. -/
example : ∃ t' i v, patternSet plainEnv exPat "ab.o".toList = some (t', i) ∧ t'.defs.sets i "X".toList = some v ∧ v.value = "2".toList ∧
    v.recursive = false ∧ v.priv = true := by
  obtain ⟨t', i, v, h1, h2, h3, h4, _, _, _, h5⟩ := C106_longest_partial plainEnv_pure (t := exPat)
    ⟨(exTv_ok exGlobal).1, (exTv_ok exGlobal).2, (exTv_ok exGlobal).3, (exTv_ok exGlobal).4⟩
    (by
      have := (createAll_ok [([], ".o".toList), (['a'], ".o".toList), ([], ".c".toList)] 0 noPatVars
        ⟨by simp [noPatVars], by simp [noPatVars], by simp [noPatVars], by simp [noPatVars]⟩).1
      exact this) exPat_applies (by decide)
    (by decide) (by unfold NoAppendBefore; decide) (a := [_]) (b := []) rfl (by simp) (.inl rfl) (by intro x hx _; simp at hx; subst hx; decide)
  exact ⟨t', i, v, h1, h2, h3, h4, h5⟩

/-- **C106** (negative) `%: X += a`, `%.o: X := b` and `x.o: X += c`, with the global `X = 1`: for the target `x.o` the second line should replace the first; but
the variable stays one that appends, and `$(X)` is `1 b c`.  Without the first line it is `b c`. -/
theorem C106_not_simple :
    let value (t : TvState) := (patternSet plainEnv t "x.o".toList).bind fun (t, i) => (t.own "x.o".toList).map fun own =>
      (variableAppend [(t.defs.sets own, false), (t.defs.sets i, true), (t.defs.sets 0, false)] "X".toList true).map (·.value)
    let lines (t : TvState) :=
      let t := (recordTargetVar plainEnv t ["%.o".toList] "X := b".toList {}).state t
      (recordTargetVar plainEnv t ["x.o".toList] "X += c".toList {}).state t
    value (lines ((recordTargetVar plainEnv (exTv exGlobal) ["%".toList] "X += a".toList {}).state (exTv exGlobal))) =
      some ["1".toList, "b".toList, "c".toList] ∧
    value (lines (exTv exGlobal)) = some ["b".toList, "c".toList] := by
  decide +kernel

end Remake
