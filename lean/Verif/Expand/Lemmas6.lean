import Verif.Expand.Lemmas5
import Verif.Text.Lemmas
/-!
# Lemmas about `foreach`, cyclic variables and endless calls
-/
set_option linter.unusedVariables false
set_option linter.unusedSimpArgs false
namespace Remake
open Spec

/-! ### foreach -/

theorem foreachGo_each {rec : XState → Str → XRes Str} (hrec : KeepsAll rec) (var body : Str)
    (rest : List (VarSet × Bool)) (ws : List Str) (st st1 : XState) (s : VarSet) (out : Str) (st' : XState)
    (hc : st.chain = (s, false) :: rest) (hs : ∀ n, n ≠ var → s n = none)
    (he : st1.maxArgs = st.maxArgs ∧ st1.expanding = st.expanding ∧ st1.count = st.count)
    (h : foreachGo rec var body ws st = .ok out st') :
    ∃ outs st'', EachWord rec var body rest ws st1 outs st'' ∧ out = outs.flatMap (· ++ [' ']) := by
  induction ws generalizing st st1 s out with
  | nil => cases h; exact ⟨[], st1, .nil, rfl⟩
  | cons w ws ih =>
    simp only [foreachGo] at h
    have hb : st.bindSimple var w = { st with chain := (s.put var (some (argVar var w)), false) :: rest } := by
      unfold XState.bindSimple; rw [hc]; rfl
    cases h1 : rec (st.bindSimple var w) body with
    | fatal => rw [h1] at h; cases h
    | deep => rw [h1] at h; cases h
    | ok a s1 =>
      rw [h1] at h
      simp only [XRes.bind] at h
      cases h2 : foreachGo rec var body ws s1 with
      | fatal => rw [h2] at h; cases h
      | deep => rw [h2] at h; cases h
      | ok b s2 =>
        rw [h2] at h
        simp only [XRes.bind] at h
        cases h
        have hk := hrec _ _ _ _ h1
        have hput : ∀ n, n ≠ var → (s.put var (some (argVar var w))) n = none := by
          intro n hn; simp [VarSet.put, hn, hs n hn]
        obtain ⟨outs, st'', k1, k2⟩ := ih s1 s1 (s.put var (some (argVar var w))) b
          (by rw [hk.1, hb]) hput ⟨rfl, rfl, rfl⟩ h2
        refine ⟨a :: outs, st'', ?_, by rw [k2]; simp⟩
        refine .cons (st0 := st.bindSimple var w) ?_ ?_ ?_ ?_ ?_ h1 k1
        · rw [hb]; simp [lookupVariable, lookupGo, VarSet.put, argVar]
        · intro n hn
          rw [hb]; simp [lookupVariable, lookupGo, hput n hn]
        · rw [hb]; exact he.1.symm
        · rw [hb]; exact he.2.1.symm
        · rw [hb]; exact he.2.2.symm

theorem flatMap_blank (outs : List Str) : (outs.flatMap (· ++ [' '])).dropLast = unwords outs := by
  induction outs with
  | nil => rfl
  | cons a outs ih =>
    cases outs with
    | nil => simp [unwords]
    | cons b r =>
      have hne : (b :: r).flatMap (fun x => x ++ [' ']) ≠ [] := by simp
      rw [List.flatMap_cons, List.dropLast_append_of_ne_nil hne, ih]
      simp [unwords, List.intercalate]

theorem each_length {rec : XState → Str → XRes Str} {var body : Str} {c : List (VarSet × Bool)} {ws outs : List Str}
    {st st' : XState} (h : EachWord rec var body c ws st outs st') : outs.length = ws.length := by
  induction h with
  | nil => rfl
  | cons _ _ _ _ _ _ _ ih => simp [ih]

/-! ### Cyclic variables -/

theorem lookupLoc_of {chain : List (VarSet × Bool)} {n : Str} {v : Var} (h : lookupVariable chain n = some v) :
    ∃ i, lookupLoc false chain n = some (i, v) := by
  have := lookupLoc_eq false chain n
  rw [show lookupGo false chain n = some v from h] at this
  cases hl : lookupLoc false chain n with
  | none => rw [hl] at this; cases this
  | some x =>
    rw [hl] at this
    simp only [Option.map_some, Option.some.injEq] at this
    exact ⟨x.1, by rw [← this]⟩

theorem bind_not_ok {α β} {r : XRes α} {k : α → XState → XRes β}
    (h : ∀ a st, r = .ok a st → ∀ b st', k a st ≠ .ok b st') : ∀ b st', r.bind k ≠ .ok b st' := by
  intro b st' he
  cases r with
  | ok a st => exact h a st rfl b st' he
  | fatal => cases he
  | deep => cases he

theorem expand_refTo (ext : List (VarSet × Bool) → Str → List Str → Option Str) (fuel : Nat) (st : XState) {n : Str}
    (hn : PlainName n) : expand ext (fuel + 1) st (refTo n) = referenceVariable (expand ext fuel) st n := by
  simp only [expand]
  rw [show refTo n = refTo n ++ [] by simp, lex_refTo hn, lex_nil]
  simp only [evalToks, evalRef]
  rw [expandNamed_plain _ _ (fun c hc => (hn.2 c hc).2.2.2.1)]
  generalize referenceVariable (expand ext fuel) st n = r
  cases r <;> simp [XRes.bind]

theorem cyclic_not_ok (ext : List (VarSet × Bool) → Str → List Str → Option Str) {C : Str → Prop} (fuel : Nat) (st : XState)
    (hc : Cyclic st.chain C) (n : Str) (hn : C n) : ∀ out st', expand ext fuel st (refTo n) ≠ .ok out st' := by
  induction fuel using Nat.strongRecOn generalizing st n with
  | ind fuel ih =>
    cases fuel with
    | zero => intro _ _ h; cases h
    | succ fuel =>
      obtain ⟨hp, v, a, n', b, hlv, hr, hap, hv, ha, hn'⟩ := hc n hn
      obtain ⟨i, hl⟩ := lookupLoc_of hlv
      rw [expand_refTo ext fuel st hp]
      have hne : v.value ≠ [] := by rw [hv]; simp [refTo]
      simp only [referenceVariable, hl]
      rw [if_neg (by simp [hne]), if_pos hr]
      simp only [recursivelyExpand]
      split
      · intro _ _ h; cases h
      · rw [if_neg (by simp [hap])]
        apply bind_not_ok
        intro o s1 ho
        exfalso
        generalize hst : XState.mark (if st.expanding (i, n) = true then st.setCount (i, n) (st.count (i, n) - 1) else st) (i, n) true = st1 at ho
        have hch : st1.chain = st.chain := by subst hst; split <;> rfl
        cases fuel with
        | zero => cases ho
        | succ f =>
          rw [hv, List.append_assoc] at ho
          simp only [expand] at ho
          rw [lex_closed ha, evalToks_append, lex_closed (closed_refTo (hc n' hn').1)] at ho
          revert ho
          apply bind_not_ok
          intro o1 s2 h1
          apply bind_not_ok
          intro o2 s3 h2
          exfalso
          rw [evalToks_append] at h2
          revert h2
          apply bind_not_ok
          intro o3 s4 h3
          exfalso
          have hk := evalToks_keeps ext (expand_keeps ext f) _ _ _ _ h1
          exact ih (f + 1) (by omega) s2 (by rw [hk.1, hch]; exact hc) n' hn' o3 s4 h3

/-! ### The bound on the depth -/

theorem base_exists (chain : List (VarSet × Bool)) (hf : FinitelyMany chain)
    (hnc : ∀ x ∈ chain, ∀ n v, x.1 n = some v → v.recursive = true → NoCall v.value) :
    ∃ ids M, Base ids M chain := by
  obtain ⟨names, hn⟩ := hf
  refine ⟨(List.range chain.length).flatMap fun i => names.map fun n => (i, n),
    ((chain.flatMap fun x => names.map fun n => ((x.1 n).map (·.value.length)).getD 0).foldr max 0), ?_⟩
  intro pre s nip post n v hc hs hr
  have hmem : (s, nip) ∈ chain := by rw [hc]; simp
  have hnm := hn (s, nip) hmem n v hs
  refine ⟨?_, ?_, hnc (s, nip) hmem n v hs hr⟩
  · simp only [List.mem_flatMap, List.mem_range, List.mem_map]
    exact ⟨post.length, by rw [hc]; simp; omega, n, hnm, rfl⟩
  · have hle : ∀ (l : List Nat) x, x ∈ l → x ≤ l.foldr max 0 := by
      intro l
      induction l with
      | nil => simp
      | cons y l ih =>
        intro x hx
        simp only [List.foldr_cons]
        rcases List.mem_cons.mp hx with rfl | hx
        · omega
        · have := ih x hx; omega
    apply hle
    simp only [List.mem_flatMap, List.mem_map]
    exact ⟨(s, nip), hmem, n, hnm, by simp [hs]⟩

/-! ### Endless calls -/

/-- The entry of `call`. -/
def callEntry : FnEntry := ⟨"call".toList, 1, 0, true, .call⟩

theorem lookupLoc_push {n : Str} {s : VarSet} {chain : List (VarSet × Bool)} (hs : s n = none) :
    lookupLoc false ((s, false) :: chain) n = lookupLoc false chain n := by
  simp [lookupLoc, hs]

theorem callState_chain (st : XState) (id : Nat × Str) (vals : List Str) :
    ∃ s, (callState st id vals).chain = (s, false) :: st.chain ∧
      ∀ n, (∀ i, i < max vals.length st.maxArgs → n ≠ argName i) → s n = none := by
  obtain ⟨s', h1, h2, h3⟩ := bindArgs_chain 0 (vals ++ List.replicate (st.maxArgs - vals.length) []) st.push .empty false
    st.chain rfl
  refine ⟨s', by simp only [callState, XState.setCount, h1], ?_⟩
  intro n hn
  rw [h3 n]
  · rfl
  · intro j hj
    simp only [List.length_append, List.length_replicate] at hj
    simpa using hn j (by omega)

end Remake
