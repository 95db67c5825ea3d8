import Verif.Var.Spec
/-!
# Lemmas about definitions and lookup
-/
set_option linter.unusedVariables false
set_option linter.unusedSimpArgs false
namespace Remake
open Spec

theorem rank_promote (e : Bool) (o : Origin) : (promote e o).rank = strength e o := by
  cases e <;> cases o <;> rfl

theorem promote_eq (e : Bool) (o : Origin) : promote e o = reported e o := by
  cases e <;> cases o <;> rfl

theorem promote_promote (e : Bool) (o : Origin) : promote e (promote e o) = promote e o := by
  cases e <;> cases o <;> rfl

theorem put_same (s : VarSet) (n : Str) (v) : s.put n v n = v := by simp [VarSet.put]

theorem put_other (s : VarSet) {n m : Str} (v) (h : m ≠ n) : s.put n v m = s m := by
  simp [VarSet.put, h]

theorem define_same (e) (s : VarSet) (n v : Str) (o r) :
    s.define e n v o r n = some (defineVar e (s n) n [] v o r) := put_same ..

theorem define_other (e) (s : VarSet) {n m : Str} (v : Str) (o r) (h : m ≠ n) :
    s.define e n v o r m = s m := put_other _ _ h

/-- The definition of one name after a series of definitions. -/
def foldDefs (e : Bool) (n : Str) (old : Option Var) (ds : List Def) : Option Var :=
  ds.foldl (fun old d => some (defineVar e old n [] d.value d.origin d.recursive)) old

theorem run_defs (e : Bool) (n : Str) (ops : List VarOp) (h : OnlyDefs e ops) (s : VarSet) :
    ops.foldl VarOp.run s n = foldDefs e n (s n) (defsOf n ops) := by
  induction ops generalizing s with
  | nil => rfl
  | cons op ops ih =>
    obtain ⟨m, v, o, r, rfl⟩ := h op (by simp)
    have ih := ih (fun op hop => h op (by simp [hop]))
    rw [List.foldl_cons, ih]
    simp only [VarOp.run, defsOf]
    by_cases hm : m = n
    · subst hm
      rw [if_pos rfl, define_same]; rfl
    · rw [if_neg hm, define_other _ _ _ _ _ (Ne.symm hm)]

theorem foldDefs_append (e n old a b) :
    foldDefs e n old (a ++ b) = foldDefs e n (foldDefs e n old a) b := by
  simp [foldDefs]

/-- A variable stronger than all later definitions stays. -/
theorem foldDefs_weaker (e : Bool) (n : Str) (w : Var) (k : Nat) (hk : promote e w.origin = w.origin)
    (ds : List Def) (h : ∀ d ∈ ds, strength e d.origin < w.origin.rank) :
    foldDefs e n (some w) ds = some w := by
  induction ds with
  | nil => rfl
  | cons d ds ih =>
    have hd := h d (by simp)
    have : defineVar e (some w) n [] d.value d.origin d.recursive = w := by
      simp only [defineVar, rank_promote, hk]
      rw [if_neg (by omega)]
    simp only [foldDefs, List.foldl_cons, this]
    exact ih (fun d hd => h d (by simp [hd]))

/-- The strength in force never exceeds that of the definitions. -/
theorem foldDefs_le (e : Bool) (n : Str) (k : Nat) (ds : List Def) (old : Option Var)
    (ho : ∀ w, old = some w → strength e w.origin ≤ k)
    (h : ∀ d ∈ ds, strength e d.origin ≤ k) :
    ∀ w, foldDefs e n old ds = some w → strength e w.origin ≤ k := by
  induction ds generalizing old with
  | nil => exact ho
  | cons d ds ih =>
    intro w hw
    simp only [foldDefs, List.foldl_cons] at hw
    refine ih _ ?_ (fun d hd => h d (by simp [hd])) w hw
    intro w hw
    obtain rfl := Option.some.inj hw
    have hd := h d (by simp)
    cases old with
    | none =>
      simp only [defineVar]
      rw [← rank_promote, promote_promote, rank_promote]; exact hd
    | some v =>
      have hv := ho v rfl
      simp only [defineVar]
      split
      · rw [← rank_promote, promote_promote, rank_promote]; exact hd
      · rw [← rank_promote, promote_promote, rank_promote]; exact hv

theorem foldDefs_wins (e : Bool) (n : Str) (old : Option Var) (pre post : List Def) (d : Def)
    (ho : ∀ w, old = some w → strength e w.origin ≤ strength e d.origin)
    (hpre : ∀ x ∈ pre, strength e x.origin ≤ strength e d.origin)
    (hpost : ∀ x ∈ post, strength e x.origin < strength e d.origin) :
    Holds e (foldDefs e n old (pre ++ d :: post)) d := by
  rw [foldDefs_append]
  have hle := foldDefs_le e n (strength e d.origin) pre old ho hpre
  generalize hq : foldDefs e n old pre = q at hle ⊢
  have key : Holds e (some (defineVar e q n [] d.value d.origin d.recursive)) d ∧
      (defineVar e q n [] d.value d.origin d.recursive).origin = promote e d.origin := by
    cases q with
    | none => exact ⟨⟨_, rfl, rfl, promote_eq .., rfl⟩, rfl⟩
    | some w =>
      have := hle w rfl
      simp only [defineVar, rank_promote]
      rw [if_pos this]
      exact ⟨⟨_, rfl, rfl, promote_eq .., rfl⟩, rfl⟩
  show Holds e (foldDefs e n (some (defineVar e q n [] d.value d.origin d.recursive)) post) d
  rw [foldDefs_weaker e n _ 0 (by rw [key.2, promote_promote])]
  · exact key.1
  · intro x hx
    rw [key.2, rank_promote]; exact hpost x hx

theorem exists_wins (e : Bool) (ds : List Def) (h : ds ≠ []) : ∃ d, Wins e ds d := by
  induction ds with
  | nil => exact absurd rfl h
  | cons x xs ih =>
    by_cases hx : xs = []
    · subst hx
      exact ⟨x, [], [], rfl, by simp, by simp⟩
    · obtain ⟨d, pre, post, rfl, h1, h2⟩ := ih hx
      by_cases hc : strength e x.origin ≤ strength e d.origin
      · refine ⟨d, x :: pre, post, rfl, ?_, h2⟩
        intro y hy
        rcases List.mem_cons.mp hy with rfl | hy
        · exact hc
        · exact h1 y hy
      · refine ⟨x, [], pre ++ d :: post, rfl, by simp, ?_⟩
        intro y hy
        rcases List.mem_append.mp hy with hy | hy
        · have := h1 y hy; omega
        · rcases List.mem_cons.mp hy with rfl | hy
          · omega
          · have := h2 y hy; omega

/-! ### Lookup -/

theorem lookupGo_true (chain : List (VarSet × Bool)) (n : Str) :
    lookupGo true chain n = firstPublic (chain.map (·.1)) n := by
  induction chain with
  | nil => rfl
  | cons x rest ih =>
    obtain ⟨s, nip⟩ := x
    simp only [lookupGo, List.map_cons, firstPublic]
    cases hs : s n with
    | none => simpa using ih
    | some v =>
      cases hv : v.priv <;> simp [hv, ih]

theorem lookupGo_own (own : List VarSet) (rest : List (VarSet × Bool)) (n : Str) :
    lookupGo false (own.map (fun s => (s, false)) ++ rest) n =
      match firstDef own n with
      | some v => some v
      | none => lookupGo false rest n := by
  induction own with
  | nil => rfl
  | cons s own ih =>
    simp only [List.map_cons, List.cons_append, lookupGo, firstDef]
    cases hs : s n with
    | none => simpa using ih
    | some v => simp

theorem fileChain_shape (g : List (VarSet × Bool)) (f : FileScope) :
    ∃ a b, ownSets f = a ++ [b] ∧
      ∃ rest, fileChain g f = a.map (fun s => (s, false)) ++ (b, true) :: rest ∧
        rest.map (·.1) = outerSets (g.map (·.1)) f := by
  induction f with
  | dcolon own root ih =>
    obtain ⟨a, b, h1, rest, h2, h3⟩ := ih
    exact ⟨own :: a, b, by simp [ownSets, h1], rest, by simp [fileChain, h2], by simp [outerSets, h3]⟩
  | top own pat =>
    cases pat with
    | none => exact ⟨[], own, rfl, g, rfl, rfl⟩
    | some p => exact ⟨[own], p, rfl, g, rfl, rfl⟩
  | child own pat parent ih =>
    obtain ⟨a, b, h1, rest, h2, h3⟩ := ih
    have : (fileChain g parent).map (·.1) = ownSets parent ++ outerSets (g.map (·.1)) parent := by
      rw [h2, h1, ← h3]; simp [Function.comp_def]
    cases pat with
    | none => exact ⟨[], own, rfl, _, rfl, this⟩
    | some p => exact ⟨[own], p, rfl, _, rfl, this⟩

theorem firstDef_append (a b : List VarSet) (n : Str) :
    firstDef (a ++ b) n = match firstDef a n with
      | some v => some v
      | none => firstDef b n := by
  induction a with
  | nil => rfl
  | cons s a ih =>
    simp only [List.cons_append, firstDef]
    cases s n with
    | none => exact ih
    | some v => rfl

end Remake
