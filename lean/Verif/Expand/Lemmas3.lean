import Verif.Expand.Lemmas2
/-!
# Lemmas about evaluation: more fuel, and termination
-/
set_option linter.unusedVariables false
set_option linter.unusedSimpArgs false
namespace Remake
open Spec

/-! ### More fuel does not change a result -/

/-- The same result, unless the fuel was used up. -/
def Le {α} (r r' : XRes α) : Prop := r = .deep ∨ r = r'

theorem Le.refl {α} (r : XRes α) : Le r r := Or.inr rfl

theorem le_bind {α β} {r r' : XRes α} {k k' : α → XState → XRes β} (h : Le r r')
    (hk : ∀ a st, Le (k a st) (k' a st)) : Le (r.bind k) (r'.bind k') := by
  rcases h with rfl | rfl
  · exact Or.inl rfl
  · cases r with
    | ok a st => exact hk a st
    | fatal => exact .refl _
    | deep => exact Or.inl rfl

/-- One expansion function is the other with less fuel. -/
def LeAll (rec rec' : XState → Str → XRes Str) : Prop := ∀ st s, Le (rec st s) (rec' st s)

variable (ext : List (VarSet × Bool) → Str → List Str → Option Str)
variable {rec rec' : XState → Str → XRes Str} (hr : LeAll rec rec')
include hr

theorem appendParts_le (buf : Str) (vs : List Var) (st : XState) :
    Le (appendParts rec buf vs st) (appendParts rec' buf vs st) := by
  induction vs generalizing buf st with
  | nil => exact .refl _
  | cons v vs ih =>
    simp only [appendParts]
    generalize (if buf = [] then buf else buf ++ [' ']) = buf
    split
    · exact le_bind (hr _ _) fun _ _ => ih _ _
    · exact ih _ _

theorem recursivelyExpand_le (st : XState) (id : Nat × Str) (v : Var) :
    Le (recursivelyExpand rec st id v) (recursivelyExpand rec' st id v) := by
  simp only [recursivelyExpand]
  split
  · exact .refl _
  · refine le_bind ?_ fun _ _ => .refl _
    split
    · exact appendParts_le hr _ _ _
    · exact hr _ _

theorem referenceVariable_le (st : XState) (n : Str) :
    Le (referenceVariable rec st n) (referenceVariable rec' st n) := by
  simp only [referenceVariable]
  split
  · exact .refl _
  · split
    · exact .refl _
    · split
      · exact recursivelyExpand_le hr _ _ _
      · exact .refl _

theorem expandNamed_le (st : XState) (n : Str) : Le (expandNamed rec st n) (expandNamed rec' st n) := by
  simp only [expandNamed]
  split
  · exact referenceVariable_le hr _ _
  · split
    · exact referenceVariable_le hr _ _
    · split
      · exact .refl _
      · split
        · exact .refl _
        · refine le_bind ?_ fun _ _ => .refl _
          split
          · exact recursivelyExpand_le hr _ _ _
          · exact .refl _

theorem expandArgs_le (as : List Str) (st : XState) : Le (expandArgs rec as st) (expandArgs rec' as st) := by
  induction as generalizing st with
  | nil => exact .refl _
  | cons a as ih => exact le_bind (hr _ _) fun _ _ => le_bind (ih _) fun _ _ => .refl _

theorem funcOrX_le (as : List Str) (st : XState) : Le (funcOrX rec as st) (funcOrX rec' as st) := by
  induction as generalizing st with
  | nil => exact .refl _
  | cons a as ih =>
    simp only [funcOrX]
    split
    · exact ih _
    · refine le_bind (hr _ _) fun _ _ => ?_
      split
      · exact ih _
      · exact .refl _

theorem funcAndX_le (as : List Str) (st : XState) : Le (funcAndX rec as st) (funcAndX rec' as st) := by
  induction as generalizing st with
  | nil => exact .refl _
  | cons a as ih =>
    simp only [funcAndX]
    split
    · exact .refl _
    · refine le_bind (hr _ _) fun _ _ => ?_
      split
      · exact .refl _
      · split
        · exact .refl _
        · exact ih _

theorem funcIfX_le (as : List Str) (st : XState) : Le (funcIfX rec as st) (funcIfX rec' as st) := by
  cases as with
  | nil => exact .refl _
  | cons a as =>
    simp only [funcIfX]
    refine le_bind ?_ fun out st' => ?_
    · split
      · exact .refl _
      · exact hr _ _
    · split
      · exact hr _ _
      · exact .refl _

theorem foreachGo_le (var body : Str) (ws : List Str) (st : XState) :
    Le (foreachGo rec var body ws st) (foreachGo rec' var body ws st) := by
  induction ws generalizing st with
  | nil => exact .refl _
  | cons w ws ih => exact le_bind (hr _ _) fun _ _ => le_bind (ih _) fun _ _ => .refl _

theorem funcForeach_le (as : List Str) (st : XState) : Le (funcForeach rec as st) (funcForeach rec' as st) := by
  unfold funcForeach
  split
  · exact le_bind (hr _ _) fun _ _ => le_bind (hr _ _) fun _ _ =>
      le_bind (foreachGo_le hr _ _ _ _) fun _ _ => .refl _
  · exact .refl _

theorem callUser_le (fname : Str) (args : List Str) (st : XState) :
    Le (callUser rec fname args st) (callUser rec' fname args st) := by
  simp only [callUser]
  split
  · exact .refl _
  · split
    · exact .refl _
    · exact le_bind (hr _ _) fun _ _ => .refl _

theorem applyFn_le (e : FnEntry) (as : List Str) (st : XState) :
    Le (applyFn ext rec e as st) (applyFn ext rec' e as st) := by
  induction as generalizing e st with
  | nil => exact .refl _
  | cons a as ih =>
    simp only [applyFn]
    split
    · exact .refl _
    · split
      · exact funcForeach_le hr _ _
      · exact funcIfX_le hr _ _
      · exact funcOrX_le hr _ _
      · exact funcAndX_le hr _ _
      · exact .refl _
      · exact .refl _
      · split
        · exact .refl _
        · split
          · exact ih _ _
          · exact callUser_le hr _ _ _

theorem evalRef_le (st : XState) (r : Ref) : Le (evalRef ext rec st r) (evalRef ext rec' st r) := by
  cases r with
  | unterminated => exact .refl _
  | plain n => exact expandNamed_le hr _ _
  | computed t => exact le_bind (hr _ _) fun _ _ => expandNamed_le hr _ _
  | func e args =>
    simp only [evalRef]
    split
    · exact le_bind (expandArgs_le hr _ _) fun _ _ => applyFn_le ext hr _ _ _
    · exact applyFn_le ext hr _ _ _

theorem evalToks_le (ts : List Tok) (st : XState) : Le (evalToks ext rec ts st) (evalToks ext rec' ts st) := by
  induction ts generalizing st with
  | nil => exact .refl _
  | cons t ts ih =>
    cases t with
    | char c => exact le_bind (ih _) fun _ _ => .refl _
    | var c => exact le_bind (referenceVariable_le hr _ _) fun _ _ => le_bind (ih _) fun _ _ => .refl _
    | ref r => exact le_bind (evalRef_le ext hr _ _) fun _ _ => le_bind (ih _) fun _ _ => .refl _

omit hr in
theorem expand_le (n : Nat) : LeAll (expand ext n) (expand ext (n + 1)) := by
  induction n with
  | zero => intro st s; exact Or.inl rfl
  | succ n ih => intro st s; exact evalToks_le ext ih _ _

omit hr in
theorem expand_mono {n m : Nat} (h : n ≤ m) (st : XState) (s : Str) (hn : expand ext n st s ≠ .deep) :
    expand ext m st s = expand ext n st s := by
  induction h with
  | refl => rfl
  | @step m h ih =>
    rcases expand_le ext m st s with h1 | h1
    · rw [ih] at h1; exact absurd h1 hn
    · rw [← h1, ih]

end Remake
