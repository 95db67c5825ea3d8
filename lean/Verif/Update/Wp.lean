import Verif.Update.Model
/-!
# Updating targets: a program logic

Not part of the model: what has to hold of the outcomes of a step, and how this is composed.
-/
namespace Remake
set_option linter.unusedVariables false

/-- What holds of an outcome: `Q` of a result, `E` of a state in which the program ended, `F` of a
state in which the bound was reached. -/
def UOut.sat {α} (o : UOut α) (Q : α → UState → Prop) (E F : UState → Prop) : Prop :=
  match o with
  | .ok a s => Q a s
  | .dead s => E s
  | .undef s => E s
  | .fuel s => F s

/-- What holds after a step. -/
def wp {α} (m : UM α) (Q : α → UState → Prop) (E F : UState → Prop) (s : UState) : Prop :=
  (m s).sat Q E F

/-- The same for a step that always has a result. -/
def wpT {α} (m : UM α) (Q : α → UState → Prop) (s : UState) : Prop :=
  wp m Q (fun _ => False) (fun _ => False) s

theorem wp_pure {α} (a : α) (Q E F s) : wp (pure a : UM α) Q E F s = Q a s := rfl

theorem wp_get (Q E F s) : wp UM.get Q E F s = Q s s := rfl

theorem wp_modify (g Q E F s) : wp (UM.modify g) Q E F s = Q () (g s) := rfl

theorem wp_die {α} (Q E F s) : wp (UM.die : UM α) Q E F s = E s := rfl

theorem wp_fuel {α} (Q : α → UState → Prop) (E F s) : wp (fun s => UOut.fuel s) Q E F s = F s := rfl

theorem wp_bind {α β} (m : UM α) (k : α → UM β) (Q E F s) :
    wp (m >>= k) Q E F s = wp m (fun a s => wp (k a) Q E F s) E F s := by
  show (match m s with | .ok a s => k a s | .dead s => UOut.dead s | .undef s => .undef s | .fuel s => .fuel s).sat Q E F = _
  unfold wp
  cases m s <;> rfl

theorem wp_readDep (d Q E F s) :
    wp (readDep d) Q E F s = (match s.dep d with | none => E s | some x => Q x s) := by
  unfold wp readDep
  cases s.dep d <;> rfl

theorem wp_mono {α} {m : UM α} {Q Q' : α → UState → Prop} {E E' F F' : UState → Prop} {s}
    (h : wp m Q E F s) (hQ : ∀ a s', Q a s' → Q' a s') (hE : ∀ s', E s' → E' s')
    (hF : ∀ s', F s' → F' s') : wp m Q' E' F' s := by
  unfold wp at *
  cases hm : m s <;> rw [hm] at h
  · exact hQ _ _ h
  · exact hE _ h
  · exact hE _ h
  · exact hF _ h

theorem wp_of_T {α} {m : UM α} {Q Q' : α → UState → Prop} {E F : UState → Prop} {s}
    (h : wpT m Q s) (hQ : ∀ a s', Q a s' → Q' a s') : wp m Q' E F s :=
  wp_mono h hQ (fun _ h => h.elim) (fun _ h => h.elim)

theorem wp_and {α} {m : UM α} {Q Q' : α → UState → Prop} {E E' F F' : UState → Prop} {s}
    (h : wp m Q E F s) (h' : wp m Q' E' F' s) :
    wp m (fun a s => Q a s ∧ Q' a s) (fun s => E s ∧ E' s) (fun s => F s ∧ F' s) s := by
  unfold wp at *
  cases hm : m s <;> rw [hm] at h h' <;> exact ⟨h, h'⟩

theorem wp_ite {α} (c : Prop) [Decidable c] (a b : UM α) (Q E F s) :
    wp (if c then a else b) Q E F s = if c then wp a Q E F s else wp b Q E F s := by
  split <;> rfl

end Remake
