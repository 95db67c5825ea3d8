import Verif.Hash.Spec
import Mathlib.Data.Int.GCD
/-!
# Lemmas about the hash table: probing
-/
set_option linter.unusedVariables false
set_option linter.unusedSimpArgs false
namespace Remake
open Spec

variable {α : Type}

/-- The step of the probe sequence. -/
def hstep (F : HashFns α) (k : α) : Nat := (F.hash2 k ||| 1) % 2 ^ 32

/-- The `i`-th probed index. -/
def pos (F : HashFns α) (sz : Nat) (k : α) (i : Nat) : Nat :=
  (F.hash1 k % 2 ^ 32 + i * hstep F k) % sz

theorem hstep_odd (F : HashFns α) (k : α) : hstep F k % 2 = 1 := by
  unfold hstep
  have h : (F.hash2 k ||| 1) % 2 = 1 := by simp [Nat.or_mod_two_eq_one]
  omega

theorem and_size {n h : Nat} : h &&& (2 ^ n - 1) = h % 2 ^ n := Nat.and_two_pow_sub_one_eq_mod h n

theorem pos_lt {F : HashFns α} {sz : Nat} {k : α} {i : Nat} (h : 0 < sz) : pos F sz k i < sz :=
  Nat.mod_lt _ h

theorem pos_zero {F : HashFns α} {sz : Nat} {k : α} : pos F sz k 0 = F.hash1 k % 2 ^ 32 % sz := by
  simp [pos]

theorem pos_succ {F : HashFns α} {n : Nat} {k : α} {i : Nat} (hn : n ≤ 32) :
    ((pos F (2 ^ n) k i + hstep F k) % 2 ^ 32) % 2 ^ n = pos F (2 ^ n) k (i + 1) := by
  have hd : (2 : Nat) ^ n ∣ 2 ^ 32 := Nat.pow_dvd_pow 2 hn
  rw [Nat.mod_mod_of_dvd _ hd]
  unfold pos
  rw [Nat.mod_add_mod]
  congr 1
  rw [Nat.succ_mul]; omega

theorem pos_surj (F : HashFns α) (n : Nat) (k : α) {p : Nat} (hp : p < 2 ^ n) :
    ∃ i < 2 ^ n, pos F (2 ^ n) k i = p := by
  have hco : Nat.Coprime (hstep F k) (2 ^ n) := by
    apply Nat.Coprime.pow_right
    have := hstep_odd F k
    rw [Nat.coprime_comm]
    rw [Nat.Coprime, Nat.gcd_rec, this, Nat.gcd_one_left]
  have hpos : 0 < 2 ^ n := Nat.two_pow_pos n
  obtain ⟨m, hm⟩ := Nat.exists_mul_mod_eq_of_coprime
    (p + (2 ^ n - F.hash1 k % 2 ^ 32 % 2 ^ n)) hco (Nat.ne_of_gt hpos)
  refine ⟨m % 2 ^ n, Nat.mod_lt _ hpos, ?_⟩
  unfold pos
  have h1 : F.hash1 k % 2 ^ 32 % 2 ^ n < 2 ^ n := Nat.mod_lt _ hpos
  generalize hs : (2:Nat) ^ n = s at *
  have e1 : (F.hash1 k % 2 ^ 32 + m % s * hstep F k) % s
      = (F.hash1 k % 2 ^ 32 % s + (hstep F k * m) % s) % s := by
    rw [Nat.add_mod]
    congr 2
    rw [Nat.mod_mul_mod, Nat.mul_comm]
  rw [e1, hm.2]
  generalize F.hash1 k % 2 ^ 32 % s = a at *
  rw [Nat.add_mod_mod]
  have : a + (p + (s - a)) = p + s := by omega
  rw [this, Nat.add_mod_right, Nat.mod_eq_of_lt hp]

/-- The probe at index `p` ends the search for `k`. -/
def Stops (F : HashFns α) (t : HTable α) (k : α) (p : Nat) : Prop :=
  t.vec p = .empty ∨ ∃ x, t.vec p = .item x ∧ F.eq k x = true

/-- What the search returns when it stops at the probe with index `J`. -/
def Found (F : HashFns α) (t : HTable α) (k : α) (j J : Nat) (del : Option Nat) (q : Nat) : Prop :=
  (∃ x, t.vec (pos F t.size k J) = .item x ∧ F.eq k x = true ∧ q = pos F t.size k J) ∨
  (t.vec (pos F t.size k J) = .empty ∧
    (del = some q ∨
      (∃ i, j ≤ i ∧ i ≤ J ∧ q = pos F t.size k i ∧ (t.vec q = .empty ∨ t.vec q = .deleted))))

theorem findLoop_spec {F : HashFns α} {t : HTable α} {k : α} {n : Nat} (hn : n ≤ 32)
    (hs : t.size = 2 ^ n) (fuel : Nat) : ∀ (j h1 h2 : Nat) (del : Option Nat),
    h1 % t.size = pos F t.size k j → (h2 = 0 ∨ h2 = hstep F k) →
    (findLoop F t k fuel h1 h2 del = none ∧ ∀ i, j ≤ i → i < j + fuel → ¬ Stops F t k (pos F t.size k i)) ∨
    (∃ q J, findLoop F t k fuel h1 h2 del = some q ∧ j ≤ J ∧ J < j + fuel ∧
      (∀ i, j ≤ i → i < J → ¬ Stops F t k (pos F t.size k i)) ∧ Found F t k j J del q) := by
  induction fuel with
  | zero =>
    intro j h1 h2 del _ _
    exact Or.inl ⟨rfl, fun i h h' => by omega⟩
  | succ fuel ih =>
    intro j h1 h2 del hh h2e
    have hidx : h1 &&& (t.size - 1) = pos F t.size k j := by
      rw [← hh, hs]; exact and_size
    have hstep2 : (if h2 = 0 then (F.hash2 k ||| 1) % 2 ^ 32 else h2) = hstep F k := by
      rcases h2e with h | h
      · simp [h, hstep]
      · have : hstep F k % 2 = 1 := hstep_odd F k
        have : h2 ≠ 0 := by omega
        rw [if_neg this, h]
    have hnext : ((pos F t.size k j + hstep F k) % 2 ^ 32) % t.size = pos F t.size k (j + 1) := by
      rw [hs]; exact pos_succ hn
    rw [findLoop]
    simp only [hidx, hstep2]
    split
    · rename_i he
      refine Or.inr ⟨_, j, rfl, Nat.le_refl _, by omega, fun i h h' => by omega, ?_⟩
      refine Or.inr ⟨he, ?_⟩
      cases del with
      | some d => exact Or.inl rfl
      | none => exact Or.inr ⟨j, Nat.le_refl _, Nat.le_refl _, rfl, Or.inl he⟩
    · rename_i he
      have hns : ¬ Stops F t k (pos F t.size k j) := by
        rintro (h | ⟨x, h, _⟩)
        · rw [he] at h; cases h
        · rw [he] at h; cases h
      rcases ih (j + 1) _ _ (some (del.getD (pos F t.size k j))) hnext (Or.inr rfl) with
        ⟨h1', h2'⟩ | ⟨q, J, h1', h2', h3', h4', h5'⟩
      · refine Or.inl ⟨h1', fun i hi hi' => ?_⟩
        by_cases e : i = j
        · subst e; exact hns
        · exact h2' i (by omega) (by omega)
      · refine Or.inr ⟨q, J, h1', by omega, by omega, fun i hi hi' => ?_, ?_⟩
        · by_cases e : i = j
          · subst e; exact hns
          · exact h4' i (by omega) (by omega)
        · rcases h5' with h | ⟨h, h'⟩
          · exact Or.inl h
          · refine Or.inr ⟨h, ?_⟩
            rcases h' with h' | ⟨i, a, b, c, d⟩
            · cases hd : del with
              | some d => rw [hd] at h'; exact Or.inl (by simpa using h')
              | none =>
                rw [hd] at h'
                have : q = pos F t.size k j := by simpa using h'.symm
                exact Or.inr ⟨j, Nat.le_refl _, by omega, this, Or.inr (this ▸ he)⟩
            · exact Or.inr ⟨i, by omega, b, c, d⟩
    · rename_i x he
      split
      · rename_i hx
        refine Or.inr ⟨_, j, rfl, Nat.le_refl _, by omega, fun i h h' => by omega, ?_⟩
        exact Or.inl ⟨x, he, hx, rfl⟩
      · rename_i hx
        have hns : ¬ Stops F t k (pos F t.size k j) := by
          rintro (h | ⟨y, h, h'⟩)
          · rw [he] at h; cases h
          · rw [he] at h; cases h; exact hx h'
        rcases ih (j + 1) _ _ del hnext (Or.inr rfl) with
          ⟨h1', h2'⟩ | ⟨q, J, h1', h2', h3', h4', h5'⟩
        · refine Or.inl ⟨h1', fun i hi hi' => ?_⟩
          by_cases e : i = j
          · subst e; exact hns
          · exact h2' i (by omega) (by omega)
        · refine Or.inr ⟨q, J, h1', by omega, by omega, fun i hi hi' => ?_, ?_⟩
          · by_cases e : i = j
            · subst e; exact hns
            · exact h4' i (by omega) (by omega)
          · rcases h5' with h | ⟨h, h'⟩
            · exact Or.inl h
            · refine Or.inr ⟨h, ?_⟩
              rcases h' with h' | ⟨i, a, b, c, d⟩
              · exact Or.inl h'
              · exact Or.inr ⟨i, by omega, b, c, d⟩

/-- Result of a completed search. -/
inductive Hit (F : HashFns α) (t : HTable α) (k : α) (q : Nat) : Prop
  | match (x : α) (h : t.vec q = .item x) (he : F.eq k x = true)
  | free (J i : Nat) (hJ : t.vec (pos F t.size k J) = .empty) (hi : i ≤ J)
      (hq : q = pos F t.size k i)
      (hv : t.vec q = .empty ∨ t.vec q = .deleted)
      (hb : ∀ j < J, ¬ Stops F t k (pos F t.size k j))

theorem findSlot_hit {F : HashFns α} {t : HTable α} {k : α} {n : Nat} (hn : n ≤ 32)
    (hs : t.size = 2 ^ n) {e : Nat} (he : e < t.size) (hev : t.vec e = .empty) :
    ∃ q, findSlot F t k = some q ∧ q < t.size ∧ Hit F t k q := by
  have hpos : 0 < t.size := by rw [hs]; exact Nat.two_pow_pos n
  rcases findLoop_spec (F := F) (t := t) (k := k) hn hs t.size 0 (F.hash1 k % 2 ^ 32) 0 none
    (by rw [pos_zero]) (Or.inl rfl) with ⟨_, h2⟩ | ⟨q, J, h1, h2, h3, h4, h5⟩
  · exfalso
    obtain ⟨i, hi, hp⟩ := pos_surj F n k (p := e) (by rw [← hs]; exact he)
    rw [← hs] at hi hp
    exact h2 i (by omega) (by omega) (by rw [hp]; exact Or.inl hev)
  · refine ⟨q, h1, ?_, ?_⟩
    · rcases h5 with ⟨x, a, b, c⟩ | ⟨a, b | ⟨i, c, d, e, f⟩⟩
      · rw [c]; exact pos_lt hpos
      · cases b
      · rw [e]; exact pos_lt hpos
    · rcases h5 with ⟨x, a, b, c⟩ | ⟨a, b | ⟨i, c, d, e, f⟩⟩
      · exact .match x (c ▸ a) b
      · cases b
      · exact .free J i a d e f (fun j hj => h4 j (by omega) hj)

/-- A search that has not ended after `size` turns never ends. -/
theorem findLoop_diverges {F : HashFns α} {t : HTable α} {k : α} {n : Nat} (hn : n ≤ 32)
    (hs : t.size = 2 ^ n) (h : findSlot F t k = none) (fuel : Nat) :
    findLoop F t k fuel (F.hash1 k % 2 ^ 32) 0 none = none := by
  rcases findLoop_spec (F := F) (t := t) (k := k) hn hs fuel 0 (F.hash1 k % 2 ^ 32) 0 none
    (by rw [pos_zero]) (Or.inl rfl) with ⟨h1, _⟩ | ⟨q, J, h1, h2, h3, h4, h5⟩
  · exact h1
  · exfalso
    rcases findLoop_spec (F := F) (t := t) (k := k) hn hs t.size 0 (F.hash1 k % 2 ^ 32) 0 none
      (by rw [pos_zero]) (Or.inl rfl) with ⟨_, g⟩ | ⟨q', J', h1', _⟩
    · have hpos : 0 < t.size := by rw [hs]; exact Nat.two_pow_pos n
      obtain ⟨i, hi, hp⟩ := pos_surj F n k (p := pos F t.size k J)
        (by rw [← hs]; exact pos_lt hpos)
      rw [← hs] at hi hp
      apply g i (by omega) (by omega)
      rw [hp]
      rcases h5 with ⟨x, a, b, c⟩ | ⟨a, _⟩
      · exact Or.inr ⟨x, a, b⟩
      · exact Or.inl a
    · unfold findSlot at h
      rw [h1'] at h; cases h

end Remake
