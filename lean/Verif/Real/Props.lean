import Verif.Real.Model
import Verif.Text.Lemmas
set_option linter.unusedVariables false
set_option linter.unusedSimpArgs false
/-!
# C152: realpath
-/
namespace Remake
open Spec

variable {φ : Type}

/-- What is known about the kernel (`realpath(3)`, `stat(2)`): the resolved name is absolute, leads to the same file and is its own resolved name; there is one exactly for names that lead to a
file (so files whose resolved name is too long for the system are left out); `stat` succeeds exactly for these. -/
structure RpSound (W : RpWorld φ) : Prop where
  absolute : ∀ w p, W.real w = some p → p.head? = some '/'
  same : ∀ w p, W.real w = some p → W.file p = W.file w
  again : ∀ w p, W.real w = some p → W.real p = some p
  found : ∀ w, (W.real w).isSome = (W.file w).isSome
  stat : ∀ w, W.stat w = (W.file w).isSome

/-- **C152** `$(realpath names)` has the resolved names of the words in order, with single blanks; words that cannot be resolved, and words too long for the system, give nothing. -/
theorem C152_realpath {W : RpWorld φ} (hW : RpSound W) (limit : Nat) (text : Str) :
    funcRealpath W limit text = unwords ((wordsOf text).filterMap (fun w => if w.length < limit then W.real w else none)) := by
  unfold funcRealpath
  rw [tokens_eq]
  simp only
  exact foldl_words_out _ _ (by
    intro st w
    unfold rpStep
    split
    · cases e : W.real w with
      | none => rfl
      | some p =>
        have h1 : W.stat p = true := by
          rw [hW.stat, hW.same w p e, ← hW.found, e]
          rfl
        simp [h1]
    · rfl) _

/-- The resolved names, as words. -/
theorem rp_words {W : RpWorld φ} (hW : RpSound W) (limit : Nat) (text : Str) (hb : ∀ w p, W.real w = some p → ∀ c ∈ p, isSpace c = false) :
    wordsOf (funcRealpath W limit text) = (wordsOf text).filterMap (fun w => if w.length < limit then W.real w else none) := by
  rw [C152_realpath hW]
  apply wordsOf_unwords
  intro p hp
  obtain ⟨w, _, h⟩ := List.mem_filterMap.1 hp
  split at h
  · refine ⟨?_, hb w p h⟩
    rintro rfl
    have := hW.absolute w [] h
    cases this
  · cases h

/-- **C152** Where resolved names have no blanks, and the words are not too long, the words of the result lead to the same files as those words of the argument that lead to files, one by
one and in order; and each is absolute and its own resolved name. -/
theorem C152_files_partial {W : RpWorld φ} (hW : RpSound W) (limit : Nat) (text : Str) (hb : ∀ w p, W.real w = some p → ∀ c ∈ p, isSpace c = false)
    (hl : ∀ w ∈ wordsOf text, w.length < limit) :
    (wordsOf (funcRealpath W limit text)).map W.file = ((wordsOf text).map W.file).filter (·.isSome) ∧
    ∀ p ∈ wordsOf (funcRealpath W limit text), p.head? = some '/' ∧ W.real p = some p := by
  rw [rp_words hW limit text hb]
  constructor
  · generalize wordsOf text = ws at hl
    induction ws with
    | nil => rfl
    | cons w ws ih =>
      have ih := ih (fun w hw => hl w (List.mem_cons_of_mem _ hw))
      have h1 := hl w (List.mem_cons_self ..)
      have h2 := hW.found w
      cases e : W.real w with
      | none =>
        rw [e] at h2
        simp only [List.filterMap_cons, h1, if_true, e, List.map_cons]
        rw [List.filter_cons_of_neg (by rw [← h2]; simp), ← ih]
      | some p =>
        rw [e] at h2
        simp only [List.filterMap_cons, h1, if_true, e, List.map_cons]
        rw [List.filter_cons_of_pos (by rw [← h2]; rfl), ← ih, hW.same w p e]
  · intro p hp
    obtain ⟨w, _, h⟩ := List.mem_filterMap.1 hp
    split at h
    · exact ⟨hW.absolute w p h, hW.again w p h⟩
    · cases h

/-- **C152** Resolving again changes nothing, where resolved names have no blanks and are not too long. -/
theorem C152_again_partial {W : RpWorld φ} (hW : RpSound W) (limit : Nat) (text : Str) (hb : ∀ w p, W.real w = some p → ∀ c ∈ p, isSpace c = false)
    (hl : ∀ w p, W.real w = some p → p.length < limit) :
    funcRealpath W limit (funcRealpath W limit text) = funcRealpath W limit text := by
  conv => lhs; rw [C152_realpath hW, rp_words hW limit text hb]
  conv => rhs; rw [C152_realpath hW]
  congr 1
  rw [List.filterMap_filterMap]
  congr 1
  funext w
  split
  · cases e : W.real w with
    | none => rfl
    | some p => simp [hl w p e, hW.again w p e]
  · rfl

/-! ## Examples -/

/-- A link `l` to the file `/d/f`; the directory is `/d`. -/
def rpExample : RpWorld Nat where
  real w := if w = "f".toList ∨ w = "l".toList ∨ w = "/d/f".toList then some "/d/f".toList else none
  stat w := decide (w = "f".toList ∨ w = "l".toList ∨ w = "/d/f".toList)
  file w := if w = "f".toList ∨ w = "l".toList ∨ w = "/d/f".toList then some 1 else none

theorem rpExample_sound : RpSound rpExample := by
  constructor <;> intro w
  · intro p h; simp only [rpExample] at h; split at h
    · cases h; rfl
    · cases h
  · intro p h; simp only [rpExample] at h ⊢; split at h
    · rename_i h1; cases h; rw [if_pos h1, if_pos (by simp)]
    · cases h
  · intro p h; simp only [rpExample] at h ⊢; split at h
    · cases h; simp
    · cases h
  · simp only [rpExample]; split <;> rfl
  · simp only [rpExample]; split <;> simp_all

example : funcRealpath rpExample 4096 "l  missing f".toList = "/d/f /d/f".toList := by
  rw [C152_realpath rpExample_sound]
  decide +kernel
example : ∀ w p, rpExample.real w = some p → (∀ c ∈ p, isSpace c = false) ∧ p.length < 4096 := by
  intro w p h; simp only [rpExample] at h; split at h
  · cases h; decide +kernel
  · cases h

/-- A file below a directory with a blank in its name. -/
def rpBlank : RpWorld Nat where
  real w := if w = "f".toList ∨ w = "/my d/f".toList then some "/my d/f".toList else none
  stat w := decide (w = "f".toList ∨ w = "/my d/f".toList)
  file w := if w = "f".toList ∨ w = "/my d/f".toList then some 1 else none

theorem rpBlank_sound : RpSound rpBlank := by
  constructor <;> intro w
  · intro p h; simp only [rpBlank] at h; split at h
    · cases h; rfl
    · cases h
  · intro p h; simp only [rpBlank] at h ⊢; split at h
    · rename_i h1; cases h; rw [if_pos h1, if_pos (by simp)]
    · cases h
  · intro p h; simp only [rpBlank] at h ⊢; split at h
    · cases h; simp
    · cases h
  · simp only [rpBlank]; split <;> rfl
  · simp only [rpBlank]; split <;> simp_all

/-- **C152** (negative) In a directory with a blank in its name, the result for one word is two words, neither of which leads to a file, and resolving again gives nothing. -/
theorem C152_blank :
    wordsOf (funcRealpath rpBlank 4096 "f".toList) = ["/my".toList, "d/f".toList] ∧
    (wordsOf (funcRealpath rpBlank 4096 "f".toList)).map rpBlank.file = [none, none] ∧
    funcRealpath rpBlank 4096 (funcRealpath rpBlank 4096 "f".toList) = [] := by
  have e : funcRealpath rpBlank 4096 "f".toList = "/my d/f".toList := by
    rw [C152_realpath rpBlank_sound]; decide +kernel
  rw [e, C152_realpath rpBlank_sound]
  decide +kernel

end Remake
