import Verif.Flags.Props
/-!
# Options that the environment cannot give
-/
set_option linter.unusedVariables false
namespace Remake
open Remake.Spec

namespace Spec
/-- What only the command line decides: the directories to change to (`-C`), the makefiles (`-f`), the files taken for old (`-o`)
and for new (`-W`), and the requests for a help text and for lists of tasks and targets. -/
def commandLineOnly : List OptVar := [.directories, .makefiles, .oldFiles, .newFiles, .printUsage, .showTasks, .showTargets]

/-- Two sets of options agree in a variable, whatever its type. -/
def SameValue {F : Type} (v : OptVar) (a b : Opts F) : Prop := a.num v = b.num v ∧ a.str v = b.str v ∧ a.lst v = b.lst v
end Spec

theorem applySwitch_same {F : Type} (fl : Floats F) (tilde : Str → Option Str) (env : Bool) (cs : Switch) (a : Option Str)
    (ws : List Str) (d : Decoded F) (v : OptVar) (h : env = true → cs.env = true → cs.var ≠ v) (he : env = true) :
    SameValue v (applySwitch fl tilde env cs a ws d).1.opts d.opts := by
  subst he
  by_cases hc : cs.env = true
  · have hv : ¬ v = cs.var := fun e => h rfl hc e.symm
    unfold applySwitch
    simp only [hc, Bool.or_true, if_true]
    cases ht : cs.type
    all_goals
      simp only [storeString, storeNumber]
      first
        | (refine ⟨?_, ?_, ?_⟩ <;> simp [Opts.setNum, hv]; done)
        | (split <;> (try split) <;> (try split) <;> refine ⟨?_, ?_, ?_⟩ <;> simp [Opts.setNum, Opts.setStr, Opts.addStr, hv])
  · have hc : cs.env = false := by simpa using hc
    unfold applySwitch
    simp only [hc, Bool.not_true, Bool.or_false]
    cases ht : cs.type <;> exact ⟨rfl, rfl, rfl⟩

theorem env_not_only : ∀ cs ∈ switches, cs.env = true → ∀ v ∈ commandLineOnly, cs.var ≠ v := by decide +kernel

theorem applyOpt_same {F : Type} (fl : Floats F) (tilde : Str → Option Str) (c : Nat) (a : Option Str)
    (ws : List Str) (d : Decoded F) (v : OptVar) (hv : v ∈ commandLineOnly) :
    SameValue v (applyOpt fl tilde true c a ws d).1.opts d.opts := by
  unfold applyOpt
  cases hf : switches.find? (fun cs => cs.c == c) with
  | none => exact ⟨rfl, rfl, rfl⟩
  | some cs => exact applySwitch_same fl tilde true cs a ws d v (fun _ h => env_not_only cs (List.mem_of_find?_eq_some hf) h v hv) rfl

theorem decodeLoop_same {F : Type} (fl : Floats F) (tilde : Str → Option Str) (v : OptVar) (hv : v ∈ commandLineOnly)
    (n : Nat) : ∀ (inited : Bool) (cur : Str) (ws : List Str) (d : Decoded F), wordsSize cur ws ≤ n →
    SameValue v (decodeLoop fl tilde true inited cur ws d).opts d.opts := by
  induction n with
  | zero =>
    intro i cur ws d hn
    have h0 : cur = [] ∧ ws = [] := by
      unfold wordsSize at hn
      cases cur <;> cases ws <;> simp at hn ⊢
    rw [decodeLoop.eq_def, dif_pos h0]
    exact ⟨rfl, rfl, rfl⟩
  | succ n ih =>
    intro i cur ws d hn
    by_cases h0 : cur = [] ∧ ws = []
    · rw [decodeLoop.eq_def, dif_pos h0]; exact ⟨rfl, rfl, rfl⟩
    · rw [decodeLoop.eq_def, dif_neg h0]
      have hlt := getopt_lt (!true) i cur ws h0
      split
      · exact ⟨rfl, rfl, rfl⟩
      · rename_i h; rw [h] at hlt
        exact ih _ _ _ _ (by simp only at hlt; omega)
      · rename_i h; rw [h] at hlt
        exact ih _ _ _ _ (by simp only at hlt; omega)
      · rename_i c a cur' ws' h; rw [h] at hlt
        have h1 := wordsSize_suffix (applyOpt_ws fl tilde true c a ws' d)
        have h2 := ih true cur' (applyOpt fl tilde true c a ws' d).2 (applyOpt fl tilde true c a ws' d).1 (by
          simp only [wordsSize] at hlt h1 hn ⊢; omega)
        have h3 := applyOpt_same fl tilde c a ws' d v hv
        exact ⟨h2.1.trans h3.1, h2.2.1.trans h3.2.1, h2.2.2.trans h3.2.2⟩

/-- C91.  Whatever `MAKEFLAGS` (or `GNUMAKEFLAGS`) contains, it sets none of the options that only the command line decides. -/
theorem C91_environment {F : Type} (fl : Floats F) (tilde : Str → Option Str) (value : Str) (s : Opts F) (v : OptVar)
    (hv : v ∈ commandLineOnly) : SameValue v (decodeSwitches fl tilde true (envWords value) s).opts s :=
  decodeLoop_same fl tilde v hv _ _ _ _ _ (Nat.le_refl _)

theorem decode_one {F : Type} (fl : Floats F) (tilde : Str → Option Str) (env i : Bool) (cur : Str) (ws : List Str) (d : Decoded F) (c : Nat)
    (a : Option Str) (cur' : Str) (ws' : List Str) (h0 : ¬ (cur = [] ∧ ws = []))
    (h : getopt (!env) i cur ws = (.opt c a, cur', ws')) :
    decodeLoop fl tilde env i cur ws d =
      decodeLoop fl tilde env true cur' (applyOpt fl tilde env c a ws' d).2 (applyOpt fl tilde env c a ws' d).1 := by
  rw [decodeLoop.eq_def, dif_neg h0]
  split
  all_goals
    rename_i hh
    rw [h] at hh
    simp only [Prod.mk.injEq, GetOpt.opt.injEq, reduceCtorEq, false_and] at hh
  obtain ⟨⟨rfl, rfl⟩, rfl, rfl⟩ := hh
  rfl

theorem find_f : switches.find? (fun cs => cs.c == 'f'.toNat) =
    some ⟨'f'.toNat, .filename, .makefiles, false, false, false, none, none, "file".toList⟩ := by decide +kernel
theorem find_n : switches.find? (fun cs => cs.c == 'n'.toNat) =
    some ⟨'n'.toNat, .flag, .justPrint, true, true, true, none, none, "just-print".toList⟩ := by decide +kernel

/-- The options have an effect on the command line, and none in `MAKEFLAGS`, where the option after them is still seen. -/
example {F : Type} (fl : Floats F) :
    ((decodeSwitches fl (fun _ => none) false ["-f".toList, "x".toList] (Opts.init fl false)).opts.lst .makefiles) = ["x".toList] ∧
    ((decodeSwitches fl (fun _ => none) true (envWords "-f x -n".toList) (Opts.init fl false)).opts.lst .makefiles) = [] ∧
    ((decodeSwitches fl (fun _ => none) true (envWords "-f x -n".toList) (Opts.init fl false)).opts.num .justPrint) = 1 := by
  have hx : expandFile (fun _ => none) "x".toList = "x".toList := by decide +kernel
  have hw : envWords "-f x -n".toList = ["-f".toList, "x".toList, "-n".toList] := by decide +kernel
  refine ⟨?_, (C91_environment fl _ _ _ .makefiles (by decide)).2.2, ?_⟩
  · unfold decodeSwitches
    rw [decode_one fl _ false false [] ["-f".toList, "x".toList] _ 'f'.toNat (some "x".toList) [] [] (by simp) (by decide +kernel)]
    simp only [applyOpt, find_f, applySwitch, storeString, Bool.not_false, Bool.true_or, if_true]
    rw [decodeLoop.eq_def, dif_pos ⟨rfl, rfl⟩, if_neg (by decide), if_neg (by decide)]
    simp only [Option.getD_some, hx]
    simp [Opts.addStr, Opts.init]
  · rw [hw]
    unfold decodeSwitches
    rw [decode_one fl _ true false [] _ _ 'f'.toNat (some "x".toList) [] ["-n".toList] (by simp) (by decide +kernel)]
    simp only [applyOpt, find_f, applySwitch]
    rw [decode_one fl _ true true [] ["-n".toList] _ 'n'.toNat none [] [] (by simp) (by decide +kernel)]
    simp only [applyOpt, find_n, applySwitch]
    rw [decode_none]
    simp [Opts.setNum]

end Remake
