import Verif.Member.Model
import Verif.Misc.Props
import Verif.Archive.Spec

/-!
# C155: times of archive members
-/
set_option linter.unusedSimpArgs false
namespace Remake
open Spec

/-! ## Lemmas -/

theorem mbString_nul {a r : Str} (h : Char.ofNat 0 ∉ a) : mbString (a ++ Char.ofNat 0 :: r) = a := by
  unfold mbString
  rw [List.takeWhile_append_of_pos (by intro c hc; simp; rintro rfl; exact h hc)]
  simp

theorem mbParse_eq {name lib m : Str} (h : ArForm name lib m) (hn : Char.ofNat 0 ∉ name) :
    mbParse name = ⟨lib ++ Char.ofNat 0 :: m ++ [Char.ofNat 0, Char.ofNat 0], lib.length + 1, true⟩ := by
  obtain ⟨rfl, h1, h2, h3⟩ := h
  have e : lib ++ '(' :: m ++ [')'] = lib ++ '(' :: (m ++ [')']) := by simp
  rw [e] at hn ⊢
  unfold mbParse
  rw [(takeDrop_paren lib (m ++ [')']) h1).1]
  have hm : Char.ofNat 0 ∉ m ++ [')'] := fun hc => hn (by simp only [List.mem_append, List.mem_cons] at hc ⊢; exact Or.inr (Or.inr hc))
  have e1 : (lib ++ '(' :: (m ++ [')']) ++ [Char.ofNat 0]).set lib.length (Char.ofNat 0) =
      lib ++ Char.ofNat 0 :: (m ++ [')'] ++ [Char.ofNat 0]) := by
    simp [List.set_append]
  have e2 : (lib ++ Char.ofNat 0 :: (m ++ [')'] ++ [Char.ofNat 0])).drop (lib.length + 1) = (m ++ [')']) ++ Char.ofNat 0 :: [] := by
    simp [List.drop_append]
  simp only [e1, e2, mbString_nul hm]
  have e3 : lib.length + 1 + (m ++ [')']).length - 1 = lib.length + (m.length + 1) := by simp; omega
  rw [e3]
  simp [List.set_append]

theorem mbRead_names {name lib m : Str} (h : ArForm name lib m) (hn : Char.ofNat 0 ∉ name) :
    (mbParse name).read 0 = some lib ∧ (mbParse name).read (mbParse name).mem = some m := by
  rw [mbParse_eq h hn]
  obtain ⟨rfl, h1, h2, h3⟩ := h
  have hl : Char.ofNat 0 ∉ lib := fun hc => hn (by simp [hc])
  have hm : Char.ofNat 0 ∉ m := fun hc => hn (by simp [hc])
  refine ⟨?_, ?_⟩
  · simp only [MbBlock.read, if_true, List.drop_zero]
    have : lib ++ Char.ofNat 0 :: m ++ [Char.ofNat 0, Char.ofNat 0] = lib ++ Char.ofNat 0 :: (m ++ [Char.ofNat 0, Char.ofNat 0]) := by simp
    rw [this, mbString_nul hl]
  · simp only [MbBlock.read, if_true]
    have : (lib ++ Char.ofNat 0 :: m ++ [Char.ofNat 0, Char.ofNat 0]).drop (lib.length + 1) = m ++ Char.ofNat 0 :: [Char.ofNat 0] := by
      simp [List.drop_append]
    rw [this, mbString_nul hm]

theorem mbPut_next (a s : Str) (k : Nat) (h : s.length ≤ k) :
    mbPut (a.map some ++ List.replicate k none) a.length s = some ((a ++ s).map some ++ List.replicate (k - s.length) none) := by
  unfold mbPut
  rw [if_pos (by simp; omega)]
  simp [List.take_append, List.drop_append]

theorem mbGet_string {s : Str} (h : Char.ofNat 0 ∉ s) (r : List (Option Char)) :
    mbGet (s.map some ++ some (Char.ofNat 0) :: r) = some s := by
  induction s with
  | nil => simp [mbGet]
  | cons c cs ih =>
    have hc : c ≠ Char.ofNat 0 := fun e => h (by simp [e])
    simp only [List.map_cons, List.cons_append, mbGet, if_neg hc]
    rw [ih fun hm => h (by simp [hm])]
    rfl

/-! ## C155 -/

/-- C155: the new name of a member of an archive that was found elsewhere is built within its memory. -/
theorem C155_name {h m : Str} (hh : Char.ofNat 0 ∉ h) (hm : Char.ofNat 0 ∉ m) :
    mbRename h m = some (h ++ '(' :: m ++ [')']) := by
  unfold mbRename
  have s1 := mbPut_next [] h (h.length + 1 + m.length + 2) (by omega)
  simp only [List.map_nil, List.nil_append, List.length_nil] at s1
  rw [s1, Option.bind_some, mbPut_next h ['('] _ (by simp; omega), Option.bind_some]
  have e1 : h.length + 1 = (h ++ ['(']).length := by simp
  rw [e1, mbPut_next (h ++ ['(']) m _ (by simp; omega), Option.bind_some]
  have e2 : (h ++ ['(']).length + m.length = (h ++ ['('] ++ m).length := by simp; omega
  rw [e2, mbPut_next (h ++ ['('] ++ m) [')'] _ (by simp; omega), Option.bind_some]
  have e3 : (h ++ ['('] ++ m).length + 1 = (h ++ ['('] ++ m ++ [')']).length := by simp; omega
  rw [e3, mbPut_next (h ++ ['('] ++ m ++ [')']) [Char.ofNat 0] _ (by simp; omega), Option.bind_some]
  have e4 : ∀ r, ((h ++ ['('] ++ m ++ [')'] ++ [Char.ofNat 0]).map some ++ r : List (Option Char)) =
      (h ++ ['('] ++ m ++ [')']).map some ++ some (Char.ofNat 0) :: r := by intro r; simp
  rw [e4, mbGet_string]
  · simp
  · simp only [List.mem_append, List.mem_singleton, not_or]
    exact ⟨⟨⟨hh, by decide⟩, hm⟩, by decide⟩

/-- The archive that is looked into: where it was found if make searches, else the one that is named. -/
def Spec.MemberOf (W : MbWorld) (search : Bool) (lib L : Str) : Prop := L = if search then (W.archive lib search).hname else lib

theorem mbTime_eq {W : MbWorld} {fuel : Nat} {search : Bool} {name lib m L : Str} (hf : ArForm name lib m) (hn : Char.ofNat 0 ∉ name)
    (hL : MemberOf W search lib L) (hL1 : '(' ∉ L) (hL2 : L ≠ []) (hL3 : Char.ofNat 0 ∉ L) :
    mbTime W fuel search name =
      if (W.archive lib search).time = none then .done none (L ++ '(' :: m ++ [')']) []
      else match arMemberDate fuel (W.bytes L) m with
        | .running => .running
        | .undefined => .undefined
        | .val d => if d = some 0 then .undefined else .done (d.map (W.stamp (L ++ '(' :: m ++ [')']))) (L ++ '(' :: m ++ [')']) [] := by
  obtain ⟨r1, r2⟩ := mbRead_names hf hn
  have hm : Char.ofNat 0 ∉ m := by obtain ⟨rfl, -⟩ := hf; exact fun hc => hn (by simp [hc])
  have hm0 : ArForm (L ++ '(' :: m ++ [')']) L m := by
    obtain ⟨-, -, -, h3⟩ := hf
    first
      | exact ⟨rfl, hL1, hL2, h3⟩
      | exact ⟨rfl, hL1, h3, hL2⟩
  have hname : (if search = true ∧ (W.archive lib search).hname ≠ lib then mbRename (W.archive lib search).hname m else some name) =
      some (L ++ '(' :: m ++ [')']) := by
    unfold MemberOf at hL
    cases search with
    | false => simp at hL; subst hL; simp [hf.1]
    | true =>
      simp only [if_true] at hL
      by_cases he : (W.archive lib true).hname = lib
      · rw [he] at hL; subst hL
        simp [he, hf.1]
      · simp only [true_and, ne_eq, he, not_false_eq_true, if_true]
        rw [← hL]; exact C155_name hL3 hm
  unfold mbTime
  simp only [r1, r2]
  rw [hname]
  simp only [C59_parse _ _ _ hm0, MbBlock.read, Bool.false_eq_true, if_false]
  split
  · rfl
  · split <;> simp_all

/-- C155 (partial): the time of the member `lib(m)` is the one of its entry in the archive, which make may have searched for, and which gives the
member its new name; there is no time if there is no archive or no such entry.  Missing: an entry with date 0, see `C155_freed`. -/
theorem C155_time_partial {W : MbWorld} {fuel : Nat} {search : Bool} {name lib m L : Str} {d : Option Int} (hf : ArForm name lib m)
    (hn : Char.ofNat 0 ∉ name) (hL : MemberOf W search lib L) (hL1 : '(' ∉ L) (hL2 : L ≠ []) (hL3 : Char.ofNat 0 ∉ L)
    (hd : arMemberDate fuel (W.bytes L) m = .val d) (h0 : d ≠ some 0) :
    mbTime W fuel search name =
      .done (if (W.archive lib search).time = none then none else d.map (W.stamp (L ++ '(' :: m ++ [')']))) (L ++ '(' :: m ++ [')']) [] := by
  rw [mbTime_eq hf hn hL hL1 hL2 hL3, hd]
  simp only [if_neg h0]
  split <;> rfl

/-- C155: a member of an archive that does not exist has no time, and nothing is read that was freed. -/
theorem C155_no_archive {W : MbWorld} {fuel : Nat} {search : Bool} {name lib m L : Str} (hf : ArForm name lib m)
    (hn : Char.ofNat 0 ∉ name) (hL : MemberOf W search lib L) (hL1 : '(' ∉ L) (hL2 : L ≠ []) (hL3 : Char.ofNat 0 ∉ L)
    (ht : (W.archive lib search).time = none) :
    mbTime W fuel search name = .done none (L ++ '(' :: m ++ [')']) [] := by
  rw [mbTime_eq hf hn hL hL1 hL2 hL3, if_pos ht]

/-- C155 fails for all entries with date 0, which is what `ar` writes in its deterministic mode: the warning about them prints the name of the
member from the block that was freed. -/
theorem C155_freed {W : MbWorld} {fuel : Nat} {search : Bool} {name lib m L : Str} (hf : ArForm name lib m)
    (hn : Char.ofNat 0 ∉ name) (hL : MemberOf W search lib L) (hL1 : '(' ∉ L) (hL2 : L ≠ []) (hL3 : Char.ofNat 0 ∉ L)
    (ht : (W.archive lib search).time ≠ none) (hd : arMemberDate fuel (W.bytes L) m = .val (some 0)) :
    mbTime W fuel search name = .undefined := by
  rw [mbTime_eq hf hn hL hL1 hL2 hL3, if_neg ht, hd]
  simp

/-- An archive with one member `m` of this date, found in `lib`. -/
def memberWorld (date : String) : MbWorld where
  archive := fun n s => ⟨some 7, n, if s then "lib/".toList ++ n else n⟩
  bytes := fun n => if n = "lib/x.a".toList then some (arMagic ++ arHead "m/".toList date.toList "0     0     100644  ".toList 2 ++ "ab".toList) else none
  stamp := fun _ d => d.toNat

/-- The hypotheses of `C155_time_partial` and of `C155_freed` are met by archives of one member. -/
example : mbTime (memberWorld "12") 5 true "x.a(m)".toList = .done (some 12) "lib/x.a(m)".toList [] ∧
    mbTime (memberWorld "12") 5 false "x.a(m)".toList = .done none "x.a(m)".toList [] ∧
    mbTime (memberWorld "12") 5 true "x.a(n)".toList = .done none "lib/x.a(n)".toList [] ∧
    mbTime (memberWorld "0") 5 true "x.a(m)".toList = .undefined := by decide +kernel

example : ArForm "x.a(m)".toList "x.a".toList "m".toList ∧ MemberOf (memberWorld "0") true "x.a".toList "lib/x.a".toList ∧
    arMemberDate 5 ((memberWorld "0").bytes "lib/x.a".toList) "m".toList = .val (some 0) := by
  refine ⟨?_, ?_, by decide +kernel⟩
  · unfold ArForm; decide +kernel
  · unfold MemberOf; decide +kernel

end Remake
