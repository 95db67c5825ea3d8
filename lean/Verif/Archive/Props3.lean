import Verif.Archive.Props2
/-!
# Touching what is no archive, or cannot be written (C102)
-/
namespace Remake

set_option linter.unusedVariables false
set_option linter.unusedSimpArgs false

open Spec

/-- Where the search for a member stops: at a header, or with no member, or because the file is no archive. -/
theorem loop_pos {bytes name : Str} : ∀ (fuel : Nat) (map : Option Str) (off : Int) (s s' : Unit) (n : Int),
    arLoop bytes (arPosFunc name) fuel map off s = some (s', .code n) →
      n = 0 ∨ n = -2 ∨ 0 < n ∧ n.toNat + 60 ≤ bytes.length ∧ bytesAt bytes (n.toNat + 58) 2 = ['`', '\n'] := by
  intro fuel
  induction fuel with
  | zero => intro _ _ _ _ _ h; simp [arLoop] at h
  | succ fuel ih =>
    intro map off s s' n h
    rw [arLoop] at h
    cases hh : arHeader bytes map off with
    | eof => rw [hh] at h; simp at h; omega
    | invalid => rw [hh] at h; simp at h; omega
    | found v isMap =>
      rw [hh] at h
      obtain ⟨a1, a2, a3, _, a5, _⟩ := header_fields hh
      simp only [] at h
      split at h
      · next hn =>
        simp only [Option.some.injEq, Prod.mk.injEq, ArResult.code.injEq] at h
        have e : n = v.pos := by
          have h2 := h.2
          unfold arPosFunc at h2 hn
          simp only [] at h2 hn
          split at h2
          · exact h2.symm
          · next hx => simp [hx] at hn
        have : v.pos ≠ 0 := by
          intro e0; unfold arPosFunc at hn; simp [e0] at hn
        right; right
        rw [e, a3]
        exact ⟨by omega, a2, a5⟩
      · cases hx : arNext bytes map v isMap with
        | invalid => rw [hx] at h; simp at h; omega
        | undefined => rw [hx] at h; simp at h
        | go off' map' => rw [hx] at h; exact ih _ _ _ _ _ h

theorem toDigits_more {n k : Nat} (h : 10 ^ k ≤ n) : k < (Nat.toDigits 10 n).length := by
  apply Decidable.byContradiction
  intro hc
  have := (Nat.length_toDigits_le_iff (b := 10) (n := n) (k := (Nat.toDigits 10 n).length) (by omega)
    (by
      have := Nat.length_toDigits_pos (b := 10) (n := n)
      omega)).1 (Nat.le_refl _)
  have h2 : 10 ^ (Nat.toDigits 10 n).length ≤ 10 ^ k := Nat.pow_le_pow_right (by omega) (by omega)
  omega

theorem stamp_only_date {bytes : Str} {n : Nat} {mtime : Int} {h' : Str} (hl : (readAt bytes n 60).length = 60)
    (hs : stampHeader (readAt bytes n 60) mtime = some h') :
    (bytes.take n ++ h' ++ bytes.drop (n + 60)).length = bytes.length ∧
      ∀ i, i < n + 16 ∨ n + 28 ≤ i → (bytes.take n ++ h' ++ bytes.drop (n + 60))[i]? = bytes[i]? := by
  have hin : n + 60 ≤ bytes.length := by simp [readAt] at hl; omega
  unfold stampHeader at hs
  simp only [] at hs
  generalize Nat.toDigits 10 (mtime % 2 ^ 64).toNat = ds at hs
  split at hs
  · cases hs
  · next hd =>
    cases hs
    have e : bytes.take n ++ ((readAt bytes n 60).take 16 ++ ds ++ List.replicate (12 - ds.length) ' ' ++ (readAt bytes n 60).drop 28) ++
        bytes.drop (n + 60) = bytes.take (n + 16) ++ (ds ++ List.replicate (12 - ds.length) ' ') ++ bytes.drop (n + 28) := by
      have e1 : bytes.take n ++ (readAt bytes n 60).take 16 = bytes.take (n + 16) := by
        rw [readAt, List.take_take, List.take_add]; congr 1
      have e2 : (readAt bytes n 60).drop 28 ++ bytes.drop (n + 60) = bytes.drop (n + 28) := by
        rw [readAt, List.drop_take, List.drop_drop]
        have := List.take_append_drop 32 (bytes.drop (n + 28))
        rw [List.drop_drop] at this
        exact this
      rw [← e1, ← e2]; simp only [List.append_assoc]
    rw [e]
    have h12 : (ds ++ List.replicate (12 - ds.length) ' ').length = 12 := by simp; omega
    have ht : (bytes.take (n + 16)).length = n + 16 := by simp; omega
    refine ⟨by rw [List.length_append, List.length_append, h12, ht, List.length_drop]; omega, ?_⟩
    intro i hi
    rcases hi with hi | hi
    · rw [List.append_assoc, List.getElem?_append_left (by omega), List.getElem?_take_of_lt hi]
    · rw [List.getElem?_append_right (by rw [List.length_append, h12, ht]; omega), List.getElem?_drop]
      congr 1
      rw [List.length_append, h12, ht]; omega

/-- C102: whatever the bytes of the file are, touching a member writes at most the twelve bytes of the date in one header, and it writes nothing unless it
succeeds. -/
theorem C102_only_date {fuel : Nat} {file file' : Option Str} {writable ok : Bool} {mtime : Int} {name : Str}
    (h : arTouch fuel file writable mtime name = .val (ok, file')) :
    (ok = false ∧ file' = file) ∨
      ok = true ∧ writable = true ∧ ∃ bytes bytes' k, file = some bytes ∧ file' = some bytes' ∧ bytes'.length = bytes.length ∧
        "!<arch>\n".toList <+: bytes ∧ bytesAt bytes (k + 58) 2 = ['`', '\n'] ∧
        ∀ i, i < k + 16 ∨ k + 28 ≤ i → bytes'[i]? = bytes[i]? := by
  unfold arTouch arMemberTouch at h
  cases hs : arScan file (arPosFunc name) fuel () with
  | none => rw [hs] at h; simp at h
  | some r =>
    obtain ⟨u, r⟩ := r
    rw [hs] at h
    cases r with
    | undefined => simp at h
    | code n =>
      simp only [] at h
      by_cases hn : n < 0
      · rw [if_pos hn] at h
        simp only [ArOutcome.val.injEq, Prod.mk.injEq] at h
        left; refine ⟨?_, h.2.symm⟩; rw [← h.1]; simp; omega
      · rw [if_neg hn] at h
        by_cases h0 : n = 0
        · rw [if_pos h0] at h
          simp only [ArOutcome.val.injEq, Prod.mk.injEq] at h
          left; exact ⟨by rw [← h.1]; rfl, h.2.symm⟩
        · rw [if_neg h0] at h
          cases writable with
          | false =>
            simp only [Bool.not_false, if_true, ArOutcome.val.injEq, Prod.mk.injEq] at h
            left; exact ⟨by rw [← h.1]; rfl, h.2.symm⟩
          | true =>
            simp only [Bool.not_true, Bool.false_eq_true, if_false] at h
            cases file with
            | none => simp [arScan] at hs; omega
            | some bytes =>
              simp only [Option.getD_some] at h
              by_cases hl : (readAt bytes n.toNat 60).length ≠ 60
              · rw [if_pos hl] at h
                simp only [ArOutcome.val.injEq, Prod.mk.injEq] at h
                left; exact ⟨by rw [← h.1]; rfl, h.2.symm⟩
              · rw [if_neg hl] at h
                cases hst : stampHeader (readAt bytes n.toNat 60) mtime with
                | none => rw [hst] at h; simp at h
                | some h' =>
                  rw [hst] at h
                  simp only [ArOutcome.val.injEq, Prod.mk.injEq] at h
                  obtain ⟨g1, g2⟩ := stamp_only_date (Decidable.not_not.1 hl) hst
                  unfold arScan at hs
                  simp only [] at hs
                  split at hs
                  · simp at hs; omega
                  · next hm =>
                    have hp := loop_pos _ _ _ _ _ _ hs
                    refine .inr ⟨by rw [← h.1]; rfl, rfl, bytes, _, n.toNat, rfl, h.2.symm, g1, ?_, ?_, g2⟩
                    · rw [← Decidable.not_not.1 hm |>.trans (show arMagic = "!<arch>\n".toList from rfl)]
                      exact List.take_prefix _ _
                    · rcases hp with hp | hp | hp
                      · omega
                      · omega
                      · exact hp.2.2

/-- C102: an archive that cannot be written is not touched. -/
theorem C102_read_only {fuel : Nat} {file file' : Option Str} {ok : Bool} {mtime : Int} {name : Str}
    (h : arTouch fuel file false mtime name = .val (ok, file')) : ok = false ∧ file' = file := by
  rcases C102_only_date h with g | g
  · exact g
  · simp at g

/-- C102: what is missing, or is no archive, cannot be touched; the messages for the two differ (the value that says so is -1 or -2). -/
theorem C102_no_archive {fuel : Nat} {file : Option Str} {writable : Bool} {mtime : Int} {name : Str}
    (h : ∀ bytes, file = some bytes → ¬ "!<arch>\n".toList <+: bytes) :
    arTouch fuel file writable mtime name = .val (false, file) ∧
      arMemberTouch fuel file writable mtime name = .val (if file = none then -1 else -2, file) := by
  have key : arScan file (arPosFunc name) fuel () = some ((), .code (if file = none then -1 else -2)) := by
    unfold arScan
    cases file with
    | none => rfl
    | some bytes =>
      have : bytes.take 8 ≠ arMagic := by
        intro e
        refine h bytes rfl ⟨bytes.drop 8, ?_⟩
        rw [← show arMagic = "!<arch>\n".toList from rfl, ← e, List.take_append_drop]
      simp [this]
  unfold arTouch arMemberTouch
  rw [key]
  cases file <;> simp

/-- C102 (deviation): the date must have at most eleven digits; from the year 5138 on, and before 1970 (the date is then printed as a
number of 19 or 20 digits), what is written goes beyond the field. -/
theorem C102_far {ms : List ArMember} {bytes b name : Str} {m : ArMember} (h : IsArchive ms bytes) (hb : IsBase b name) (hne : b ≠ [])
    (hu : Unambiguous ms b) (hm : firstMember ms b = some m) {mtime : Int} (h1 : mtime < 0 ∨ 10 ^ 11 ≤ mtime) (h2 : -2 ^ 63 ≤ mtime)
    (h3 : mtime < 2 ^ 63) {fuel : Nat} (hf : bytes.length ≤ fuel) :
    arTouch fuel (some bytes) true mtime name = .undefined := by
  have hmem : m ∈ ms := List.mem_of_find?_eq_some hm
  have hpos : ∀ x ∈ ms, 0 < x.pos := by
    obtain ⟨t, rfl, ht⟩ := h
    intro x hx; have := arText_pos ht x hx; omega
  have hin : m.pos + 60 ≤ bytes.length := by
    obtain ⟨t, rfl, ht⟩ := h
    have := arText_inside ht m hmem
    have e : "!<arch>\n".toList.length = 8 := by decide
    rw [List.length_append, e]; exact this
  obtain ⟨vs, g1, g2⟩ := archive_visits h
  have hp := hpos m hmem
  have hread : (readAt bytes m.pos 60).length = 60 := by simp [readAt]; omega
  have hst : stampHeader (readAt bytes m.pos 60) mtime = none := by
    unfold stampHeader
    simp only []
    rw [if_pos]
    exact toDigits_more (k := 11) (by omega)
  unfold arTouch arMemberTouch
  rw [g2 _ _ _ _ hf, run_pos hb hne vs g1 hu hpos, hm]
  simp only [Option.elim_some, Option.getD_some, Int.toNat_natCast, Bool.not_true, Bool.false_eq_true, if_false, hread, hst,
    ne_eq, not_true_eq_false]
  rw [if_neg (by omega), if_neg (by omega)]

example : arTouch 1000 (some exArchive) true (10 ^ 11) "main.o".toList = .undefined :=
  C102_far (name := "main.o".toList) (b := "main.o".toList) (m := ⟨"main.o".toList, true, 176, 4, 1700000000⟩) exArchive_is
    ⟨by decide, .inl rfl⟩ (by decide) (by unfold Unambiguous; decide) (by decide) (.inr (by decide)) (by decide) (by decide)
    (fuel := 1000) (by decide +kernel)

example : arTouch 1000 (some exArchive) false 7 "main.o".toList = .val (false, some exArchive) := by decide +kernel

example : arTouch 1000 (some "no archive".toList) true 7 "main.o".toList = .val (false, some "no archive".toList) :=
  (C102_no_archive (by intro b hb; cases hb; decide)).1

end Remake
