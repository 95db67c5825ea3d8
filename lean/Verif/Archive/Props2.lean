import Verif.Archive.Props
/-!
# Files that are no archives, and wildcards for members
-/
set_option linter.unusedVariables false
set_option linter.unusedSimpArgs false
namespace Remake
open Spec

/-! ## Any file at all (C103) -/

theorem header_fields {bytes : Str} {map : Option Str} {off : Int} {v : ArVisit} {isMap : Bool} (h : arHeader bytes map off = .found v isMap) :
    0 ≤ off ∧ off.toNat + 60 ≤ bytes.length ∧ v.pos = off ∧ v.size = atol (bytesAt bytes (off.toNat + 48) 10 ++ ['`', '\n']) ∧
      bytesAt bytes (off.toNat + 58) 2 = ['`', '\n'] ∧ isMap = mapField (trimBlanks (bytesAt bytes off.toNat 16)) := by
  unfold arHeader at h
  split at h
  · cases h
  · next h0 =>
    simp only [] at h
    split at h
    · cases h
    · split at h
      · cases h
      · next h1 h2 =>
        simp only [Bool.or_eq_true, decide_eq_true_eq, not_or, Decidable.not_not] at h2
        obtain ⟨hl, hm⟩ := h2
        split at h
        · cases h
        · cases h
          have e1 : (readAt bytes off.toNat 60).drop 58 = bytesAt bytes (off.toNat + 58) 2 := by
            unfold readAt bytesAt; rw [List.drop_take, List.drop_drop]
          have e2 : (readAt bytes off.toNat 60).drop 48 = bytesAt bytes (off.toNat + 48) 10 ++ ['`', '\n'] := by
            rw [← hm, e1]
            unfold readAt bytesAt
            rw [List.drop_take, List.drop_drop, show 60 - 48 = 10 + 2 from rfl, List.take_add, List.drop_drop]
          refine ⟨by omega, ?_, rfl, by rw [e2], by rw [← e1, hm], ?_⟩
          · unfold readAt at hl
            rw [List.length_take, List.length_drop] at hl
            omega
          · unfold mapField bytesAt
            have : (readAt bytes off.toNat 60).take 16 = (bytes.drop off.toNat).take 16 := by
              unfold readAt; rw [List.take_take]; rfl
            rw [this]

theorem atol_nonneg {s : Str} (h : '-' ∉ s) : 0 ≤ atol s := by
  unfold atol
  split
  · next r heq =>
    have : '-' ∈ s.dropWhile isSpace := by rw [heq]; simp
    exact absurd ((List.dropWhile_sublist _).mem this) h
  · omega
  · omega

theorem size_nonneg {bytes : Str} (hn : NoMinus bytes) {map : Option Str} {off : Int} {v : ArVisit} {isMap : Bool}
    (h : arHeader bytes map off = .found v isMap) : 0 ≤ v.size := by
  obtain ⟨h0, h1, h2, h3, h4, h5⟩ := header_fields h
  rw [h3]
  refine atol_nonneg ?_
  have := hn _ h4
  simp only [List.mem_append, not_or]
  exact ⟨this, by decide⟩

theorem loop_ends {σ : Type} {bytes : Str} (hn : NoMinus bytes) (f : σ → ArVisit → σ × Int) :
    ∀ (fuel : Nat) (map : Option Str) (off : Int) (s : σ), 0 ≤ off → 0 < fuel → bytes.length < off.toNat + fuel →
      ∃ r, arLoop bytes f fuel map off s = some r := by
  intro fuel
  induction fuel with
  | zero => intro _ _ _ _ h; omega
  | succ fuel ih =>
    intro map off s h0 _ hf
    rw [arLoop]
    cases hh : arHeader bytes map off with
    | eof => exact ⟨_, rfl⟩
    | invalid => exact ⟨_, rfl⟩
    | found v isMap =>
      simp only []
      obtain ⟨a1, a2, a3, _⟩ := header_fields hh
      have a4 := size_nonneg hn hh
      split
      · exact ⟨_, rfl⟩
      · cases hx : arNext bytes map v isMap with
        | invalid => exact ⟨_, rfl⟩
        | undefined => exact ⟨_, rfl⟩
        | go off' map' =>
          simp only []
          have : off + 60 ≤ off' := by
            unfold arNext at hx
            simp only [a3] at hx
            split at hx
            · split at hx
              · cases hx
              · split at hx
                · cases hx
                · split at hx
                  · cases hx
                  · split at hx
                    · cases hx
                    · cases hx; split <;> omega
            · cases hx; split <;> omega
          exact ih _ _ _ (by omega) (by omega) (by omega)

/-- C103: whatever a file contains, the scan ends after as many steps as the file has bytes - unless there is a minus sign in a place for
the size of a member (missing: see `C103_endless`). -/
theorem C103_ends_partial {σ : Type} {bytes : Str} (hn : NoMinus bytes) (f : σ → ArVisit → σ × Int) (s : σ) {fuel : Nat} (hf : bytes.length ≤ fuel) :
    ∃ r, arScan (some bytes) f fuel s = some r := by
  unfold arScan
  simp only []
  split
  · exact ⟨_, rfl⟩
  · next h =>
    simp only [ne_eq, Decidable.not_not] at h
    have : 8 ≤ bytes.length := by
      have := congrArg List.length h
      rw [List.length_take] at this
      have e : arMagic.length = 8 := by decide
      omega
    exact loop_ends hn f fuel none 8 s (by omega) (by omega) (by simp; omega)

/-- A file of 68 bytes: one member with size -60. -/
def endlessArchive : Str :=
  "!<arch>\n".toList ++ (arField 16 "m/".toList ++ arField 12 "7".toList ++ exOwner ++ arField 10 "-60".toList ++ ['`', '\n'])

/-- C103 fails for negative sizes: a search for a member of this file never ends. -/
theorem C103_endless : ∀ fuel, arMemberDate fuel (some endlessArchive) "x".toList = .running := by
  have h1 : arHeader endlessArchive none 8 = .found ⟨"m".toList, true, 8, -60, 7⟩ false := by decide +kernel
  have h2 : arNext endlessArchive none ⟨"m".toList, true, 8, -60, 7⟩ false = .go 8 none := by decide +kernel
  have h3 : arDateFunc "x".toList none ⟨"m".toList, true, 8, -60, 7⟩ = (none, 0) := by decide +kernel
  have h4 : ∀ fuel, arLoop endlessArchive (arDateFunc "x".toList) fuel none 8 none = none := by
    intro fuel
    induction fuel with
    | zero => rfl
    | succ n ih => rw [arLoop, h1]; simp only [h3, h2, ne_eq, not_true_eq_false, if_false]; exact ih
  intro fuel
  have h5 : arScan (some endlessArchive) (arDateFunc "x".toList) fuel none = none := by
    unfold arScan
    have : endlessArchive.take 8 = arMagic := by decide +kernel
    simp only [this, ne_eq, not_true_eq_false, if_false]
    exact h4 fuel
  unfold arMemberDate
  rw [h5]

theorem cstr_prefix (s : Str) : cstr s <+: s := List.takeWhile_prefix _

theorem trimBlanks_prefix (s : Str) : trimBlanks s <+: s := by
  unfold trimBlanks
  have := List.dropWhile_suffix (fun c => c == ' ') (l := s.reverse)
  simpa using List.reverse_prefix.2 this

theorem loop_defined {σ : Type} {bytes : Str} (hn : NoMinus bytes) (he : NoEmptyLine bytes) (f : σ → ArVisit → σ × Int) :
    ∀ (fuel : Nat) (map : Option Str) (off : Int) (s s' : σ), arLoop bytes f fuel map off s ≠ some (s', .undefined) := by
  intro fuel
  induction fuel with
  | zero => intro _ _ _ _; simp [arLoop]
  | succ fuel ih =>
    intro map off s s'
    rw [arLoop]
    cases hh : arHeader bytes map off with
    | eof => simp
    | invalid => simp
    | found v isMap =>
      simp only []
      obtain ⟨a1, a2, a3, _, _, a6⟩ := header_fields hh
      have a4 := size_nonneg hn hh
      split
      · simp
      · cases hx : arNext bytes map v isMap with
        | invalid => simp
        | go off' map' => exact ih _ _ _ _
        | undefined =>
          exfalso
          unfold arNext at hx
          simp only [a3] at hx
          split at hx
          · next hm =>
            split at hx
            · cases hx
            · split at hx
              · omega
              · split at hx
                · cases hx
                · split at hx
                  · next hnl =>
                    subst hm
                    have hp : ['/', '/'] <+: bytesAt bytes off.toNat 16 ∨ "ARFILENAMES/".toList <+: bytesAt bytes off.toNat 16 := by
                      have a6 := a6.symm
                      unfold mapField at a6
                      simp only [Bool.or_eq_true, beq_iff_eq] at a6
                      rcases a6 with e | e
                      · left; rw [← e]; exact (cstr_prefix _).trans (trimBlanks_prefix _)
                      · right; rw [← e]; exact (cstr_prefix _).trans (trimBlanks_prefix _)
                    refine he _ hp ?_
                    unfold readAt at hnl
                    have e : (off + 60).toNat = off.toNat + 60 := by omega
                    rw [e] at hnl
                    unfold bytesAt
                    cases hd : bytes.drop (off.toNat + 60) with
                    | nil => rw [hd] at hnl; simp at hnl
                    | cons c r =>
                      rw [hd, List.head?_take] at hnl
                      split at hnl
                      · simp at hnl
                      · simp at hnl; simp [hnl]
                  · cases hx
          · cases hx

/-- C103: the scan stays in its buffers, whatever a file contains, unless there is a minus sign in a place for the size of a member, or a table of names
starts with an empty line (missing: see `C103_outside`). -/
theorem C103_defined_partial {σ : Type} {bytes : Str} (hn : NoMinus bytes) (he : NoEmptyLine bytes) (f : σ → ArVisit → σ × Int) (s s' : σ) {fuel : Nat} :
    arScan (some bytes) f fuel s ≠ some (s', .undefined) := by
  unfold arScan
  simp only []
  split
  · simp
  · exact loop_defined hn he f fuel none 8 s s'

/-- Bytes that are the same everywhere: neither a minus sign nor a table. -/
example : NoMinus (List.replicate 100 'x') ∧ NoEmptyLine (List.replicate 100 'x') := by
  have h : ∀ k n c, c ∈ bytesAt (List.replicate 100 'x') k n → c = 'x' := by
    intro k n c hc
    exact List.eq_of_mem_replicate (List.mem_of_mem_drop (List.mem_of_mem_take hc))
  constructor
  · intro k _ hm
    exact absurd (h _ _ _ hm) (by decide)
  · intro k _ he
    exact absurd (h (k + 60) 1 '\n' (by rw [he]; simp)) (by decide)

/-- C103 fails for tables that start with an empty line (the byte before the table is read), and for tables with a negative size (more is read than
the buffer holds). -/
theorem C103_outside : (∃ bytes, arMemberDate 10 (some bytes) "x".toList = .undefined ∧ NoMinus bytes) ∧
    ∃ bytes, arMemberDate 10 (some bytes) "x".toList = .undefined ∧ NoEmptyLine bytes := by
  constructor
  · refine ⟨"!<arch>\n".toList ++ (arField 16 "//".toList ++ arField 12 "7".toList ++ exOwner ++ arField 10 "2".toList ++ ['`', '\n'] ++ ['\n', '\n']),
      by decide +kernel, ?_⟩
    intro k _ hm
    have := List.mem_of_mem_drop (List.mem_of_mem_take hm)
    revert this; decide +kernel
  · refine ⟨"!<arch>\n".toList ++ (arField 16 "//".toList ++ arField 12 "7".toList ++ exOwner ++ arField 10 "-1".toList ++ ['`', '\n']), by decide +kernel, ?_⟩
    intro k hk he
    have hlen : k + 60 < 68 := by
      have := congrArg List.length he
      unfold bytesAt at this
      rw [List.length_take, List.length_drop] at this
      have e : ("!<arch>\n".toList ++ (arField 16 "//".toList ++ arField 12 "7".toList ++ exOwner ++ arField 10 "-1".toList ++ ['`', '\n'])).length = 68 := by
        decide +kernel
      rw [e] at this
      simp at this; omega
    have : ∀ k < 8, ¬ (['/', '/'] <+: bytesAt ("!<arch>\n".toList ++ (arField 16 "//".toList ++ arField 12 "7".toList ++ exOwner ++ arField 10 "-1".toList ++ ['`', '\n'])) k 16 ∨
        "ARFILENAMES/".toList <+: bytesAt ("!<arch>\n".toList ++ (arField 16 "//".toList ++ arField 12 "7".toList ++ exOwner ++ arField 10 "-1".toList ++ ['`', '\n'])) k 16) := by
      decide +kernel
    exact this k (by omega) hk

/-! ## Wildcards (C104) -/

/-- C104: a name is matched with the members if it has an unquoted `?` or `*`, or an unquoted `[` and a `]` after it. -/
theorem C104_wild {p u : Str} (h : Unquoted p u) : arGlobPattern false p = true ↔ Wild u := by
  have key : ∀ {p u : Str}, Unquoted p u → ∀ o, arGlobPattern o p = true ↔ Wild u ∨ (o = true ∧ ']' ∈ u) := by
    intro p u h
    induction h with
    | nil => intro o; simp [arGlobPattern, Wild]
    | lone => intro o; simp [arGlobPattern, Wild]
    | @quoted c p u h ih =>
      intro o
      rw [show arGlobPattern o ('\\' :: c :: p) = arGlobPattern o p by rw [arGlobPattern]]
      exact ih o
    | @char c p u hc h ih =>
      intro o
      by_cases h1 : c = '?'
      · subst h1; simp [arGlobPattern, Wild]
      by_cases h2 : c = '*'
      · subst h2; simp [arGlobPattern, Wild]
      have hw : Wild (c :: u) ↔ Wild u ∨ c = '[' ∧ ']' ∈ u := by
        unfold Wild
        simp only [List.mem_cons, Ne.symm h1, Ne.symm h2, false_or]
        constructor
        · rintro (h | h | ⟨a, b, d, e⟩)
          · exact .inl (.inl h)
          · exact .inl (.inr (.inl h))
          · cases a with
            | nil => simp at e; exact .inr ⟨e.1, by simp [e.2]⟩
            | cons x a => simp at e; exact .inl (.inr (.inr ⟨a, b, d, by simp [e.2]⟩))
        · rintro ((h | h | ⟨a, b, d, rfl⟩) | ⟨rfl, h⟩)
          · exact .inl h
          · exact .inr (.inl h)
          · exact .inr (.inr ⟨c :: a, b, d, by simp⟩)
          · obtain ⟨b, d, rfl⟩ := List.append_of_mem h
            exact .inr (.inr ⟨[], b, d, by simp⟩)
      rw [hw]
      by_cases h3 : c = '['
      · subst h3
        rw [show arGlobPattern o ('[' :: p) = arGlobPattern true p by rw [arGlobPattern]; all_goals simp, ih true]
        simp
        exact fun _ h => .inr h
      by_cases h4 : c = ']'
      · subst h4
        cases o with
        | true => simp [arGlobPattern]
        | false =>
          rw [show arGlobPattern false (']' :: p) = arGlobPattern false p by rw [arGlobPattern]; all_goals simp, ih false]
          simp
      · rw [show arGlobPattern o (c :: p) = arGlobPattern o p by rw [arGlobPattern] <;> simp_all, ih o]
        simp [h3, Ne.symm h4]
  simpa using key h false

theorem run_glob (fn : Str → Bool) (ar : Str) (vs : List ArVisit) : ∀ s,
    runVisits (arGlobFunc fn ar) vs s = ((((vs.filter fun v => fn v.mem).map fun v => ar ++ '(' :: v.mem ++ [')']).reverse ++ s, .code 0)) := by
  induction vs with
  | nil => intro s; rfl
  | cons v vs ih =>
    intro s
    rw [runVisits]
    simp only [arGlobFunc, ne_eq, not_true_eq_false, if_false] at ih ⊢
    rw [ih]
    cases hv : fn v.mem <;> simp [List.filter_cons, hv]

/-- C104: `lib(pattern)` stands for the members that match the pattern, in alphabetical order - if the pattern does not match the empty name or the name of a
table (missing: see `C104_index`). -/
theorem C104_glob_partial {ms : List ArMember} {bytes ar p u : Str} {fn : Str → Bool} (h : IsArchive ms bytes) (hp : Unquoted p u) (hw : Wild u)
    (h1 : fn [] = false) (h2 : fn ['/'] = false) {fuel : Nat} (hf : bytes.length ≤ fuel) {names : List Str} :
    ArGlobs fuel (some bytes) fn ar p names ↔
      names.Perm ((ms.filter fun m => fn m.name).map fun m => ar ++ '(' :: m.name ++ [')']) ∧
        names.Pairwise (fun a b => alphaCompare a b ≤ 0) := by
  obtain ⟨vs, g1, g2⟩ := archive_visits h
  have hfil : (vs.filter fun v => fn v.mem) = (ms.filter fun m => fn m.name).map visitOf := by
    have e1 : (vs.filter fun v => fn v.mem) = (vs.filter fun v => !isMark v).filter fun v => fn v.mem := by
      rw [List.filter_filter]
      refine List.filter_congr fun v _ => ?_
      cases hm : isMark v with
      | false => simp
      | true =>
        simp only [isMark, Bool.and_eq_true, Bool.or_eq_true, beq_iff_eq] at hm
        rcases hm.2 with e | e <;> simp [e, h1, h2]
    rw [e1, g1, List.filter_map]
    rfl
  have hmap : ((ms.filter fun m => fn m.name).map visitOf).map (fun v => ar ++ '(' :: v.mem ++ [')']) =
      (ms.filter fun m => fn m.name).map fun m => ar ++ '(' :: m.name ++ [')'] := by
    rw [List.map_map]; rfl
  unfold ArGlobs
  rw [if_pos ((C104_wild hp).2 hw), g2 _ _ _ _ hf, run_glob, hfil, hmap]
  simp only [List.append_nil, Option.some.injEq, Prod.mk.injEq]
  unfold QsortResult
  constructor
  · rintro ⟨chain, r, ⟨rfl, rfl⟩, _, h3, h4⟩
    exact ⟨h3.trans (List.reverse_perm _), h4⟩
  · rintro ⟨h3, h4⟩
    exact ⟨_, _, ⟨rfl, rfl⟩, by simp, h3.trans (List.reverse_perm _).symm, h4⟩

/-- The order is alphabetical; an example with a pattern `*.o`. -/
example : ArGlobs 1000 (some exArchive) (fun n => n.getLast? == some 'o') "l".toList "*.o".toList
    ["l(another_long_name.o)".toList, "l(b.o)".toList, "l(main.o)".toList] := by
  refine (C104_glob_partial (p := ['*', '.', 'o']) exArchive_is (.char (by decide) (.char (by decide) (.char (by decide) .nil)))
    (.inr (.inl (by decide))) (by decide) (by decide) (by decide +kernel)).2 ⟨?_, by decide⟩
  decide

/-- C104: without wildcards no member is looked up. -/
theorem C104_plain {p u ar : Str} {fn : Str → Bool} (hp : Unquoted p u) (hw : ¬ Wild u) {fuel : Nat} {file : Option Str} {names : List Str} :
    ArGlobs fuel file fn ar p names ↔ names = [] := by
  unfold ArGlobs
  rw [if_neg (by rw [C104_wild hp]; exact hw)]

/-- C104 fails for patterns that match the empty name, such as `*`: if an archive has an index, they give `lib()`. -/
theorem C104_index {names : List Str} {fn : Str → Bool} (h : fn [] = true)
    (hg : ArGlobs 1000 (some exArchive) fn "lib".toList "*".toList names) : "lib()".toList ∈ names := by
  obtain ⟨vs, g1, g2⟩ := archive_visits exArchive_is
  unfold ArGlobs at hg
  rw [if_pos (by decide), g2 _ _ _ _ (by decide +kernel), run_glob] at hg
  obtain ⟨chain, r, e, _, h3, _⟩ := hg
  cases e
  rw [h3.mem_iff]
  have hc := g2 _ collectVisits [] 1000 (by decide +kernel)
  rw [run_collect] at hc
  have hv : ∃ v ∈ vs, v.mem = [] := by
    have e : (arScan (some exArchive) collectVisits 1000 []).map (fun r => r.1.any fun v => v.mem == []) = some true := by decide +kernel
    rw [hc] at e
    simpa using e
  obtain ⟨v, hv, e⟩ := hv
  simp only [List.append_nil, List.mem_reverse, List.mem_map, List.mem_filter]
  exact ⟨v, ⟨hv, by rw [e]; exact h⟩, by rw [e]; decide⟩

end Remake
