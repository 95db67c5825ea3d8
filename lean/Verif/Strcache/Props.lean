import Verif.Strcache.Lemmas
/-!
# C03: string interning

A history of additions `ss` to the string cache returns the addresses `ps`.  The bound
`2 ^ 30` on the length of the history is that of the hash table (C01).
-/
set_option linter.unusedVariables false
namespace Remake
open Spec

/-- **C03** No history of additions writes out of bounds or hangs; afterwards each
returned address still holds the string that was added, is reported as cached, and of
the strings of at most 65534 bytes two are equal exactly if their addresses are. -/
theorem C03_strings_partial (h : Str → Nat) (ss : List Str) (hlen : ss.length ≤ 2 ^ 30)
    (hnul : ∀ s ∈ ss, '\x00' ∉ s) :
    ∃ st ps, strcacheAddAll h ss scInit = some (st, ps) ∧ ps.length = ss.length ∧
      (∀ x ∈ ss.zip ps, st.read x.2 = some x.1 ∧ strcacheIscached st x.2 = true) ∧
      (∀ x ∈ ss.zip ps, ∀ y ∈ ss.zip ps, x.1.length ≤ 65534 →
        (x.2 = y.2 ↔ x.1 = y.1)) := by
  obtain ⟨hI, hr⟩ := scInit_inv h
  obtain ⟨st, ps, a1, a2, a3, a4, a5, a6, a7⟩ := addAll_spec h ss scInit hI (hr _ hlen)
  have hmem : ∀ x ∈ ss.zip ps, '\x00' ∉ x.1 := fun x hx => hnul _ (List.of_mem_zip hx).1
  refine ⟨st, ps, a1, a3, fun x hx => ⟨(a5 x hx).read a2 (hmem x hx), (a5 x hx).iscached a2⟩, ?_⟩
  intro x hx y hy hl
  constructor
  · intro e
    have r1 := (a5 x hx).read a2 (hmem x hx)
    have r2 := (a5 y hy).read a2 (hmem y hy)
    rw [e, r2] at r1
    exact (Option.some.inj r1).symm
  · intro e
    have m1 := (a5 x hx).small hl
    have m2 := (a5 y hy).small (by rw [← e]; exact hl)
    obtain ⟨p, hp, hv⟩ := mem_items.mp m1
    obtain ⟨q, hq, hw⟩ := mem_items.mp m2
    have := a2.tab.core.uniq p hp q hq _ _ hv hw (by simp [strFns, e])
    subst this
    rw [hv] at hw
    exact (SItem.mk.inj (Slot.item.inj hw)).1

example : ∀ s ∈ ["foo.o".toList, "all".toList, "foo.o".toList], '\x00' ∉ s := by decide

/-- **C03** (violation for huge strings): a string of more than 65534 bytes is not
interned; each time it is added it gets a new address, different from all others. -/
theorem C03_huge (h : Str → Nat) (ss : List Str) (hlen : ss.length ≤ 2 ^ 30) (st : SCache)
    (ps : List SPtr) (hrun : strcacheAddAll h ss scInit = some (st, ps)) :
    (ss.zip ps).Pairwise (fun x y => 65534 < y.1.length → x.2 ≠ y.2) := by
  obtain ⟨hI, hr⟩ := scInit_inv h
  obtain ⟨st', ps', a1, _, _, _, _, _, a7⟩ := addAll_spec h ss scInit hI (hr _ hlen)
  rw [hrun] at a1
  cases a1
  exact a7

example : 65534 < (List.replicate 70000 'x').length := by rw [List.length_replicate]; omega

/-- **C03** (any point of the history): what was added earlier is still there after
further additions. -/
theorem C03_stable_partial (h : Str → Nat) (ss ts : List Str) (hlen : (ss ++ ts).length ≤ 2 ^ 30)
    (hnul : ∀ s ∈ ss, '\x00' ∉ s) (st st' : SCache) (ps qs : List SPtr)
    (h1 : strcacheAddAll h ss scInit = some (st, ps)) (h2 : strcacheAddAll h ts st = some (st', qs)) :
    ∀ x ∈ ss.zip ps, st.read x.2 = some x.1 ∧ st'.read x.2 = st.read x.2 := by
  obtain ⟨hI, hr⟩ := scInit_inv h
  have hcat : ∀ (ss : List Str) (s0 : SCache), strcacheAddAll h ss s0 = some (st, ps) →
      SInv h s0 → Room s0.strings (ss.length + ts.length) → SInv h st ∧ Room st.strings ts.length := by
    clear h1 hlen hnul
    intro ss
    induction ss generalizing ps with
    | nil => intro s0 h0 hi hroom; simp [strcacheAddAll] at h0; rw [← h0.1]; exact ⟨hi, by simpa using hroom⟩
    | cons s ss ih =>
      intro s0 h0 hi hroom
      have e : (s :: ss).length + ts.length = ss.length + ts.length + 1 := by simp; omega
      rw [e] at hroom
      obtain ⟨st1, p, b1, b2, b3, _⟩ := add_spec h hi hroom s
      simp only [strcacheAddAll, b1] at h0
      cases hr2 : strcacheAddAll h ss st1 with
      | none => rw [hr2] at h0; simp at h0
      | some r =>
        rw [hr2] at h0; simp at h0
        obtain ⟨ha, hb⟩ := h0
        exact ih r.2 st1 (by rw [hr2, ← ha]) b2 b3
  obtain ⟨st1, ps1, a1, a2, a3, a4, a5, a6, a7⟩ := addAll_spec h ss scInit hI (hr _ (by simp at hlen; omega))
  rw [h1] at a1
  cases a1
  obtain ⟨_, hroom⟩ := hcat ss scInit h1 hI (hr _ (by simpa using hlen))
  obtain ⟨st2, qs2, b1, b2, b3, b4, b5, b6, b7⟩ := addAll_spec h ts st a2 hroom
  rw [h2] at b1
  cases b1
  intro x hx
  have hn := hnul _ (List.of_mem_zip hx).1
  have r1 := (a5 x hx).read a2 hn
  exact ⟨r1, by rw [r1]; exact (b4 _ _ (a5 x hx)).read b2 hn⟩

end Remake
