import Verif.Quote.Model
import Verif.Text.Spec
/-! Helper lemmas about backslash quoting. -/
namespace Remake
open Spec

/-- The specification view of a search result. -/
def Unq.toPct : Unq → Pct
  | .none t => .lit t
  | .found pre _ post => .pat pre post

theorem bsCount_append {a r : Str} (hr : r.head? ≠ some '\\') : bsCount (a ++ r) = bsCount a := by
  unfold bsCount
  induction a with
  | nil =>
    cases r with
    | nil => rfl
    | cons c cs => simp at hr; simp [hr]
  | cons c cs ih =>
    simp only [List.cons_append, List.takeWhile_cons]
    split
    · simp [ih]
    · rfl

theorem bsCount_le (a : Str) : bsCount a ≤ a.length := by
  unfold bsCount; exact (List.takeWhile_prefix _).length_le

theorem halveBs_append {a r : Str} (hr : r.head? ≠ some '\\') :
    halveBs (a ++ r) = halveBs a ++ r := by
  unfold halveBs
  rw [bsCount_append hr, List.drop_append_of_le_length (bsCount_le a), List.append_assoc]

theorem bsCount_replicate (n : Nat) : bsCount (List.replicate n '\\') = n := by
  unfold bsCount
  rw [List.takeWhile_replicate]; simp

theorem bsCount_replicate_append {n : Nat} {r : Str} (hr : r.head? ≠ some '\\') :
    bsCount (List.replicate n '\\' ++ r) = n := by
  rw [bsCount_append hr, bsCount_replicate]

theorem halveBs_replicate_append {n : Nat} {r : Str} (hr : r.head? ≠ some '\\') :
    halveBs (List.replicate n '\\' ++ r) = List.replicate (n / 2) '\\' ++ r := by
  rw [halveBs_append hr]
  unfold halveBs
  rw [bsCount_replicate]
  simp

theorem halveBs_eq_self {r : Str} (h : bsCount r = 0) : halveBs r = r := by
  unfold halveBs; rw [h]; simp

theorem findCharUnquoteGo_skip {stop : Char} : ∀ {a : Str} (rev rest : Str), stop ∉ a →
    findCharUnquoteGo stop rev (a ++ rest) = findCharUnquoteGo stop (a.reverse ++ rev) rest
  | [], rev, rest, _ => by simp
  | c :: cs, rev, rest, h => by
    simp only [List.mem_cons, not_or] at h
    rw [List.cons_append, findCharUnquoteGo]
    have hc : (c == stop) = false := beq_false_of_ne (Ne.symm h.1)
    simp only [hc]
    rw [if_neg (by simp), findCharUnquoteGo_skip _ _ h.2]
    simp

theorem findCharUnquoteGo_prepend {stop : Char} :
    ∀ (rest rev r0 : Str), r0.head? ≠ some '\\' →
    (findCharUnquoteGo stop (rev ++ r0) rest).toPct =
      (findCharUnquoteGo stop rev rest).toPct.prepend r0.reverse
  | [], rev, r0, _ => by simp [findCharUnquoteGo, Unq.toPct, Pct.prepend]
  | c :: cs, rev, r0, h => by
    unfold findCharUnquoteGo
    rw [bsCount_append h, halveBs_append h]
    split
    · split
      · simp [Unq.toPct, Pct.prepend]
      · split
        · simp [Unq.toPct, Pct.prepend]
        · rw [← List.cons_append]
          exact findCharUnquoteGo_prepend cs _ r0 h
    · rw [← List.cons_append]
      exact findCharUnquoteGo_prepend cs _ r0 h

theorem head?_reverse_ne {a : Str} (h : a.getLast? ≠ some '\\') : a.reverse.head? ≠ some '\\' := by
  rwa [List.head?_reverse]

theorem findCharUnquote_at_stop {stop : Char} {a rest : Str} {n : Nat}
    (hb : stop ≠ '\\') (ha : stop ∉ a) (hl : a.getLast? ≠ some '\\') :
    (findCharUnquote stop (a ++ List.replicate n '\\' ++ stop :: rest)).toPct =
      if n % 2 = 0 then Pct.pat (a ++ List.replicate (n / 2) '\\') rest
      else (findCharUnquote stop rest).toPct.prepend (a ++ List.replicate (n / 2) '\\' ++ [stop]) := by
  unfold findCharUnquote
  have hnot : stop ∉ a ++ List.replicate n '\\' := by
    simp only [List.mem_append, not_or]
    exact ⟨ha, fun h => hb (List.eq_of_mem_replicate h)⟩
  rw [findCharUnquoteGo_skip _ _ hnot]
  simp only [List.reverse_append, List.reverse_replicate, List.append_nil]
  rw [findCharUnquoteGo]
  have hh := head?_reverse_ne hl
  rw [bsCount_replicate_append hh, halveBs_replicate_append hh]
  simp only [beq_self_eq_true, if_true, beq_iff_eq]
  by_cases h0 : n = 0
  · subst h0; simp [Unq.toPct]
  · simp only [h0, if_false]
    split
    · simp [Unq.toPct]
    · have := findCharUnquoteGo_prepend (stop := stop) rest []
        (stop :: (List.replicate (n / 2) '\\' ++ a.reverse)) (by simpa using hb)
      simp only [List.nil_append] at this
      rw [this]
      simp

theorem findCharUnquote_none {stop : Char} {s : Str} (h : stop ∉ s) :
    findCharUnquote stop s = .none s := by
  unfold findCharUnquote
  have := findCharUnquoteGo_skip (stop := stop) (a := s) [] [] h
  simp only [List.append_nil] at this
  rw [this]; simp [findCharUnquoteGo]

theorem ReadsAs_findCharUnquote {stop : Char} (hb : stop ≠ '\\') {s : Str} {p : Pct}
    (h : ReadsAs stop s p) : (findCharUnquote stop s).toPct = p := by
  induction h with
  | none h => rw [findCharUnquote_none h]; rfl
  | unquoted ha hl =>
    rw [findCharUnquote_at_stop hb ha hl, if_pos (by omega)]
    congr; omega
  | quoted ha hl _ ih =>
    rw [findCharUnquote_at_stop hb ha hl, if_neg (by omega), ih]
    congr; omega

/-- Split off the trailing backslashes of a text. -/
theorem split_trailing_bs (a : Str) : ∃ b n, a = b ++ List.replicate n '\\' ∧
    b.getLast? ≠ some '\\' := by
  refine ⟨(a.reverse.dropWhile (· == '\\')).reverse, (a.reverse.takeWhile (· == '\\')).length, ?_, ?_⟩
  · have h := List.takeWhile_append_dropWhile (p := (· == '\\')) (l := a.reverse)
    have h2 : a.reverse.takeWhile (· == '\\') =
        List.replicate (a.reverse.takeWhile (· == '\\')).length '\\' := by
      apply List.eq_replicate_of_mem
      intro b hb
      have : ∀ (l : Str) x, x ∈ l.takeWhile (· == '\\') → x = '\\' := by
        intro l x hx
        induction l with
        | nil => simp at hx
        | cons y ys ih =>
          rw [List.takeWhile_cons] at hx
          split at hx
          · rename_i hy
            simp only [List.mem_cons] at hx
            rcases hx with rfl | hx
            · simpa using hy
            · exact ih hx
          · simp at hx
      exact this _ _ hb
    have h3 := congrArg List.reverse h
    rw [List.reverse_append, List.reverse_reverse] at h3
    conv => lhs; rw [← h3]
    rw [h2, List.reverse_replicate, List.length_replicate]
  · rw [List.getLast?_reverse]
    intro h
    have hne : a.reverse.dropWhile (· == '\\') ≠ [] := by intro h'; rw [h'] at h; simp at h
    have h1 := List.head_dropWhile_not (· == '\\') (l := a.reverse) hne
    rw [List.head?_eq_some_head hne] at h
    simp only [Option.some.injEq] at h
    rw [h] at h1; simp at h1

theorem split_first {stop : Char} {s : Str} (h : stop ∈ s) :
    ∃ a rest, s = a ++ stop :: rest ∧ stop ∉ a := by
  induction s with
  | nil => simp at h
  | cons c cs ih =>
    by_cases hc : c = stop
    · subst hc; exact ⟨[], cs, rfl, by simp⟩
    · have : stop ∈ cs := by
        simp only [List.mem_cons] at h
        rcases h with h | h
        · exact absurd h.symm hc
        · exact h
      obtain ⟨a, rest, rfl, ha⟩ := ih this
      exact ⟨c :: a, rest, rfl, by simp [ha, Ne.symm hc]⟩

theorem ReadsAs_exists {stop : Char} (s : Str) : ∃ p, ReadsAs stop s p := by
  generalize hn : s.length = n
  induction n using Nat.strongRecOn generalizing s with
  | _ n ih =>
    by_cases h : stop ∈ s
    · obtain ⟨a0, rest, rfl, ha0⟩ := split_first h
      obtain ⟨a, k, rfl, hl⟩ := split_trailing_bs a0
      have ha : stop ∉ a := fun h => ha0 (by simp [h])
      rcases Nat.mod_two_eq_zero_or_one k with hk | hk
      · have : k = 2 * (k / 2) := by omega
        rw [this]
        exact ⟨_, .unquoted ha hl⟩
      · obtain ⟨p, hp⟩ := ih rest.length (by rw [← hn]; simp; omega) rest rfl
        have : k = 2 * (k / 2) + 1 := by omega
        rw [this]
        exact ⟨_, .quoted ha hl hp⟩
    · exact ⟨_, .none h⟩

theorem ReadsAs_iff {stop : Char} (hb : stop ≠ '\\') {s : Str} {p : Pct} :
    ReadsAs stop s p ↔ (findCharUnquote stop s).toPct = p := by
  constructor
  · exact ReadsAs_findCharUnquote hb
  · rintro rfl
    obtain ⟨p, hp⟩ := ReadsAs_exists (stop := stop) s
    rw [ReadsAs_findCharUnquote hb hp]; exact hp


theorem findCharUnquote_char {stop : Char} {s pre post : Str} {c : Char}
    (h : findCharUnquote stop s = .found pre c post) : c = stop := by
  have key : ∀ (s rev : Str), findCharUnquoteGo stop rev s = .found pre c post → c = stop := by
    intro s
    induction s with
    | nil => intro rev h; simp [findCharUnquoteGo] at h
    | cons d ds ih =>
      intro rev h
      unfold findCharUnquoteGo at h
      split at h
      · rename_i hd
        simp only [beq_iff_eq] at hd
        split at h
        · cases h; exact hd
        · split at h
          · cases h; exact hd
          · exact ih _ h
      · exact ih _ h
  exact key s [] h

end Remake
