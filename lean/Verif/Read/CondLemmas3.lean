import Verif.Read.CondLemmas2
import Verif.Text.Props2
set_option linter.unusedVariables false
set_option linter.unusedSimpArgs false
/-! Lemmas on `define` bodies. -/
namespace Remake
open Spec

theorem nextToken_split (s : Str) : ∃ ws, s = ws ++ nextToken s ∧ ∀ x ∈ ws, isSpace x = true :=
  ⟨s.takeWhile isSpace, (List.takeWhile_append_dropWhile).symm, fun x hx => mem_takeWhile_imp hx⟩

theorem nextToken_of_split {ws r : Str} (h : ∀ x ∈ ws, isSpace x = true)
    (hr : ∀ x, r.head? = some x → isSpace x = false) : nextToken (ws ++ r) = r := by
  induction ws with
  | nil =>
    cases r with
    | nil => rfl
    | cons c cs => simp [nextToken, hr c rfl]
  | cons w ws ih =>
    have := ih fun x hx => h x (List.mem_cons_of_mem _ hx)
    simpa [nextToken, h w (by simp)] using this

theorem head_blank_iff (r : Str) : (r.length = 0 ∨ r.head?.any isBlank = true) ↔
    (r = [] ∨ r.head? = some ' ' ∨ r.head? = some '\t') := by
  cases r with
  | nil => simp
  | cons c cs => simp [isBlank]

theorem word_line {w : Str} {p : Str} (hw : w ≠ []) (hs : ∀ x, w.head? = some x → isSpace x = false)
    (l : Str) (c : Char) :
    ((w.isPrefixOf (nextToken l) && ((nextToken l).length == w.length ||
      ((nextToken l).drop w.length).head?.any isBlank)) = true) ↔
    ∃ ws r, l = ws ++ w ++ r ∧ (∀ x ∈ ws, isSpace x = true) ∧
      (r = [] ∨ r.head? = some ' ' ∨ r.head? = some '\t') := by
  constructor
  · intro h
    simp only [Bool.and_eq_true, List.isPrefixOf_iff_prefix, Bool.or_eq_true, beq_iff_eq] at h
    obtain ⟨⟨r, hr⟩, h2⟩ := h
    obtain ⟨ws, h3, h4⟩ := nextToken_split l
    refine ⟨ws, r, by rw [List.append_assoc, hr]; exact h3, h4, (head_blank_iff r).mp ?_⟩
    rw [← hr] at h2
    simpa using h2
  · rintro ⟨ws, r, rfl, h4, h5⟩
    have : nextToken (ws ++ w ++ r) = w ++ r := by
      rw [List.append_assoc]
      apply nextToken_of_split h4
      intro x hx
      cases w with
      | nil => exact absurd rfl hw
      | cons y ys => exact hs x (by simpa using hx)
    rw [this]
    have h6 := (head_blank_iff r).mpr h5
    simp only [Bool.and_eq_true, List.isPrefixOf_iff_prefix, Bool.or_eq_true, beq_iff_eq]
    refine ⟨⟨r, rfl⟩, ?_⟩
    simpa using h6

theorem isDefineLine_iff (l : Str) : isDefineLine (nextToken l) = true ↔
    ∃ ws r, l = ws ++ "define".toList ++ r ∧ (∀ x ∈ ws, isSpace x = true) ∧
      (r = [] ∨ r.head? = some ' ' ∨ r.head? = some '\t') :=
  word_line (w := "define".toList) (p := []) (by decide) (by intro x hx; cases hx; decide) l ' '

theorem isEndefLine_iff (l : Str) : isEndefLine (nextToken l) = true ↔
    ∃ ws r, l = ws ++ "endef".toList ++ r ∧ (∀ x ∈ ws, isSpace x = true) ∧
      (r = [] ∨ r.head? = some ' ' ∨ r.head? = some '\t') :=
  word_line (w := "endef".toList) (p := []) (by decide) (by intro x hx; cases hx; decide) l ' '

theorem not_both {p : Str} (h : isDefineLine p = true) : isEndefLine p = false := by
  unfold isDefineLine at h
  unfold isEndefLine
  simp only [Bool.and_eq_true, List.isPrefixOf_iff_prefix] at h
  obtain ⟨⟨r, rfl⟩, -⟩ := h
  simp

theorem mark_opens (posix : Bool) (c : Char) (l : Str) :
    defineMark posix c l = 1 ↔ Opens posix c l := by
  unfold defineMark Opens
  simp only
  have h1 := isDefineLine_iff (collapseContinuations posix l)
  split
  · next h => simp [h]
  · next h =>
    split
    · next hd =>
      obtain ⟨ws, r, a, b, d⟩ := h1.mp hd
      exact ⟨fun _ => ⟨ws, r, a, b, d, h⟩, fun _ => rfl⟩
    · next hd =>
      constructor
      · intro hh; split at hh <;> cases hh
      · rintro ⟨ws, r, a, b, d, -⟩; exact absurd (h1.mpr ⟨ws, r, a, b, d⟩) hd

theorem mark_closes (posix : Bool) (c : Char) (l : Str) :
    defineMark posix c l = -1 ↔ Closes posix c l := by
  unfold defineMark Closes
  simp only
  have h1 := isEndefLine_iff (collapseContinuations posix l)
  split
  · next h => simp [h]
  · next h =>
    split
    · next hd =>
      constructor
      · intro hh; cases hh
      · rintro ⟨ws, r, a, b, d, -⟩
        have := h1.mpr ⟨ws, r, a, b, d⟩
        rw [not_both hd] at this; cases this
    · next hd =>
      split
      · next he =>
        obtain ⟨ws, r, a, b, d⟩ := h1.mp he
        exact ⟨fun _ => ⟨ws, r, a, b, d, h⟩, fun _ => rfl⟩
      · next he =>
        constructor
        · intro hh; cases hh
        · rintro ⟨ws, r, a, b, d, -⟩; exact absurd (h1.mpr ⟨ws, r, a, b, d⟩) he

theorem mark_cases (posix : Bool) (c : Char) (l : Str) :
    defineMark posix c l = 1 ∨ defineMark posix c l = -1 ∨ defineMark posix c l = 0 := by
  unfold defineMark
  simp only
  split
  · simp
  · split
    · simp
    · split <;> simp

theorem take_open {posix : Bool} {c : Char} {l : Str} (m : defineMark posix c l = 1) (n : Nat)
    (ls : List Str) : takeDefine posix c n (l :: ls) =
      (takeDefine posix c (n + 1) ls).map fun (b, r) => (defineText posix c l :: b, r) := by
  simp [takeDefine, m]

theorem take_text {posix : Bool} {c : Char} {l : Str} (m : defineMark posix c l = 0) (n : Nat)
    (ls : List Str) : takeDefine posix c n (l :: ls) =
      (takeDefine posix c n ls).map fun (b, r) => (defineText posix c l :: b, r) := by
  simp [takeDefine, m]

theorem take_close {posix : Bool} {c : Char} {l : Str} (m : defineMark posix c l = -1) (n : Nat)
    (ls : List Str) : takeDefine posix c (n + 1 + 1) (l :: ls) =
      (takeDefine posix c (n + 1) ls).map fun (b, r) => (defineText posix c l :: b, r) := by
  simp [takeDefine, m]

theorem take_last {posix : Bool} {c : Char} {l : Str} (m : defineMark posix c l = -1)
    (ls : List Str) : takeDefine posix c 1 (l :: ls) = some ([], ls) := by
  simp [takeDefine, m]

theorem takeDefine_nested {posix : Bool} {c : Char} {raw : List Str} (h : Nested posix c raw) :
    ∀ (n : Nat) (ls : List Str), takeDefine posix c (n + 1) (raw ++ ls) =
      (takeDefine posix c (n + 1) ls).map fun (b, r) => (raw.map (defineText posix c) ++ b, r) := by
  induction h with
  | nil =>
    intro n ls
    rw [List.nil_append]
    cases h : takeDefine posix c (n + 1) ls <;> simp
  | @text l ls0 h1 h2 h3 ih =>
    intro n ls
    have m0 : defineMark posix c l = 0 := by
      rcases mark_cases posix c l with h | h | h
      · exact absurd ((mark_opens _ _ _).mp h) h1
      · exact absurd ((mark_closes _ _ _).mp h) h2
      · exact h
    rw [List.cons_append, take_text m0, ih]
    cases takeDefine posix c (n + 1) ls <;> simp
  | @pair l e b ls0 h1 h2 h3 h4 ih1 ih2 =>
    intro n ls
    have m1 := (mark_opens _ _ _).mpr h1
    have m2 := (mark_closes _ _ _).mpr h3
    rw [List.cons_append, take_open m1, List.append_assoc, ih1, List.cons_append, take_close m2, ih2]
    cases takeDefine posix c (n + 1) ls <;> simp

theorem takeDefine_inv {posix : Bool} {c : Char} : ∀ (k : Nat) (ls : List Str), ls.length ≤ k →
    ∀ (n : Nat) (body rest : List Str), takeDefine posix c (n + 1) ls = some (body, rest) →
    ∃ raw e r1, Nested posix c raw ∧ Closes posix c e ∧ ls = raw ++ e :: r1 ∧
      ((n = 0 ∧ body = raw.map (defineText posix c) ∧ rest = r1) ∨
       (∃ body', 0 < n ∧ takeDefine posix c n r1 = some (body', rest) ∧
          body = raw.map (defineText posix c) ++ defineText posix c e :: body')) := by
  intro k
  induction k with
  | zero =>
    intro ls hk n body rest h
    have : ls = [] := List.length_eq_zero_iff.mp (by omega)
    subst this
    simp [takeDefine] at h
  | succ k ih =>
    intro ls hk n body rest h
    cases ls with
    | nil => simp [takeDefine] at h
    | cons l ls =>
      simp only [List.length_cons] at hk
      rcases mark_cases posix c l with m | m | m
      · rw [take_open m] at h
        cases ht : takeDefine posix c (n + 1 + 1) ls with
        | none => rw [ht] at h; simp at h
        | some q =>
          obtain ⟨b1, r⟩ := q
          rw [ht] at h
          simp only [Option.map_some, Option.some.injEq, Prod.mk.injEq] at h
          obtain ⟨hb, rfl⟩ := h
          obtain ⟨raw, e, r1, a1, a2, a3, a4⟩ := ih ls (by omega) (n + 1) b1 r ht
          rcases a4 with ⟨h0, -⟩ | ⟨b2, -, a5, a6⟩
          · omega
          · have hlen : r1.length ≤ k := by
              have := congrArg List.length a3; simp at this; omega
            obtain ⟨raw2, e2, r2, c1, c2, c3, c4⟩ := ih r1 hlen n b2 r a5
            refine ⟨l :: (raw ++ e :: raw2), e2, r2,
              .pair ((mark_opens _ _ _).mp m) a1 a2 c1, c2, by rw [a3, c3]; simp, ?_⟩
            rcases c4 with ⟨d1, d2, d3⟩ | ⟨b3, d1, d2, d3⟩
            · exact .inl ⟨d1, by rw [← hb, a6, d2]; simp, d3⟩
            · exact .inr ⟨b3, d1, d2, by rw [← hb, a6, d3]; simp⟩
      · cases n with
        | zero =>
          rw [take_last m] at h
          simp only [Option.some.injEq, Prod.mk.injEq] at h
          exact ⟨[], l, ls, .nil, (mark_closes _ _ _).mp m, rfl, .inl ⟨rfl, h.1.symm, h.2.symm⟩⟩
        | succ n =>
          rw [take_close m] at h
          cases ht : takeDefine posix c (n + 1) ls with
          | none => rw [ht] at h; simp at h
          | some q =>
            obtain ⟨b1, r⟩ := q
            rw [ht] at h
            simp only [Option.map_some, Option.some.injEq, Prod.mk.injEq] at h
            obtain ⟨hb, rfl⟩ := h
            exact ⟨[], l, ls, .nil, (mark_closes _ _ _).mp m, rfl,
              .inr ⟨b1, by omega, ht, hb.symm⟩⟩
      · rw [take_text m] at h
        cases ht : takeDefine posix c (n + 1) ls with
        | none => rw [ht] at h; simp at h
        | some q =>
          obtain ⟨b1, r⟩ := q
          rw [ht] at h
          simp only [Option.map_some, Option.some.injEq, Prod.mk.injEq] at h
          obtain ⟨hb, rfl⟩ := h
          obtain ⟨raw, e, r1, a1, a2, a3, a4⟩ := ih ls (by omega) n b1 r ht
          have ho : ¬ Opens posix c l := fun h => by
            have := (mark_opens _ _ _).mpr h; rw [m] at this; cases this
          have hc : ¬ Closes posix c l := fun h => by
            have := (mark_closes _ _ _).mpr h; rw [m] at this; cases this
          refine ⟨l :: raw, e, r1, .text ho hc a1, a2, by rw [a3]; rfl, ?_⟩
          rcases a4 with ⟨d1, d2, d3⟩ | ⟨b3, d1, d2, d3⟩
          · exact .inl ⟨d1, by rw [← hb, d2]; rfl, d3⟩
          · exact .inr ⟨b3, d1, d2, by rw [← hb, d3]; rfl⟩

theorem defineText_open {posix : Bool} {c : Char} {l : Str} (h : ¬ Closes posix c l) :
    defineText posix c l = collapseContinuations posix l := by
  unfold defineText
  simp only
  split
  · next hh =>
    exfalso; apply h
    obtain ⟨ws, r, a, b, d⟩ := (isEndefLine_iff _).mp hh.2
    exact ⟨ws, r, a, b, d, hh.1⟩
  · rfl

theorem findMapUnquoteGo_plain : ∀ (s rev : Str), '#' ∉ s → '$' ∉ s →
    findMapUnquoteGo (· == '#') true rev s = .none (rev.reverse ++ s) := by
  intro s
  induction s with
  | nil => intro rev _ _; rw [findMapUnquoteGo.eq_def]; simp
  | cons c cs ih =>
    intro rev h1 h2
    simp only [List.mem_cons, not_or] at h1 h2
    have e1 : (c == '$') = false := by simpa using fun e => h2.1 e.symm
    have e2 : (c == '#') = false := by simpa using fun e => h1.1 e.symm
    rw [findMapUnquoteGo.eq_def]
    simp only [e1, e2, Bool.and_false, Bool.false_eq_true, if_false]
    rw [ih _ h1.2 h2.2]; simp

/-- Lines without special characters. -/
theorem evalText_plain (posix : Bool) (l : Str) (h : '\n' ∉ l ∧ '#' ∉ l ∧ '$' ∉ l) :
    evalText posix l = nextToken l := by
  rw [evalText, C17_no_newline posix l h.1, removeComments, findMapUnquote,
    findMapUnquoteGo_plain l [] h.2.1 h.2.2]
  simp

theorem mark_plain (posix : Bool) (c : Char) (l : Str) (h : '\n' ∉ l) :
    defineMark posix c l = if l.head? = some c then 0 else if isDefineLine (nextToken l) then 1
      else if isEndefLine (nextToken l) then -1 else 0 := by
  rw [defineMark, C17_no_newline posix l h]

variable {σ : Type} {E : EvalEnv σ}

theorem condTest_eq {s : σ} {line a b rest r' : Str} {t : Char}
    (hf : ifeqFirst line = some (t, a, rest)) (hs : ifeqSecond t rest = some (b, r')) :
    condTest E s .ifeq line = ((expandEq E s a b).1, some (expandEq E s a b).2) ∧
    condTest E s .ifneq line = ((expandEq E s a b).1, some (!(expandEq E s a b).2)) := by
  have k1 : ¬ (CondKind.ifeq = .ifdef ∨ CondKind.ifeq = .ifndef) := by decide
  have k2 : ¬ (CondKind.ifneq = .ifdef ∨ CondKind.ifneq = .ifndef) := by decide
  have k3 : (CondKind.ifeq == CondKind.ifneq) = false := by decide
  have k4 : (CondKind.ifneq == CondKind.ifneq) = true := by decide
  constructor
  · rw [condTest, if_neg k1]
    simp only [hf, hs, expandEq, k3]
    by_cases h : (E.expand s a).2 = (E.expand (E.expand s a).1 b).2 <;> simp [h]
  · rw [condTest, if_neg k2]
    simp only [hf, hs, expandEq, k4]
    by_cases h : (E.expand s a).2 = (E.expand (E.expand s a).1 b).2 <;> simp [h]

end Remake
