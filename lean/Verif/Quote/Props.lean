import Verif.Quote.Lemmas
import Verif.Quote.Spec
set_option linter.unusedVariables false
set_option linter.unusedSimpArgs false
/-!
# Properties C18 and C19: quoting of `#` and `%`
-/
namespace Remake
open Spec

/-! ### helpers for C18 -/

theorem skipRef_close {o c : Char} (hoc : o ≠ c) : ∀ (body rev rest : Str) (n : Nat),
    (∀ p, p <+: body → p.count c < n + p.count o) → body.count c + 1 = n + body.count o →
    skipRef o c n rev (body ++ c :: rest) = (c :: (body.reverse ++ rev), rest)
  | [], rev, rest, n, h, hc => by
    simp at hc
    subst hc
    simp [skipRef, Ne.symm hoc]
  | d :: ds, rev, rest, n, h, hc => by
    rw [List.cons_append, skipRef]
    by_cases h1 : d = o
    · subst h1
      simp only [beq_self_eq_true, if_true]
      rw [skipRef_close hoc ds]
      · simp
      · intro p hp
        have := h (d :: p) ((List.prefix_cons_inj _).mpr hp)
        simp [List.count_cons, hoc] at this; omega
      · simp [List.count_cons, hoc] at hc; omega
    · have h1' : (d == o) = false := by simpa using h1
      simp only [h1', Bool.false_eq_true, if_false]
      by_cases h2 : d = c
      · subst h2
        simp only [beq_self_eq_true, if_true]
        have hn := h [d] (by exact ⟨ds, rfl⟩)
        simp [List.count_cons, h1] at hn
        rw [if_neg (by simp; omega), skipRef_close hoc ds]
        · simp
        · intro p hp
          have := h (d :: p) ((List.prefix_cons_inj _).mpr hp)
          simp [List.count_cons, h1] at this; omega
        · simp [List.count_cons, h1] at hc; omega
      · have h2' : (d == c) = false := by simpa using h2
        simp only [h2', Bool.false_eq_true, if_false]
        rw [skipRef_close hoc ds]
        · simp
        · intro p hp
          have := h (d :: p) ((List.prefix_cons_inj _).mpr hp)
          simp [List.count_cons, h1, h2] at this; omega
        · simp [List.count_cons, h1, h2] at hc; omega

theorem skipRef_open {o c : Char} (hoc : o ≠ c) : ∀ (body rev : Str) (n : Nat),
    (∀ p, p <+: body → p.count c < n + p.count o) →
    skipRef o c n rev body = (body.reverse ++ rev, [])
  | [], rev, n, h => by simp [skipRef]
  | d :: ds, rev, n, h => by
    rw [skipRef]
    by_cases h1 : d = o
    · subst h1
      simp only [beq_self_eq_true, if_true]
      rw [skipRef_open hoc ds]
      · simp
      · intro p hp
        have := h (d :: p) ((List.prefix_cons_inj _).mpr hp)
        simp [List.count_cons, hoc] at this; omega
    · have h1' : (d == o) = false := by simpa using h1
      simp only [h1', Bool.false_eq_true, if_false]
      by_cases h2 : d = c
      · subst h2
        simp only [beq_self_eq_true, if_true]
        have hn := h [d] (by exact ⟨ds, rfl⟩)
        simp [List.count_cons, h1] at hn
        rw [if_neg (by simp; omega), skipRef_open hoc ds]
        · simp
        · intro p hp
          have := h (d :: p) ((List.prefix_cons_inj _).mpr hp)
          simp [List.count_cons, h1] at this; omega
      · have h2' : (d == c) = false := by simpa using h2
        simp only [h2', Bool.false_eq_true, if_false]
        rw [skipRef_open hoc ds]
        · simp
        · intro p hp
          have := h (d :: p) ((List.prefix_cons_inj _).mpr hp)
          simp [List.count_cons, h1, h2] at this; omega

/-- Either the reference is closed somewhere or it is not. -/
theorem close_or_open (o c : Char) (hoc : o ≠ c) : ∀ (t : Str) (n : Nat), 0 < n →
    (∃ body rest, t = body ++ c :: rest ∧ (∀ p, p <+: body → p.count c < n + p.count o) ∧
      body.count c + 1 = n + body.count o) ∨ (∀ p, p <+: t → p.count c < n + p.count o)
  | [], n, hn => Or.inr (by intro p hp; simp at hp; subst hp; simpa using hn)
  | d :: ds, n, hn => by
    have ext : ∀ (body : Str) (m : Nat), 0 < n → (∀ p, p <+: body → p.count c < m + p.count o) →
        (∀ p : Str, (d :: p).count c + m = p.count c + n + (d :: p).count o - p.count o) →
        ∀ p, p <+: d :: body → p.count c < n + p.count o := by
      intro body m hn0 h1 h2 p hp
      cases p with
      | nil => simpa using hn0
      | cons x p =>
        obtain ⟨rfl, hp'⟩ := List.cons_prefix_cons.mp hp
        have h3 := h1 p hp'
        have h4 := h2 p
        have : p.count o ≤ (x :: p).count o := by rw [List.count_cons]; omega
        omega
    by_cases h1 : d = o
    · subst h1
      have hcount : ∀ p : Str, (d :: p).count c + (n + 1) = p.count c + n + (d :: p).count d - p.count d := by
        intro p; simp [List.count_cons, hoc]; omega
      rcases close_or_open d c hoc ds (n + 1) (by omega) with ⟨body, rest, h2, h3, h4⟩ | h2
      · left
        refine ⟨d :: body, rest, by rw [h2]; rfl, ext body (n + 1) hn h3 hcount, ?_⟩
        simp [List.count_cons, hoc]; omega
      · exact Or.inr (ext ds (n + 1) hn h2 hcount)
    · by_cases h2 : d = c
      · subst h2
        by_cases h3 : n = 1
        · subst h3
          left
          refine ⟨[], ds, rfl, ?_, by simp⟩
          intro p hp; simp at hp; subst hp; simp
        · have hcount : ∀ p : Str, (d :: p).count d + (n - 1) = p.count d + n + (d :: p).count o - p.count o := by
            intro p; simp [List.count_cons, h1]; omega
          rcases close_or_open o d hoc ds (n - 1) (by omega) with ⟨body, rest, h4, h5, h6⟩ | h4
          · left
            refine ⟨d :: body, rest, by rw [h4]; rfl, ext body (n - 1) hn h5 hcount, ?_⟩
            simp [List.count_cons, h1]; omega
          · exact Or.inr (ext ds (n - 1) hn h4 hcount)
      · have hcount : ∀ p : Str, (d :: p).count c + n = p.count c + n + (d :: p).count o - p.count o := by
          intro p; simp [List.count_cons, h1, h2]
        rcases close_or_open o c hoc ds n hn with ⟨body, rest, h4, h5, h6⟩ | h4
        · left
          refine ⟨d :: body, rest, by rw [h4]; rfl, ext body n hn h5 hcount, ?_⟩
          simp [List.count_cons, h1, h2]; omega
        · exact Or.inr (ext ds n hn h4 hcount)

theorem mapGo_plain {c : Char} (h1 : c ≠ '$') (h2 : c ≠ '#') (rev cs : Str) :
    findMapUnquoteGo (· == '#') true rev (c :: cs) = findMapUnquoteGo (· == '#') true (c :: rev) cs := by
  rw [findMapUnquoteGo.eq_def]
  simp [h1, h2]

theorem mapGo_hash (rev cs : Str) :
    findMapUnquoteGo (· == '#') true rev ('#' :: cs) =
      if bsCount rev = 0 then .found rev.reverse '#' cs
      else if bsCount rev % 2 = 0 then .found (halveBs rev).reverse '#' cs
      else findMapUnquoteGo (· == '#') true ('#' :: halveBs rev) cs := by
  rw [findMapUnquoteGo.eq_def]
  simp

theorem mapGo_dollar {o : Char} (h1 : o ≠ '(') (h2 : o ≠ '{') (rev cs : Str) :
    findMapUnquoteGo (· == '#') true rev ('$' :: o :: cs) =
      findMapUnquoteGo (· == '#') true (o :: '$' :: rev) cs := by
  rw [findMapUnquoteGo.eq_def]
  simp [h1, h2]

theorem mapGo_bs : ∀ (k : Nat) (rev rest : Str),
    findMapUnquoteGo (· == '#') true rev (List.replicate k '\\' ++ rest) =
      findMapUnquoteGo (· == '#') true (List.replicate k '\\' ++ rev) rest
  | 0, rev, rest => by simp
  | k + 1, rev, rest => by
    rw [List.replicate_succ, List.cons_append, mapGo_plain (by decide) (by decide), mapGo_bs k]
    rw [← List.singleton_append, ← List.append_assoc, ← List.replicate_succ', List.replicate_succ]

/-- The result of the scan for a given reading. -/
def readResult (rev kept : Str) : Option Str → Unq
  | none => .none (rev.reverse ++ kept)
  | some c => .found (rev.reverse ++ kept) '#' c

theorem brackets_ne {o c : Char} (h : Brackets o c) : o ≠ c ∧ (o == '(' || o == '{') = true ∧
    (if o == '(' then ')' else '}') = c ∧ c ≠ '\\' := by
  rcases h with ⟨rfl, rfl⟩ | ⟨rfl, rfl⟩ <;> decide

theorem mapGo_dollar_ref {o c : Char} (h : Brackets o c) (rev t : Str) :
    findMapUnquoteGo (· == '#') true rev ('$' :: o :: t) =
      findMapUnquoteGo (· == '#') true (skipRef o c 1 (o :: '$' :: rev) t).1
        (skipRef o c 1 (o :: '$' :: rev) t).2 := by
  obtain ⟨h1, h2, h3, -⟩ := brackets_ne h
  rw [findMapUnquoteGo.eq_def]
  simp only [Bool.true_and, beq_self_eq_true, if_true, h2, h3]

theorem mapGo_read {s kept : Str} {com : Option Str} (h : CommentRead s kept com) :
    ∀ rev : Str, (rev.head? ≠ some '\\' ∨ (s.head? ≠ some '\\' ∧ s.head? ≠ some '#')) →
      findMapUnquoteGo (· == '#') true rev s = readResult rev kept com := by
  induction h with
  | nil => intro rev _; simp [findMapUnquoteGo.eq_def, readResult]
  | lone => intro rev _; simp [findMapUnquoteGo.eq_def, readResult]
  | @char c rest kept com h1 h2 h3 hrd ih =>
    intro rev hr
    rw [mapGo_plain h3 h1, ih _ (Or.inl (by simpa using h2))]
    cases com <;> simp [readResult]
  | @dollarBs rest kept com hh hrd ih =>
    intro rev hr
    have h1 := ih ('$' :: rev) (Or.inl (by simp))
    cases rest with
    | nil => simp at hh
    | cons x xs =>
      simp at hh; subst hh
      rw [mapGo_plain (by decide) (by decide)] at h1
      rw [mapGo_dollar (by decide) (by decide), h1]
      cases com <;> simp [readResult]
  | @dollar o rest kept com h1 h2 h3 hrd ih =>
    intro rev hr
    rw [mapGo_dollar h1 h2, ih _ (Or.inl (by simpa using h3))]
    cases com <;> simp [readResult]
  | @ref o c body rest kept com hb hn hcount hrd ih =>
    intro rev hr
    obtain ⟨h1, h2, h3, h4⟩ := brackets_ne hb
    rw [List.cons_append, List.cons_append, mapGo_dollar_ref hb,
      skipRef_close h1 body _ rest 1 (fun p hp => by have := hn p hp; omega) (by omega)]
    simp only
    rw [ih _ (Or.inl (by simpa using h4))]
    cases com <;> simp [readResult]
  | @unterminated o c body hb hn =>
    intro rev hr
    obtain ⟨h1, h2, h3, h4⟩ := brackets_ne hb
    rw [mapGo_dollar_ref hb, skipRef_open h1 body _ 1 (fun p hp => by have := hn p hp; omega)]
    simp [findMapUnquoteGo.eq_def, readResult]
  | @backslashes k rest kept com hk h1 h2 hrd ih =>
    intro rev _
    rw [mapGo_bs, ih _ (Or.inr ⟨h1, h2⟩)]
    cases com <;> simp [readResult]
  | @cut k comment =>
    intro rev hr
    replace hr : rev.head? ≠ some '\\' := by
      rcases hr with hr | ⟨h1, h2⟩
      · exact hr
      · cases k with
        | zero => simp at h2
        | succ k => rw [show 2 * (k + 1) = (2 * k + 1) + 1 by omega, List.replicate_succ] at h1; simp at h1
    rw [mapGo_bs, mapGo_hash, bsCount_replicate_append hr, halveBs_replicate_append hr]
    split
    · have : k = 0 := by omega
      subst this; simp [readResult]
    · rw [if_pos (by omega)]
      have : 2 * k / 2 = k := by omega
      simp [readResult, this]
  | @quoted k rest kept com hrd ih =>
    intro rev hr
    replace hr : rev.head? ≠ some '\\' := by
      rcases hr with hr | ⟨h1, h2⟩
      · exact hr
      · rw [List.replicate_succ] at h1; simp at h1
    rw [mapGo_bs, mapGo_hash, bsCount_replicate_append hr, halveBs_replicate_append hr]
    rw [if_neg (by omega), if_neg (by omega), ih _ (Or.inl (by simp))]
    have : (2 * k + 1) / 2 = k := by omega
    cases com <;> simp [readResult, this]

theorem leading_bs (s : Str) : ∃ k rest, s = List.replicate k '\\' ++ rest ∧ rest.head? ≠ some '\\' := by
  induction s with
  | nil => exact ⟨0, [], rfl, by simp⟩
  | cons c cs ih =>
    by_cases h : c = '\\'
    · obtain ⟨k, rest, rfl, hr⟩ := ih
      exact ⟨k + 1, rest, by rw [h, List.replicate_succ]; rfl, hr⟩
    · exact ⟨0, c :: cs, rfl, by simpa using h⟩

theorem CommentRead_exists (s : Str) : ∃ kept com, CommentRead s kept com := by
  generalize hn : s.length = n
  induction n using Nat.strongRecOn generalizing s with
  | _ n ih =>
    have refcase : ∀ (o c : Char) (t : Str), Brackets o c → t.length + 2 ≤ n →
        ∃ kept com, CommentRead ('$' :: o :: t) kept com := by
      intro o c t hb hlen
      rcases close_or_open o c (brackets_ne hb).1 t 1 (by omega) with ⟨body, rest, rfl, h1, h2⟩ | h1
      · obtain ⟨kept, com, hr⟩ := ih rest.length (by simp at hlen; omega) rest rfl
        exact ⟨_, _, CommentRead.ref hb (fun p hp => by have := h1 p hp; omega) (by omega) hr⟩
      · exact ⟨_, _, .unterminated hb (fun p hp => by have := h1 p hp; omega)⟩
    match s, hn with
    | [], _ => exact ⟨_, _, .nil⟩
    | ['$'], _ => exact ⟨_, _, .lone⟩
    | '$' :: o :: t, hn =>
      by_cases h1 : o = '('
      · subst h1; exact refcase '(' ')' t (Or.inl ⟨rfl, rfl⟩) (by rw [← hn]; simp)
      · by_cases h2 : o = '{'
        · subst h2; exact refcase '{' '}' t (Or.inr ⟨rfl, rfl⟩) (by rw [← hn]; simp)
        · by_cases h3 : o = '\\'
          · subst h3
            obtain ⟨kept, com, hr⟩ := ih ('\\' :: t).length (by rw [← hn]; simp) _ rfl
            exact ⟨_, _, .dollarBs rfl hr⟩
          · obtain ⟨kept, com, hr⟩ := ih t.length (by rw [← hn]; simp; omega) _ rfl
            exact ⟨_, _, .dollar h1 h2 h3 hr⟩
    | c :: cs, hn =>
      by_cases hd : c = '$'
      · subst hd
        cases cs with
        | nil => exact ⟨_, _, .lone⟩
        | cons o t =>
          by_cases h1 : o = '('
          · subst h1; exact refcase '(' ')' t (Or.inl ⟨rfl, rfl⟩) (by rw [← hn]; simp)
          · by_cases h2 : o = '{'
            · subst h2; exact refcase '{' '}' t (Or.inr ⟨rfl, rfl⟩) (by rw [← hn]; simp)
            · by_cases h3 : o = '\\'
              · subst h3
                obtain ⟨kept, com, hr⟩ := ih ('\\' :: t).length (by rw [← hn]; simp) _ rfl
                exact ⟨_, _, .dollarBs rfl hr⟩
              · obtain ⟨kept, com, hr⟩ := ih t.length (by rw [← hn]; simp; omega) _ rfl
                exact ⟨_, _, .dollar h1 h2 h3 hr⟩
      · by_cases hh : c = '#'
        · subst hh; exact ⟨_, _, CommentRead.cut (k := 0) (comment := cs)⟩
        · by_cases hb : c = '\\'
          · obtain ⟨k, rest, hs, hr⟩ := leading_bs (c :: cs)
            have hk : 0 < k := by
              cases k with
              | zero => rw [show List.replicate 0 '\\' ++ rest = rest from rfl] at hs
                        rw [← hs, hb] at hr; simp at hr
              | succ k => omega
            have hlen : rest.length + k = n := by
              rw [← hn, hs]; simp; omega
            rw [hs]
            by_cases hhd : rest.head? = some '#'
            · cases rest with
              | nil => simp at hhd
              | cons x xs =>
                simp at hhd; subst hhd
                rcases Nat.mod_two_eq_zero_or_one k with h2 | h2
                · have : k = 2 * (k / 2) := by omega
                  rw [this]; exact ⟨_, _, .cut⟩
                · obtain ⟨kept, com, hr⟩ := ih xs.length (by simp at hlen; omega) _ rfl
                  have : k = 2 * (k / 2) + 1 := by omega
                  rw [this]; exact ⟨_, _, .quoted hr⟩
            · obtain ⟨kept, com, hr2⟩ := ih rest.length (by omega) _ rfl
              exact ⟨_, _, .backslashes hk hr hhd hr2⟩
          · obtain ⟨kept, com, hr⟩ := ih cs.length (by rw [← hn]; simp) _ rfl
            exact ⟨_, _, .char hh hb hd hr⟩

theorem readResult_inj {kept kept' : Str} {com com' : Option Str}
    (h : readResult [] kept com = readResult [] kept' com') : kept = kept' ∧ com = com' := by
  cases com <;> cases com' <;> simp [readResult] at h <;> simp [h]

/-! ## C18: comments -/

/-- Every line has exactly one reading, and `remove_comments` keeps exactly the text
of that reading; a target description is recorded exactly for a comment that starts with
`#: `. -/
theorem C18_comments (line kept : Str) (com : Option Str) (h : CommentRead line kept com) :
    removeComments line = kept ∧
    (∀ d, commentDescription line = some d ↔ com = some (':' :: ' ' :: d)) := by
  have h1 := mapGo_read h [] (Or.inl (by simp))
  unfold removeComments commentDescription findMapUnquote
  rw [h1]
  cases com with
  | none => simp [readResult]
  | some c =>
    simp only [readResult, List.reverse_nil, List.nil_append, Option.some.injEq, true_and]
    intro d
    split
    · simp
    · rename_i hno
      constructor
      · intro h; cases h
      · intro h; exact absurd h (hno d)

theorem C18_reading_exists (line : Str) : ∃ kept com, CommentRead line kept com :=
  CommentRead_exists line

theorem C18_reading_unique {line kept kept' : Str} {com com' : Option Str}
    (h : CommentRead line kept com) (h' : CommentRead line kept' com') : kept = kept' ∧ com = com' := by
  have h1 := mapGo_read h [] (Or.inl (by simp))
  have h2 := mapGo_read h' [] (Or.inl (by simp))
  rw [h1] at h2
  exact readResult_inj h2

/-- Every `$`-free text can be written on a line: some line reads as exactly that text, without
comment. -/
theorem C18_expressible (t : Str) (h : '$' ∉ t) : ∃ line, CommentRead line t none := by
  generalize hn : t.length = n
  induction n using Nat.strongRecOn generalizing t with
  | _ n ih =>
    match t, hn, h with
    | [], _, _ => exact ⟨_, .nil⟩
    | c :: cs, hn, h =>
      obtain ⟨k, rest, hs, hr⟩ := leading_bs (c :: cs)
      have hlen : rest.length + k = n := by rw [← hn, hs]; simp; omega
      have hrest : '$' ∉ rest := by
        intro hm; apply h; rw [hs]; exact List.mem_append_right _ hm
      rw [hs]
      cases rest with
      | nil =>
        cases k with
        | zero => exact ⟨_, .nil⟩
        | succ k => exact ⟨_, .backslashes (by omega) (by simp) (by simp) .nil⟩
      | cons x xs =>
        simp only [List.mem_cons, not_or] at hrest
        obtain ⟨line, hl⟩ := ih xs.length (by simp at hlen; omega) xs hrest.2 rfl
        by_cases hx : x = '#'
        · subst hx; exact ⟨_, .quoted hl⟩
        · have hx2 : x ≠ '\\' := by simpa using hr
          have h1 := CommentRead.char hx hx2 (Ne.symm hrest.1) hl
          cases k with
          | zero => exact ⟨_, h1⟩
          | succ k => exact ⟨_, .backslashes (by omega) (by simpa using hx2) (by simpa using hx) h1⟩

example : CommentRead ['a', '$', '(', '#', ')', '\\', '\\', '#', 'b'] ['a', '$', '(', '#', ')', '\\']
    (some ['b']) := by
  refine .char (by decide) (by decide) (by decide) ?_
  refine CommentRead.ref (o := '(') (c := ')') (body := ['#']) (rest := ['\\', '\\', '#', 'b'])
    (kept := ['\\']) (Or.inl ⟨rfl, rfl⟩) ?_ (by decide) (CommentRead.cut (k := 1) (comment := ['b']))
  intro p hp
  have : p.count ')' = 0 := by
    rw [List.count_eq_zero]; intro hm; exact absurd (hp.subset hm) (by decide)
  omega

/-- `unescape_char` (used for `\:` in prerequisites). -/
theorem C18_unescape {ch : Char} (hch : ch ≠ '\\') {s out : Str} (h : Unescaped ch s out) :
    unescapeChar ch s = out := by
  have bs : ∀ (k n : Nat) (rest : Str), unescapeCharGo ch n (List.replicate k '\\' ++ rest) =
      unescapeCharGo ch (n + k) rest := by
    intro k
    induction k with
    | zero => intro n rest; simp
    | succ k ih =>
      intro n rest
      rw [List.replicate_succ, List.cons_append, unescapeCharGo]
      simp only [beq_self_eq_true, if_true]
      rw [ih]; congr 1; omega
  have pend : ∀ {rest : Str} (n : Nat), rest.head? ≠ some '\\' → (rest.head? ≠ some ch ∨ n % 2 = 0) →
      unescapeCharGo ch n rest = List.replicate n '\\' ++ unescapeCharGo ch 0 rest := by
    intro rest n h1 h2
    cases rest with
    | nil => simp [unescapeCharGo]
    | cons c cs =>
      have hc : c ≠ '\\' := by simpa using h1
      have hcond : (c != ch || n % 2 == 0) = true := by
        rcases h2 with h2 | h2
        · have : c ≠ ch := by simpa using h2
          simp [this]
        · simp [h2]
      have hb : (c == '\\') = false := by simpa using hc
      rw [unescapeCharGo, unescapeCharGo]
      simp [hb, hcond]
  unfold unescapeChar
  induction h with
  | nil => rfl
  | @char c rest out hc _ ih =>
    have hb : (c == '\\') = false := by simpa using hc
    rw [unescapeCharGo]; simp [hb, ih]
  | @kept k rest out hk h1 h2 _ ih =>
    rw [bs, Nat.zero_add, pend k h1 h2, ih]
  | @halved k rest out _ ih =>
    have hb : (ch == '\\') = false := by simpa using hch
    rw [bs, Nat.zero_add, unescapeCharGo]
    have h1 : (2 * k + 1) % 2 = 1 := by omega
    have h2 : (2 * k + 1) / 2 = k := by omega
    simp [hb, h1, h2, ih]

/-- Every text has such a reading. -/
theorem C18_unescape_exists (ch : Char) (s : Str) : ∃ out, Unescaped ch s out := by
  generalize hn : s.length = n
  induction n using Nat.strongRecOn generalizing s with
  | _ n ih =>
    match s, hn with
    | [], _ => exact ⟨_, .nil⟩
    | c :: cs, hn =>
      by_cases hb : c = '\\'
      · obtain ⟨k, rest, hs, hr⟩ := leading_bs (c :: cs)
        have hk : 0 < k := by
          cases k with
          | zero => rw [show List.replicate 0 '\\' ++ rest = rest from rfl] at hs
                    rw [← hs, hb] at hr; simp at hr
          | succ k => omega
        have hlen : rest.length + k = n := by rw [← hn, hs]; simp; omega
        rw [hs]
        obtain ⟨out, ho⟩ := ih rest.length (by omega) rest rfl
        by_cases h1 : rest.head? = some ch
        · rcases Nat.mod_two_eq_zero_or_one k with h2 | h2
          · exact ⟨_, .kept hk hr (Or.inr h2) ho⟩
          · cases rest with
            | nil => simp at h1
            | cons x xs =>
              simp at h1; subst h1
              obtain ⟨out, ho⟩ := ih xs.length (by simp at hlen; omega) xs rfl
              have : k = 2 * (k / 2) + 1 := by omega
              rw [this]; exact ⟨_, .halved ho⟩
        · exact ⟨_, .kept hk hr (Or.inl h1) ho⟩
      · obtain ⟨out, ho⟩ := ih cs.length (by rw [← hn]; simp) cs rfl
        exact ⟨_, .char hb ho⟩

/-! ## C19: `%` -/

/-- `find_percent` reads a pattern exactly as specified. -/
theorem C19_find_percent (s : Str) (p : Pct) :
    ReadsAs '%' s p ↔ (match findPercent s with
      | .none t => Pct.lit t
      | .found pre _ post => Pct.pat pre post) = p := by
  have := ReadsAs_iff (stop := '%') (by decide) (s := s) (p := p)
  rw [this]
  unfold findPercent
  cases findCharUnquote '%' s <;> rfl

/-- Every resolved pattern can be written. -/
theorem C19_expressible (p : Pct) :
    ∃ s, ReadsAs '%' s p := by
  suffices h : ∀ (n : Nat) (t : Str), t.length = n →
      (∃ s, ReadsAs '%' s (.lit t)) ∧ ∀ post, ∃ s, ReadsAs '%' s (.pat t post) by
    cases p with
    | lit t => exact (h _ t rfl).1
    | pat pre post => exact (h _ pre rfl).2 post
  intro n
  induction n using Nat.strongRecOn with
  | _ n ih =>
    intro t ht
    by_cases h : '%' ∈ t
    · obtain ⟨a0, rest, rfl, ha0⟩ := split_first h
      obtain ⟨a, k, rfl, hl⟩ := split_trailing_bs a0
      have ha : '%' ∉ a := fun h => ha0 (by simp [h])
      obtain ⟨⟨s1, h1⟩, h2⟩ := ih rest.length (by rw [← ht]; simp; omega) rest rfl
      constructor
      · have := ReadsAs.quoted (k := k) ha hl h1
        refine ⟨_, cast (congrArg _ ?_) this⟩
        simp [Pct.prepend]
      · intro post
        obtain ⟨s2, h2⟩ := h2 post
        have := ReadsAs.quoted (k := k) ha hl h2
        refine ⟨_, cast (congrArg _ ?_) this⟩
        simp [Pct.prepend]
    · refine ⟨⟨t, .none h⟩, fun post => ?_⟩
      obtain ⟨a, k, rfl, hl⟩ := split_trailing_bs t
      exact ⟨_, .unquoted (fun hm => h (by simp [hm])) hl⟩

/-- `find_percent_cached` gives the same answer as `find_percent`, and when it does not
replace the cached string the text has not changed. -/
theorem C19_cached (s : Str) :
    (findPercentCached s).1 = findPercent s ∧
    ((findPercentCached s).2 = false → (match findPercent s with
      | .none t => t
      | .found pre c post => pre ++ c :: post) = s) := by
  have key : ∀ (rest rev : Str) (b : Bool),
      (findPercentCachedGo b rev rest).1 = findCharUnquoteGo '%' rev rest ∧
      ((findPercentCachedGo b rev rest).2 = false → (match findCharUnquoteGo '%' rev rest with
        | .none t => t
        | .found pre c post => pre ++ c :: post) = rev.reverse ++ rest) ∧
      (b = true → (findPercentCachedGo b rev rest).2 = true) := by
    intro rest
    induction rest with
    | nil => intro rev b; simp [findPercentCachedGo, findCharUnquoteGo]
    | cons c cs ih =>
      intro rev b
      unfold findPercentCachedGo findCharUnquoteGo
      by_cases hc : c = '%'
      · subst hc
        simp only [beq_self_eq_true, if_true]
        have hhead : bsCount rev = 0 ↔ rev.head? ≠ some '\\' := by
          unfold bsCount
          cases rev with
          | nil => simp
          | cons x xs =>
            rw [List.takeWhile_cons]
            by_cases hx : x = '\\'
            · simp [hx]
            · simp [hx]
        by_cases h0 : rev.head? = some '\\'
        · have h0' : bsCount rev ≠ 0 := fun h => hhead.mp h h0
          simp only [h0, bne_self_eq_false, Bool.false_eq_true, if_false, beq_iff_eq, h0']
          split
          · exact ⟨rfl, by simp, by simp⟩
          · obtain ⟨h1, h2, h3⟩ := ih ('%' :: halveBs rev) true
            refine ⟨h1, fun hf => ?_, fun _ => h3 rfl⟩
            rw [h3 rfl] at hf; cases hf
        · have h0' := hhead.mpr h0
          have hb : (rev.head? != some '\\') = true := by simpa using h0
          simp [hb, h0']
      · have hb : (c == '%') = false := by simpa using hc
        simp only [hb, Bool.false_eq_true, if_false]
        obtain ⟨h1, h2, h3⟩ := ih (c :: rev) b
        exact ⟨h1, fun hf => by rw [h2 hf]; simp, h3⟩
  unfold findPercentCached findPercent findCharUnquote
  split
  · simp [findCharUnquoteGo, bsCount]
  · obtain ⟨h1, h2, -⟩ := key s [] false
    exact ⟨h1, fun hf => by simpa using h2 hf⟩

/-- `find_percent_cached` replaces the cached string only if a backslash goes: the new text is shorter. -/
theorem C19_cached_copy (s : Str) (h : (findPercentCached s).2 = true) :
    (match findPercent s with
      | .none t => t
      | .found pre c post => pre ++ c :: post).length < s.length := by
  have half : ∀ rev : Str, (halveBs rev).length + (bsCount rev - bsCount rev / 2) = rev.length := by
    intro rev
    have : bsCount rev ≤ rev.length := by unfold bsCount; exact (List.takeWhile_sublist _).length_le
    unfold halveBs
    simp only [List.length_append, List.length_replicate, List.length_drop]
    omega
  have key : ∀ (rest rev : Str) (b : Bool),
      (match findCharUnquoteGo '%' rev rest with
        | .none t => t
        | .found pre c post => pre ++ c :: post).length ≤ rev.length + rest.length ∧
      ((findPercentCachedGo b rev rest).2 = true → b = true ∨ (match findCharUnquoteGo '%' rev rest with
        | .none t => t
        | .found pre c post => pre ++ c :: post).length < rev.length + rest.length) := by
    intro rest
    induction rest with
    | nil => intro rev b; simp [findPercentCachedGo, findCharUnquoteGo]
    | cons c cs ih =>
      intro rev b
      unfold findPercentCachedGo findCharUnquoteGo
      by_cases hc : c = '%'
      · subst hc
        simp only [beq_self_eq_true, if_true]
        have hhead : bsCount rev = 0 ↔ rev.head? ≠ some '\\' := by
          unfold bsCount
          cases rev with
          | nil => simp
          | cons x xs =>
            rw [List.takeWhile_cons]
            by_cases hx : x = '\\'
            · simp [hx]
            · simp [hx]
        by_cases h0 : rev.head? = some '\\'
        · have h0' : bsCount rev ≠ 0 := fun h => hhead.mp h h0
          simp only [h0, bne_self_eq_false, Bool.false_eq_true, if_false, beq_iff_eq, h0']
          have hh := half rev
          by_cases hp : bsCount rev % 2 = 0
          · simp only [hp, if_true, List.length_append, List.length_reverse, List.length_cons]
            exact ⟨by omega, fun _ => Or.inr (by omega)⟩
          · obtain ⟨h1, -⟩ := ih ('%' :: halveBs rev) true
            simp only [List.length_cons] at h1
            simp only [hp, if_false, List.length_cons]
            exact ⟨by omega, fun _ => Or.inr (by omega)⟩
        · have h0' := hhead.mpr h0
          have hb : (rev.head? != some '\\') = true := by simpa using h0
          simp [hb, h0']
      · have hb : (c == '%') = false := by simpa using hc
        simp only [hb, Bool.false_eq_true, if_false]
        obtain ⟨h1, h2⟩ := ih (c :: rev) b
        simp only [List.length_cons] at h1 h2 ⊢
        refine ⟨by omega, fun hf => ?_⟩
        rcases h2 hf with h | h
        · exact Or.inl h
        · exact Or.inr (by omega)
  unfold findPercentCached at h
  split at h
  · cases h
  · rcases (key s [] false).2 h with h | h
    · cases h
    · simpa [findPercent, findCharUnquote] using h

example : ReadsAs '%' "a\\\\%b%".toList (.pat "a\\".toList "b%".toList) :=
  ReadsAs.unquoted (a := "a".toList) (k := 1) (by decide) (by decide)
example : (findPercentCached "x\\%y%z".toList) = (.found "x%y".toList '%' "z".toList, true) := by decide

end Remake
