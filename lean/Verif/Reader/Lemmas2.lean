import Verif.Reader.Spec2
import Verif.Quote.Props
import Verif.Files.Lists
import Verif.Files.Names
import Verif.Text.Lemmas5
import Verif.Var.Props
/-! # Lemmas on rule lines and modifiers -/
set_option linter.unusedVariables false
set_option linter.unusedSimpArgs false
namespace Remake
open Spec

variable {σ : Type}

/-! ## Words -/

/-- What may follow a word. -/
def StopsWord (r : Str) : Prop :=
  r = [] ∨ r.head? = some ' ' ∨ r.head? = some '\t' ∨ r.head? = some ':' ∨ ∃ q, r = '&' :: ':' :: q

theorem piece_head {w : Str} (h : Piece w) : w.head? ≠ some '=' ∧ w.head? ≠ some ':' ∧ w.head? ≠ some ' ' ∧ w.head? ≠ some '\t' := by
  cases h <;> simp_all

theorem mwordGo_stop (t : MWordType) (rev : Str) {r : Str} (h : StopsWord r) :
    mwordGo t rev r = { type := t, word := rev.reverse, rest := r } := by
  rw [mwordGo.eq_def]
  cases r with
  | nil => rfl
  | cons d r =>
    rcases h with h | h | h | h | ⟨q, h⟩
    · cases h
    · cases h; simp
    · cases h; simp
    · cases h; simp
    · cases h; simp

theorem stopsWord_ne {r : Str} (h : StopsWord r) : r.head? ≠ some '=' := by
  rcases h with rfl | h | h | h | ⟨q, rfl⟩
  · simp
  · rw [h]; decide
  · rw [h]; decide
  · rw [h]; decide
  · simp

theorem head?_append_stop {w r : Str} {c : Char} (h1 : w.head? ≠ some c) (h2 : w = [] → r.head? ≠ some c) :
    (w ++ r).head? ≠ some c := by
  cases w with
  | nil => simpa using h2 rfl
  | cons => simpa using h1

theorem mwordGo_piece {w : Str} (h : Piece w) : ∀ (t : MWordType) (rev : Str) {r : Str}, StopsWord r →
    ∃ t', (t' = t ∨ t' = .variable) ∧
      mwordGo t rev (w ++ r) = { type := t', word := rev.reverse ++ w, rest := r } := by
  induction h with
  | nil =>
    intro t rev r hs
    exact ⟨t, .inl rfl, by rw [List.nil_append, mwordGo_stop _ _ hs, List.append_nil]⟩
  | @char c w h1 h2 h3 h4 h5 h6 h7 hw ih =>
    intro t rev r hs
    obtain ⟨t', ht, e⟩ := ih t (c :: rev) hs
    refine ⟨t', ht, ?_⟩
    have hq : (w ++ r).head? ≠ some '=' := head?_append_stop (piece_head hw).1 (fun _ => stopsWord_ne hs)
    rw [List.cons_append, mwordGo.eq_def]
    simp only [h1, h2, h3, h4, h5, h6, h7, or_self, if_false, false_and, hq, and_false, e]
    simp
  | @amp w hne hw ih =>
    intro t rev r hs
    obtain ⟨t', ht, e⟩ := ih t ('&' :: rev) hs
    refine ⟨t', ht, ?_⟩
    have hq : (w ++ r).head? ≠ some ':' := head?_append_stop (piece_head hw).2.1 (fun h => absurd h hne)
    rw [List.cons_append, mwordGo.eq_def]
    simp only [hq, e, and_false, if_false]
    simp
  | @bs c w h1 h2 hw ih =>
    intro t rev r hs
    obtain ⟨t', ht, e⟩ := ih t ('\\' :: rev) hs
    refine ⟨t', ht, ?_⟩
    have h3 : c ≠ '=' := by have := (piece_head hw).1; simpa using this
    have h4 : c ≠ ':' := by have := (piece_head hw).2.1; simpa using this
    rw [List.cons_append, List.cons_append, mwordGo.eq_def]
    rw [List.cons_append] at e
    simp [h1, h2, h3, h4, e]
  | @quoted c w hc hw ih =>
    intro t rev r hs
    obtain ⟨t', ht, e⟩ := ih t (c :: '\\' :: rev) hs
    refine ⟨t', ht, ?_⟩
    rw [List.cons_append, List.cons_append, mwordGo.eq_def]
    simp [hc, e]
  | @dollar c w h1 h2 hw ih =>
    intro t rev r hs
    rw [List.cons_append, List.cons_append, mwordGo.eq_def]
    by_cases hc : c = '$'
    · obtain ⟨t', ht, e⟩ := ih t (c :: '$' :: rev) hs
      exact ⟨t', ht, by subst hc; simp [e]⟩
    · obtain ⟨t', ht, e⟩ := ih .variable (c :: '$' :: rev) hs
      refine ⟨t', .inr (by simpa using ht), ?_⟩
      simp [hc, h1, h2, e]
  | @ref o c body w hb hn hc hw ih =>
    intro t rev r hs
    obtain ⟨h1, h2, h3⟩ := brackets_ne hb
    obtain ⟨t', ht, e⟩ := ih .variable (c :: (body.reverse ++ (o :: '$' :: rev))) hs
    refine ⟨t', .inr (by simpa using ht), ?_⟩
    have hcl : (if o = '(' then ')' else '}') = c := by rcases hb with ⟨rfl, rfl⟩ | ⟨rfl, rfl⟩ <;> decide
    have ho : o = '(' ∨ o = '{' := by rcases hb with ⟨rfl, -⟩ | ⟨rfl, -⟩ <;> simp
    have ho' : o ≠ '$' := by rcases ho with rfl | rfl <;> decide
    rw [List.cons_append, List.cons_append, List.append_assoc, List.cons_append, mwordGo.eq_def]
    have hk := skipRef_close h1 body (o :: '$' :: rev) (w ++ r) 1 (fun p hp => by have := hn p hp; omega) (by omega)
    simp [ho, ho', hcl, hk, e]

theorem dropWhile_blanks {sep : Str} (h : ∀ c ∈ sep, isBlank c = true) {r : Str}
    (hr : ∀ c, r.head? = some c → isBlank c = false) : (sep ++ r).dropWhile isBlank = r := by
  rw [List.dropWhile_append_of_pos h]
  cases r with
  | nil => rfl
  | cons c r => rw [List.dropWhile_cons, hr c rfl]; simp

/-- The next word. -/
theorem getNextMword_piece {sep w : Str} {r stale : Str} (hsep : ∀ c ∈ sep, isBlank c = true) (hw : Piece w)
    (hne : w ≠ []) (hsc : w.head? ≠ some ';') (hs : StopsWord r) :
    ∃ t, (t = .static ∨ t = .variable) ∧
      getNextMword (sep ++ (w ++ r)) stale = { type := t, word := w, rest := r } := by
  obtain ⟨t', ht, e⟩ := mwordGo_piece hw .static [] hs
  refine ⟨t', ht, ?_⟩
  have hh := piece_head hw
  cases w with
  | nil => exact absurd rfl hne
  | cons c w =>
    simp only [List.head?_cons, ne_eq, Option.some.injEq] at hh hsc
    unfold getNextMword
    rw [dropWhile_blanks hsep (by
      intro x hx
      simp only [List.cons_append, List.head?_cons, Option.some.injEq] at hx
      subst hx
      simp [isBlank, hh])]
    simp only [List.cons_append] at e ⊢
    have h1 : ¬ (c = '&' ∧ (w ++ r).head? = some ':') := by
      rintro ⟨rfl, h⟩
      cases hw with
      | char _ _ _ _ _ _ h7 => exact h7 rfl
      | amp hne hw => exact head?_append_stop (piece_head hw).2.1 (fun h => absurd h hne) h
    have h2 : ¬ ((c = '+' ∨ c = '?' ∨ c = '!') ∧ (w ++ r).head? = some '=') := by
      rintro ⟨hc, h⟩
      cases hw with
      | char _ _ _ _ _ _ _ hw => exact head?_append_stop (piece_head hw).1 (fun _ => stopsWord_ne hs) h
      | amp => rcases hc with h | h | h <;> cases h
      | bs => rcases hc with h | h | h <;> cases h
      | quoted => rcases hc with h | h | h <;> cases h
      | dollar => rcases hc with h | h | h <;> cases h
      | ref => rcases hc with h | h | h <;> cases h
    simp only [hsc, hh.1, hh.2.1, h1, h2, if_false, e]
    simp

/-- The type of word of a sign. -/
def signType : RuleSign → MWordType
  | .colon => .colon
  | .dcolon => .dcolon
  | .ampcolon => .ampcolon
  | .ampdcolon => .ampdcolon

theorem getNextMword_sign {sep : Str} {k : RuleSign} {rest stale : Str} (hsep : ∀ c ∈ sep, isBlank c = true)
    (hk : k.Ends rest stale) :
    getNextMword (sep ++ (k.text ++ rest)) stale = { type := signType k, word := k.text, rest := rest } := by
  unfold getNextMword
  rw [dropWhile_blanks hsep (by intro c hc; cases k <;> simp [RuleSign.text] at hc <;> subst hc <;> decide)]
  cases k with
  | colon =>
    simp only [RuleSign.text, RuleSign.Ends] at hk ⊢
    rcases rest with _ | ⟨c, rest⟩
    · simp [signType]
    · simp only [List.head?_cons, ne_eq, Option.some.injEq] at hk
      simp [signType]
      split
      · simp_all
      · simp_all
      · rfl
  | dcolon =>
    simp only [RuleSign.text, RuleSign.Ends] at hk ⊢
    rcases rest with _ | ⟨c, rest⟩
    · simp [signType, hk]
    · simp at hk
      simp [signType, hk]
  | ampcolon =>
    simp only [RuleSign.text, RuleSign.Ends] at hk ⊢
    rcases rest with _ | ⟨c, rest⟩
    · simp [signType]
    · simp only [List.head?_cons, ne_eq, Option.some.injEq] at hk
      simp [signType, hk]
  | ampdcolon =>
    simp [RuleSign.text, signType]

theorem sign_stops (k : RuleSign) (rest : Str) : StopsWord (k.text ++ rest) := by
  cases k with
  | colon => simp [StopsWord, RuleSign.text]
  | dcolon => simp [StopsWord, RuleSign.text]
  | ampcolon => exact .inr (.inr (.inr (.inr ⟨rest, rfl⟩)))
  | ampdcolon => exact .inr (.inr (.inr (.inr ⟨':' :: rest, rfl⟩)))

/-- Blanks, and then something that ends a word. -/
theorem blanks_stop {sep t : Str} (hsep : ∀ c ∈ sep, isBlank c = true) (h : sep ≠ [] ∨ StopsWord t) :
    StopsWord (sep ++ t) := by
  cases sep with
  | nil => rcases h with h | h
           · exact absurd rfl h
           · exact h
  | cons b sep =>
    have := hsep b (by simp)
    simp only [isBlank, Bool.or_eq_true, beq_iff_eq] at this
    rcases this with rfl | rfl <;> simp [StopsWord]

/-- After a word of a list. -/
theorem leads_stop {ps : List Lead} (hb : ∀ p ∈ ps, ∀ c ∈ p.sep, isBlank c = true) (hne : ∀ p ∈ ps, p.sep ≠ [])
    {t : Str} (h : StopsWord t) : StopsWord (leadText ps ++ t) := by
  cases ps with
  | nil => simpa [leadText] using h
  | cons q qs =>
    simp only [leadText, List.flatMap_cons, List.append_assoc]
    exact blanks_stop (hb q (by simp)) (.inl (hne q (by simp)))

/-- A text in which no semicolon is to be looked for, or none is. -/
def NoSemi (semi : Option Str) (t : Str) : Prop := semi = none → ';' ∉ t

theorem findSemi_none {x : σ → Str → σ × Str} {s : σ} {p2 lb : Str} {semi : Option Str} (h : NoSemi semi p2) :
    findSemi x s p2 lb semi = (s, p2, lb, semi) := by
  cases semi with
  | some c => rfl
  | none => simp only [findSemi, findCharUnquote_none (h rfl)]

/-- The search for the colon when it is in the text itself. -/
theorem colonLoop_sign {x : σ → Str → σ × Str} (hx : LiteralText x) {k : RuleSign} {sep rest stale : Str}
    {semi : Option Str} (hsep : ∀ c ∈ sep, isBlank c = true) (hk : k.Ends rest stale) :
    ∀ (ps : List Lead) (s : σ) (buf p2 : Str), WordRow ps → (∀ p ∈ ps, p.sep ≠ []) → ':' ∉ p2 → NoSemi semi p2 →
      (∀ t ∈ (expandAll x s (ps.map (·.word))).2, ':' ∉ t ∧ NoSemi semi t) →
      colonLoop x s buf p2 (leadText ps ++ (sep ++ (k.text ++ rest))) stale semi =
        ((expandAll x s (ps.map (·.word))).1,
          .colon (buf ++ p2 ++ ((expandAll x s (ps.map (·.word))).2.flatMap fun t => ' ' :: t) ++ ' ' ::
            (if k.grouped then ['&'] else [])) (if k.double then [':'] else []) rest semi) := by
  intro ps
  induction ps with
  | nil =>
    intro s buf p2 _ _ h1 h2 _
    rw [colonLoop.eq_def]
    simp only [findSemi_none h2, findCharUnquote_none h1, leadText, List.flatMap_nil, List.nil_append,
      getNextMword_sign hsep hk]
    have ht : signType k ≠ .eol := by cases k <;> decide
    have hd : '$' ∉ k.text := by cases k <;> decide
    rw [dif_neg ht, hx _ _ hd, if_neg (by simp), colonLoop.eq_def]
    have hs : NoSemi semi k.text := fun _ => by cases k <;> decide
    simp only [findSemi_none hs]
    cases k <;> simp [RuleSign.text, RuleSign.grouped, RuleSign.double, expandAll] <;>
      simp [findCharUnquote, findCharUnquoteGo, bsCount, halveBs]
  | cons p ps ih =>
    intro s buf p2 hps hne h1 h2 h3
    have hp := hps.1 p (by simp)
    have hps' : WordRow ps := ⟨fun q hq => hps.1 q (by simp [hq]), fun q hq => hps.2 q (by
      simpa using List.mem_of_mem_tail hq)⟩
    have hs : StopsWord (leadText ps ++ (sep ++ (k.text ++ rest))) :=
      leads_stop (fun q hq => (hps'.1 q hq).1) (fun q hq => hne q (by simp [hq])) (blanks_stop hsep (.inr (sign_stops k rest)))
    obtain ⟨t, ht, em⟩ := getNextMword_piece (stale := stale) hp.1 hp.2.1 hp.2.2.1 hp.2.2.2 hs
    have el : leadText (p :: ps) ++ (sep ++ (k.text ++ rest)) =
        p.sep ++ (p.word ++ (leadText ps ++ (sep ++ (k.text ++ rest)))) := by
      simp [leadText, List.append_assoc]
    rw [el, colonLoop.eq_def]
    simp only [findSemi_none h2, findCharUnquote_none h1, em]
    have ht' : t ≠ .eol := by rcases ht with rfl | rfl <;> decide
    simp only [List.map_cons, expandAll, List.mem_cons, forall_eq_or_imp] at h3
    rw [dif_neg ht', if_neg (by simp),
      ih (x s p.word).1 _ _ hps' (fun q hq => hne q (by simp [hq])) h3.1.1 h3.1.2 h3.2]
    simp [expandAll, List.append_assoc]

/-- The end of the line without a colon. -/
theorem getNextMword_eol {sep stale : Str} (hsep : ∀ c ∈ sep, isBlank c = true) :
    getNextMword sep stale = { type := .eol, word := [], rest := [] } := by
  unfold getNextMword
  have : sep.dropWhile isBlank = [] := by
    have := dropWhile_blanks (sep := sep) (r := []) hsep (by simp)
    simpa using this
  rw [this]

/-- No colon: the end of the line. -/
theorem colonLoop_eol {x : σ → Str → σ × Str} {sep stale : Str}
    {semi : Option Str} (hsep : ∀ c ∈ sep, isBlank c = true) :
    ∀ (ps : List Lead) (s : σ) (buf p2 : Str), WordRow ps → (∀ p ∈ ps, p.sep ≠ []) →
      ':' ∉ p2 → NoSemi semi p2 →
      (∀ t ∈ (expandAll x s (ps.map (·.word))).2, ':' ∉ t ∧ NoSemi semi t) →
      colonLoop x s buf p2 (leadText ps ++ sep) stale semi =
        ((expandAll x s (ps.map (·.word))).1,
          .eol (buf ++ p2 ++ ((expandAll x s (ps.map (·.word))).2.flatMap fun t => ' ' :: t))) := by
  intro ps
  induction ps with
  | nil =>
    intro s buf p2 _ _ h1 h2 _
    rw [colonLoop.eq_def]
    simp only [findSemi_none h2, findCharUnquote_none h1, leadText, List.flatMap_nil, List.nil_append,
      getNextMword_eol hsep, expandAll, List.map_nil, dif_pos, List.append_nil]
  | cons p ps ih =>
    intro s buf p2 hps hne h1 h2 h3
    have hp := hps.1 p (by simp)
    have hps' : WordRow ps := ⟨fun q hq => hps.1 q (by simp [hq]), fun q hq => hps.2 q (by
      simpa using List.mem_of_mem_tail hq)⟩
    have hs : StopsWord (leadText ps ++ sep) := by
      refine leads_stop (fun q hq => (hps'.1 q hq).1) (fun q hq => hne q (by simp [hq])) ?_
      have := blanks_stop (t := []) hsep (.inr (.inl rfl))
      simpa using this
    obtain ⟨t, ht, em⟩ := getNextMword_piece (stale := stale) hp.1 hp.2.1 hp.2.2.1 hp.2.2.2 hs
    have el : leadText (p :: ps) ++ sep = p.sep ++ (p.word ++ (leadText ps ++ sep)) := by
      simp [leadText, List.append_assoc]
    rw [el, colonLoop.eq_def]
    simp only [findSemi_none h2, findCharUnquote_none h1, em]
    have ht' : t ≠ .eol := by rcases ht with rfl | rfl <;> decide
    simp only [List.map_cons, expandAll, List.mem_cons, forall_eq_or_imp] at h3
    rw [dif_neg ht', if_neg (by simp),
      ih (x s p.word).1 _ _ hps' (fun q hq => hne q (by simp [hq])) h3.1.1 h3.1.2 h3.2]
    simp [expandAll, List.append_assoc]

end Remake
