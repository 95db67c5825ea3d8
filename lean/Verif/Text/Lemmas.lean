import Verif.Text.Model
import Verif.Text.Spec
set_option linter.unusedVariables false
/-! Helper lemmas for the text functions. -/
namespace Remake
open Spec

/-! ### words -/

theorem wordsOf_nil : wordsOf [] = [] := by simp [wordsOf]

theorem wordsOf_cons_space {c : Char} (h : isSpace c = true) (s : Str) :
    wordsOf (c :: s) = wordsOf s := by
  unfold wordsOf
  rw [List.splitOnP_cons_eq_if_modifyHead]
  simp [h]

theorem wordsOf_dropWhile (s : Str) : wordsOf (s.dropWhile isSpace) = wordsOf s := by
  induction s with
  | nil => rfl
  | cons c cs ih =>
    rw [List.dropWhile_cons]
    split
    · rename_i h; rw [ih, wordsOf_cons_space h]
    · rfl

theorem wordsOf_word {w : Str} (hw : w ≠ []) (hns : ∀ c ∈ w, isSpace c = false) :
    wordsOf w = [w] := by
  unfold wordsOf
  rw [List.splitOnP_eq_singleton (by simpa using hns)]
  simp [hw]

theorem wordsOf_word_sep {w : Str} {c : Char} (r : Str) (hw : w ≠ [])
    (hns : ∀ c ∈ w, isSpace c = false) (hc : isSpace c = true) :
    wordsOf (w ++ c :: r) = w :: wordsOf r := by
  unfold wordsOf
  rw [List.splitOnP_append_cons_of_forall_mem (by simpa using hns) _ hc]
  simp [hw]

theorem wordsOf_token (s : Str) :
    wordsOf s = match findNextToken s with
      | none => []
      | some (t, r) => t :: wordsOf r := by
  rw [← wordsOf_dropWhile]
  unfold findNextToken nextToken
  match h : s.dropWhile isSpace with
  | [] => simp [wordsOf_nil]
  | c :: cs =>
    have hc : isSpace c = false := by
      have := List.head_dropWhile_not isSpace (l := s) (by simp [h])
      simpa [h] using this
    simp only
    have hsplit := (List.takeWhile_append_dropWhile (p := fun c => !isSpace c) (l := c :: cs)).symm
    have htne : tokenPrefix (c :: cs) ≠ [] := by simp [tokenPrefix, hc]
    have htns : ∀ d ∈ tokenPrefix (c :: cs), isSpace d = false := by
      intro d hd
      have := mem_takeWhile_imp hd
      simpa using this
    match he : endOfToken (c :: cs) with
    | [] =>
      have : c :: cs = tokenPrefix (c :: cs) := by
        unfold tokenPrefix; unfold endOfToken at he; rw [he] at hsplit; simpa using hsplit
      rw [wordsOf_nil, ← this]
      exact wordsOf_word (this ▸ htne) (this ▸ htns)
    | d :: ds =>
      have hd : isSpace d = true := by
        have := List.head_dropWhile_not (fun c => !isSpace c) (l := c :: cs)
          (by unfold endOfToken at he; simp [he])
        unfold endOfToken at he
        simpa [he] using this
      have : c :: cs = tokenPrefix (c :: cs) ++ d :: ds := by
        unfold tokenPrefix; unfold endOfToken at he; rw [he] at hsplit; simpa using hsplit
      rw [wordsOf_cons_space hd]
      conv => lhs; rw [this]
      rw [wordsOf_word_sep ds htne htns hd]

theorem tokens_eq (s : Str) : tokens s = wordsOf s := by
  fun_induction tokens s with
  | case1 s h => rw [wordsOf_token, h]
  | case2 s t r h ih => rw [wordsOf_token, h, ih]

theorem wordsOf_append_space (a b : Str) (hb : ∀ c, b.head? = some c → isSpace c = true) :
    wordsOf (a ++ b) = wordsOf a ++ wordsOf b := by
  unfold wordsOf
  match b, hb with
  | [], _ => simp
  | c :: cs, hb =>
    have hc : isSpace c = true := hb c rfl
    rw [List.splitOnP_append_cons _ _ hc]
    rw [List.splitOnP_cons_eq_if_modifyHead (x := c)]
    simp [hc]

theorem mem_wordsOf {w s : Str} (h : w ∈ wordsOf s) : w ≠ [] ∧ ∀ c ∈ w, isSpace c = false := by
  generalize hn : s.length = n
  induction n using Nat.strongRecOn generalizing s with
  | _ n ih =>
    rw [wordsOf_token] at h
    split at h
    · simp at h
    · rename_i t r htr
      simp only [List.mem_cons] at h
      cases h with
      | inr h => exact ih r.length (hn ▸ findNextToken_lt htr) h rfl
      | inl h =>
        subst h
        unfold findNextToken at htr
        split at htr
        · cases htr
        · rename_i p hp
          simp only [Option.some.injEq, Prod.mk.injEq] at htr
          obtain ⟨rfl, -⟩ := htr
          constructor
          · match hq : nextToken s with
            | [] => exact absurd hq hp
            | c :: cs =>
              have hc : isSpace c = false := by
                have := List.head_dropWhile_not isSpace (l := s) (by unfold nextToken at hq; simp [hq])
                unfold nextToken at hq
                simpa [hq] using this
              simp [tokenPrefix, hc]
          · intro d hd
            have := mem_takeWhile_imp hd
            simpa using this

/-! ### output loops -/

theorem unwords_cons (w : Str) (ws : List Str) :
    unwords (w :: ws) = if ws = [] then w else w ++ ' ' :: unwords ws := by
  unfold unwords
  cases ws with
  | nil => simp
  | cons x xs => simp [List.intercalate, List.intersperse]

theorem dropLast_flatMap_space (xs : List Str) (h : xs ≠ []) :
    (xs.flatMap (fun w => w ++ [' '])).dropLast = unwords xs := by
  induction xs with
  | nil => exact absurd rfl h
  | cons w ws ih =>
    rw [unwords_cons]
    by_cases hws : ws = []
    · subst hws; simp
    · simp only [hws, if_false, List.flatMap_cons]
      have hne : ws.flatMap (fun w => w ++ [' ']) ≠ [] := by
        cases ws with
        | nil => exact absurd rfl hws
        | cons x xs => simp
      rw [List.dropLast_append_of_ne_nil hne, ih hws]
      simp

/-- The output pattern shared by all word functions. -/
theorem foldl_words_out_mem {α : Type} (step : Str × Bool → α → Str × Bool) (f : α → Option Str)
    (ws : List α) (hstep : ∀ w ∈ ws, ∀ st, step st w = match f w with
      | some x => (st.1 ++ x ++ [' '], true)
      | none => st) :
    killLast (ws.foldl step ([], false)).2 (ws.foldl step ([], false)).1
      = unwords (ws.filterMap f) := by
  have key : ∀ (ws : List α), (∀ w ∈ ws, ∀ st, step st w = match f w with
      | some x => (st.1 ++ x ++ [' '], true)
      | none => st) → ∀ (o : Str) (b : Bool),
      ws.foldl step (o, b) =
        (o ++ (ws.filterMap f).flatMap (fun w => w ++ [' ']), b || !(ws.filterMap f).isEmpty) := by
    intro ws
    induction ws with
    | nil => intro _ o b; simp
    | cons w ws ih =>
      intro hs o b
      have ih := ih (fun v hv => hs v (by simp [hv]))
      rw [List.foldl_cons, hs w (by simp)]
      cases hf : f w with
      | none => simp [hf, ih]
      | some x => simp [hf, ih]
  rw [key ws hstep]
  unfold killLast
  cases hx : ws.filterMap f with
  | nil => simp [unwords]
  | cons x xs =>
    simp only [List.isEmpty_cons, Bool.not_false, Bool.or_true, if_true, List.nil_append]
    exact dropLast_flatMap_space _ (by simp)

theorem foldl_words_out {α : Type} (step : Str × Bool → α → Str × Bool) (f : α → Option Str)
    (hstep : ∀ st w, step st w = match f w with
      | some x => (st.1 ++ x ++ [' '], true)
      | none => st) (ws : List α) :
    killLast (ws.foldl step ([], false)).2 (ws.foldl step ([], false)).1
      = unwords (ws.filterMap f) :=
  foldl_words_out_mem step f ws (fun w _ st => hstep st w)

theorem wordsOf_unwords {ws : List Str}
    (h : ∀ w ∈ ws, w ≠ [] ∧ ∀ c ∈ w, isSpace c = false) : wordsOf (unwords ws) = ws := by
  induction ws with
  | nil => simp [unwords, wordsOf]
  | cons w ws ih =>
    rw [unwords_cons]
    have hw := h w (by simp)
    split
    · rename_i hws; subst hws; exact wordsOf_word hw.1 hw.2
    · rw [wordsOf_word_sep _ hw.1 hw.2 (by decide), ih (fun v hv => h v (by simp [hv]))]

end Remake

namespace Remake
open Spec

theorem findNextToken_spec {s t r : Str} (h : findNextToken s = some (t, r)) :
    (∃ a, s = a ++ t ++ r ∧ ∀ c ∈ a, isSpace c = true) ∧ t ≠ [] ∧ (∀ c ∈ t, isSpace c = false) ∧
      (∀ c, r.head? = some c → isSpace c = true) ∧ nextToken s = t ++ r := by
  have hw : t ∈ wordsOf s := by rw [wordsOf_token, h]; simp
  have hm := mem_wordsOf hw
  unfold findNextToken at h
  split at h
  · cases h
  · rename_i p hp
    simp only [Option.some.injEq, Prod.mk.injEq] at h
    obtain ⟨rfl, rfl⟩ := h
    have hn : nextToken s = tokenPrefix (nextToken s) ++ endOfToken (nextToken s) := by
      unfold tokenPrefix endOfToken
      exact (List.takeWhile_append_dropWhile).symm
    refine ⟨⟨s.takeWhile isSpace, ?_, fun c hc => mem_takeWhile_imp hc⟩, hm.1, hm.2, ?_, hn⟩
    · rw [List.append_assoc, ← hn]
      unfold nextToken
      exact (List.takeWhile_append_dropWhile).symm
    · intro c hc
      unfold endOfToken at hc
      have := List.head_dropWhile_not (fun c => !isSpace c) (l := nextToken s)
        (by intro hnil; rw [hnil] at hc; simp at hc)
      rw [List.head?_eq_some_head (by intro hnil; rw [hnil] at hc; simp at hc)] at hc
      simp only [Option.some.injEq] at hc
      rw [hc] at this
      simpa using this

theorem wordGo_eq (i : Int) (hi : 1 ≤ i) (s : Str) :
    wordGo i s = .ok ((wordsOf s)[i.toNat - 1]?.getD []) := by
  fun_induction wordGo i s with
  | case1 i s h => rw [wordsOf_token, h]; simp
  | case2 i s t r h hlt => simp [intMin] at hlt; omega
  | case3 i s t r h hlt h0 =>
    have : i = 1 := by omega
    subst this
    rw [wordsOf_token, h]; simp
  | case4 i s t r h hlt h0 ih =>
    rw [ih (by omega), wordsOf_token s, h]
    have : i.toNat - 1 = ((i - 1).toNat - 1) + 1 := by omega
    rw [this, List.getElem?_cons_succ]

theorem wordlistStart_none {n : Nat} {s : Str} (hn : 1 ≤ n) (h : wordlistStart n s = none) :
    (wordsOf s).length < n := by
  fun_induction wordlistStart n s with
  | case1 n s hf => rw [wordsOf_token, hf]; simp; omega
  | case2 => cases h
  | case3 n s t r hf h0 ih =>
    rw [wordsOf_token, hf]
    have := ih (by omega) h
    simp; omega

theorem wordlistStart_some {n : Nat} {s p e : Str} (hn : 1 ≤ n)
    (h : wordlistStart n s = some (p, e)) :
    ∃ a w, s = a ++ p ∧ p = w ++ e ∧ w ≠ [] ∧ (∀ c ∈ w, isSpace c = false) ∧
      (∀ c, e.head? = some c → isSpace c = true) ∧
      (wordsOf s).drop (n - 1) = w :: wordsOf e := by
  fun_induction wordlistStart n s with
  | case1 => cases h
  | case2 n s t r hf h0 =>
    simp only [Option.some.injEq, Prod.mk.injEq] at h
    obtain ⟨rfl, rfl⟩ := h
    obtain ⟨⟨a, ha, has⟩, h1, h2, h3, h4⟩ := findNextToken_spec hf
    refine ⟨a, t, ?_, h4, h1, h2, h3, ?_⟩
    · rw [h4, ha]; simp
    · rw [wordsOf_token s, hf]
      simp [show n - 1 = 0 by omega]
  | case3 n s t r hf h0 ih =>
    obtain ⟨a', w, hs, hp, h1, h2, h3, h4⟩ := ih (by omega) h
    obtain ⟨⟨a, ha, has⟩, -⟩ := findNextToken_spec hf
    refine ⟨a ++ t ++ a', w, ?_, hp, h1, h2, h3, ?_⟩
    · rw [ha, hs]; simp
    · rw [wordsOf_token s, hf]
      simp only
      have : n - 1 = (n - 1 - 1) + 1 := by omega
      rw [this, List.drop_succ_cons, h4]

theorem wordlistEnd_spec (c : Nat) (hc : 1 ≤ c) (e : Str)
    (he : ∀ c, e.head? = some c → isSpace c = true) :
    ∃ m, e = m ++ wordlistEnd c e ∧ wordsOf m = (wordsOf e).take (c - 1) ∧
      (m = [] ∨ ∃ x, m.getLast? = some x ∧ isSpace x = false) ∧
      (∀ c, m.head? = some c → isSpace c = true) := by
  fun_induction wordlistEnd c e with
  | case1 c e h0 => exact ⟨[], by simp, by simp [h0, wordsOf], by simp, by simp⟩
  | case2 c e h0 hf =>
    refine ⟨[], by simp, ?_, by simp, by simp⟩
    rw [wordsOf_token e, hf]; simp [wordsOf]
  | case3 c e h0 t r hf ih =>
    obtain ⟨⟨a, ha, has⟩, h1, h2, h3, h4⟩ := findNextToken_spec hf
    obtain ⟨m, hm, hmw, hml, hmh⟩ := ih (by omega) h3
    have hane : a ≠ [] := by
      intro h; subst h
      cases t with
      | nil => exact h1 rfl
      | cons x xs =>
        have := he x (by rw [ha]; simp)
        rw [h2 x (by simp)] at this; cases this
    refine ⟨a ++ t ++ m, ?_, ?_, ?_, ?_⟩
    · rw [ha, List.append_assoc (a ++ t), ← hm]
    · have hwt : wordsOf (a ++ t ++ m) = t :: wordsOf m := by
        rw [wordsOf_append_space _ _ hmh]
        have : wordsOf (a ++ t) = [t] := by
          rw [← wordsOf_dropWhile]
          have : (a ++ t).dropWhile isSpace = t := by
            rw [List.dropWhile_append_of_pos (by simpa using has)]
            cases t with
            | nil => rfl
            | cons x xs => rw [List.dropWhile_cons_of_neg (by simp [h2 x])]
          rw [this]; exact wordsOf_word h1 h2
        rw [this]; simp
      rw [hwt, hmw, wordsOf_token e, hf]
      have : c - 1 = (c - 1 - 1) + 1 := by omega
      simp only
      rw [this, List.take_succ_cons]
      simp
    · right
      rcases hml with rfl | ⟨x, hx, hxs⟩
      · refine ⟨t.getLast h1, ?_, h2 _ (List.getLast_mem h1)⟩
        simp [List.getLast?_append, List.getLast?_eq_some_getLast h1]
      · exact ⟨x, by simp [List.getLast?_append, hx], hxs⟩
    · intro x hx
      cases a with
      | nil => exact absurd rfl hane
      | cons y ys => simp at hx; subst hx; exact has _ (by simp)

/-! ### numerals -/

theorem toDigits_all_digit (n : Nat) : ∀ c ∈ Nat.toDigits 10 n, isDigitC c = true := by
  intro c hc
  have := Nat.isDigit_of_mem_toDigits (b := 10) (n := n) (c := c) (by decide) (by decide) hc
  unfold Char.isDigit at this
  unfold isDigitC
  simp only [ge_iff_le, Bool.and_eq_true, decide_eq_true_eq] at this ⊢
  exact this

theorem digitsVal_append (a b : Str) :
    digitsVal (a ++ b) = b.foldl (fun v c => 10 * v + (c.toNat - '0'.toNat)) (digitsVal a) := by
  unfold digitsVal; rw [List.foldl_append]

theorem numeral_eq (n : Nat) : numeral n = Nat.toDigits 10 n := by
  unfold numeral
  simp [toString, Nat.repr]

theorem digitChar_val (d : Nat) (h : d < 10) : (Nat.digitChar d).toNat - '0'.toNat = d := by
  match d, h with
  | 0, _ | 1, _ | 2, _ | 3, _ | 4, _ | 5, _ | 6, _ | 7, _ | 8, _ | 9, _ => rfl

theorem digitsVal_toDigits (n : Nat) : digitsVal (Nat.toDigits 10 n) = n := by
  induction n using Nat.strongRecOn with
  | _ n ih =>
    by_cases h : n < 10
    · rw [Nat.toDigits_of_lt_base h]
      simp only [digitsVal, List.foldl_cons, List.foldl_nil]
      rw [digitChar_val n h]; omega
    · have h10 : 10 ≤ n := by omega
      have : n = 10 * (n / 10) + n % 10 := by omega
      conv => lhs; rw [this]
      rw [← Nat.toDigits_append_toDigits (by omega) (by omega) (by omega), digitsVal_append, ih (n / 10) (by omega)]
      rw [Nat.toDigits_of_lt_base (by omega)]
      simp only [List.foldl_cons, List.foldl_nil]
      rw [digitChar_val _ (by omega)]; omega

theorem isDigit_not_space {c : Char} (h : isDigitC c = true) : isSpace c = false := by
  unfold isDigitC at h
  simp only [Bool.and_eq_true, decide_eq_true_eq, Char.le_def] at h
  have h1 : 48 ≤ c.toNat := by
    exact UInt32.le_iff_toNat_le.mp h.1
  unfold isSpace isBlank isNewlineClass
  simp only [Bool.or_eq_false_iff, beq_eq_false_iff_ne, ne_eq]
  refine ⟨⟨?_, ?_⟩, ⟨⟨?_, ?_⟩, ?_⟩, ?_⟩ <;> (intro hc; subst hc; revert h1; decide)

theorem toDigits_ne_nil (n : Nat) : Nat.toDigits 10 n ≠ [] := by
  intro h
  have := Nat.length_toDigits_pos (b := 10) (n := n)
  rw [h] at this; simp at this

theorem digitsVal_zeros (z : Nat) (ds : Str) :
    digitsVal (List.replicate z '0' ++ ds) = digitsVal ds := by
  have : digitsVal (List.replicate z '0') = 0 := by
    induction z with
    | zero => rfl
    | succ z ih =>
      rw [List.replicate_succ', digitsVal_append, ih]; rfl
  rw [digitsVal_append, this]; rfl

theorem stripWhitespace_pad {a m b : Str} (ha : ∀ c ∈ a, isSpace c = true)
    (hb : ∀ c ∈ b, isSpace c = true) (hm : m ≠ [])
    (hmh : isSpace (m.head hm) = false) (hml : isSpace (m.getLast hm) = false) :
    stripWhitespace (a ++ m ++ b) = m := by
  unfold stripWhitespace
  rw [List.append_assoc, List.dropWhile_append_of_pos (by simpa using ha)]
  have h1 : (m ++ b).dropWhile isSpace = m ++ b := by
    cases m with
    | nil => exact absurd rfl hm
    | cons x xs => rw [List.cons_append, List.dropWhile_cons_of_neg (by simpa using hmh)]
  rw [h1, List.reverse_append, List.dropWhile_append_of_pos (by simpa using hb)]
  have h2 : m.reverse.dropWhile isSpace = m.reverse := by
    have hr : m.reverse ≠ [] := by simpa using hm
    cases hq : m.reverse with
    | nil => rfl
    | cons x xs =>
      have : m.getLast hm = x := by
        have := List.head_reverse (l := m) hr
        simp [hq] at this; exact this.symm
      rw [List.dropWhile_cons_of_neg (by rw [← this]; simp [hml])]
  rw [h2, List.reverse_reverse]

theorem isNumeral_digits {s : Str} {n : Nat} (h : IsNumeral s n) :
    ∃ a ds b, s = a ++ ds ++ b ∧ (∀ c ∈ a, isSpace c = true) ∧ (∀ c ∈ b, isSpace c = true) ∧
      ds ≠ [] ∧ (∀ c ∈ ds, isDigitC c = true) ∧ digitsVal ds = n := by
  obtain ⟨a, z, b, rfl, ha, hb⟩ := h
  rw [numeral_eq]
  refine ⟨a, _, b, rfl, by simpa using ha, by simpa using hb, ?_, ?_, ?_⟩
  · simp
  · intro c hc
    simp only [List.mem_append] at hc
    rcases hc with hc | hc
    · rw [List.eq_of_mem_replicate hc]; decide
    · exact toDigits_all_digit n c hc
  · rw [digitsVal_zeros, digitsVal_toDigits]

theorem checkNumeric_numeral {s : Str} {n : Nat} (h : IsNumeral s n) : checkNumeric s = true := by
  obtain ⟨a, ds, b, rfl, ha, hb, hne, hd, -⟩ := isNumeral_digits h
  unfold checkNumeric
  rw [stripWhitespace_pad ha hb hne (isDigit_not_space (hd _ (List.head_mem hne)))
    (isDigit_not_space (hd _ (List.getLast_mem hne)))]
  simp only [Bool.and_eq_true, List.all_eq_true]
  exact ⟨hd, by simp [hne]⟩

theorem takeWhile_append_all {p : Char → Bool} {m b : Str} (hm : ∀ c ∈ m, p c = true)
    (hb : ∀ c, b.head? = some c → p c = false) : (m ++ b).takeWhile p = m := by
  induction m with
  | nil =>
    cases b with
    | nil => rfl
    | cons x xs => simp [hb x rfl]
  | cons x xs ih =>
    simp [hm x (by simp), ih (fun c hc => hm c (by simp [hc]))]

theorem atoi_numeral_gen {s : Str} {n : Nat} (h : IsNumeral s n) :
    atoi s = Int.bmod (min n (2 ^ 63 - 1) : Nat) (2 ^ 32) := by
  obtain ⟨a, ds, b, rfl, ha, hb, hne, hd, hv⟩ := isNumeral_digits h
  unfold atoi
  rw [List.append_assoc, List.dropWhile_append_of_pos (by simpa using ha)]
  have h1 : (ds ++ b).dropWhile isSpace = ds ++ b := by
    cases ds with
    | nil => exact absurd rfl hne
    | cons x xs => rw [List.cons_append, List.dropWhile_cons_of_neg (by simp [isDigit_not_space (hd x (by simp))])]
  have h2 : (ds ++ b).takeWhile isDigitC = ds := by
    apply takeWhile_append_all hd
    intro c hc
    cases hdc : isDigitC c with
    | false => rfl
    | true =>
      have := hb c (List.mem_of_mem_head? hc)
      rw [isDigit_not_space hdc] at this; cases this
  rw [h1, h2, hv]

theorem atoi_numeral {s : Str} {n : Nat} (h : IsNumeral s n) (hn : n < 2 ^ 31) : atoi s = n := by
  rw [atoi_numeral_gen h, Nat.min_eq_left (by omega)]
  exact Int.bmod_eq_of_le (by omega) (by omega)

end Remake
