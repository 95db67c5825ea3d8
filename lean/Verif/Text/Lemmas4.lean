import Verif.Text.Lemmas3
set_option linter.unusedVariables false
/-! Helper lemmas: `%` patterns, filter, sort. -/
namespace Remake
open Spec

/-! ### patterns -/

theorem patMatch_iff {pre post t : Str} :
    patMatch pre post t = true ↔ ∃ stem, t = pre ++ stem ++ post := by
  unfold patMatch
  simp only [Bool.and_eq_true, Bool.not_eq_true', decide_eq_false_iff_not, Nat.not_lt, beq_iff_eq]
  constructor
  · rintro ⟨⟨h1, h2⟩, h3⟩
    refine ⟨(t.drop pre.length).take (t.length - post.length - pre.length), ?_⟩
    have e1 : t = t.take pre.length ++ t.drop pre.length := (List.take_append_drop _ _).symm
    have e2 : t.drop pre.length = (t.drop pre.length).take (t.length - post.length - pre.length) ++
        (t.drop pre.length).drop (t.length - post.length - pre.length) :=
      (List.take_append_drop _ _).symm
    have e3 : (t.drop pre.length).drop (t.length - post.length - pre.length) = post := by
      rw [List.drop_drop]
      have : pre.length + (t.length - post.length - pre.length) = t.length - post.length := by omega
      rw [this, h3]
    rw [e3] at e2
    rw [List.append_assoc, ← e2]
    conv => lhs; rw [e1, h2]
  · rintro ⟨stem, rfl⟩
    refine ⟨⟨by simp, by simp⟩, ?_⟩
    have : (pre ++ stem ++ post).length - post.length = (pre ++ stem).length := by
      simp only [List.length_append]; omega
    rw [this, List.drop_left]

theorem patMatch_stem (pre stem post : Str) :
    ((pre ++ stem ++ post).drop pre.length).take
      ((pre ++ stem ++ post).length - (pre.length + post.length)) = stem := by
  rw [List.append_assoc, List.drop_left]
  have : (pre ++ (stem ++ post)).length - (pre.length + post.length) = stem.length := by
    simp; omega
  rw [this, List.take_left]

theorem patternMatches_iff (p : Unq) (s : Str) : patternMatches p s = true ↔ p.toPct.Matches s := by
  cases p with
  | none t =>
    simp only [patternMatches, Unq.toPct, Pct.Matches, beq_iff_eq]
    exact eq_comm
  | found pre c post =>
    have := patMatch_iff (pre := pre) (post := post) (t := s)
    simp only [Unq.toPct, Pct.Matches, ← this]
    unfold patternMatches patMatch
    simp only [Bool.or_eq_true, decide_eq_true_eq, bne_iff_ne, ne_eq]
    split
    · rename_i h
      simp only [Bool.false_eq_true, false_iff, Bool.and_eq_true, Bool.not_eq_true',
        decide_eq_false_iff_not, beq_iff_eq]
      rintro ⟨⟨h1, h2⟩, h3⟩
      rcases h with h | h
      · exact h1 h
      · exact h h2
    · rename_i h
      simp only [not_or, Decidable.not_not] at h
      simp only [h.1, h.2, decide_false, Bool.not_false, beq_self_eq_true, Bool.true_and, beq_iff_eq]
      exact eq_comm

/-! ### filter -/

/-- Whether a search result used as a filter pattern selects a word. -/
def selects (p : Unq) (w : Str) : Bool := patternMatches p w

theorem markLinear_eq (p : Unq) (ws : List AWord) :
    markLinear p ws = ws.map (fun w => { w with matched := w.matched || selects p w.str }) := by
  unfold markLinear selects
  cases p with
  | found pre c post => rfl
  | none lit =>
    simp only
    apply List.map_congr_left
    intro w _
    have : (w.str.length == lit.length && lit.isPrefixOf w.str) = (lit == w.str) := by
      rw [Bool.eq_iff_iff]
      simp only [Bool.and_eq_true, beq_iff_eq, List.isPrefixOf_iff_prefix]
      constructor
      · rintro ⟨h1, h2⟩; exact h2.eq_of_length h1.symm
      · rintro rfl; simp
    rw [this]; rfl

theorem buildTable_mem (ws : List AWord) : ∀ (k : Nat) (tbl : Str → List Nat) (s : Str) (i : Nat),
    i ∈ buildTable k ws tbl s ↔ i ∈ tbl s ∨ ∃ j w, ws[j]? = some w ∧ w.str = s ∧ i = k + j := by
  induction ws with
  | nil => intro k tbl s i; simp [buildTable]
  | cons w ws ih =>
    intro k tbl s i
    rw [buildTable, ih]
    constructor
    · rintro (h | ⟨j, w', hj, hs, rfl⟩)
      · split at h
        · rename_i hk
          simp only [List.mem_cons] at h
          rcases h with rfl | h
          · exact Or.inr ⟨0, w, by simp, hk.symm, by simp⟩
          · exact Or.inl h
        · exact Or.inl h
      · exact Or.inr ⟨j + 1, w', by simpa using hj, hs, by omega⟩
    · rintro (h | ⟨j, w', hj, hs, rfl⟩)
      · left; split
        · exact List.mem_cons_of_mem _ h
        · exact h
      · cases j with
        | zero =>
          simp at hj; subst hj
          left; rw [if_pos hs.symm]; simp
        | succ j =>
          exact Or.inr ⟨j, w', by simpa using hj, hs, by omega⟩

theorem markHashed_eq (ws0 ws : List AWord) (h : ws.map (·.str) = ws0.map (·.str)) (p : Unq) :
    markHashed (buildTable 0 ws0 (fun _ => [])) p ws = markLinear p ws := by
  unfold markHashed
  cases p with
  | found pre c post => rfl
  | none lit =>
    rw [markLinear_eq]
    simp only
    apply List.ext_getElem
    · simp
    · intro i h1 h2
      simp only [List.getElem_mapIdx, List.getElem_map]
      have hi : i < ws.length := by simpa using h1
      have : (buildTable 0 ws0 (fun _ => []) lit).contains i = selects (.none lit) ws[i].str := by
        rw [Bool.eq_iff_iff, List.contains_iff_mem, buildTable_mem]
        simp only [List.not_mem_nil, false_or, Nat.zero_add]
        have hstr : ∀ j : Nat, (ws0[j]?).map (·.str) = (ws[j]?).map (·.str) := by
          intro j
          have := congrArg (fun l => l[j]?) h
          simpa [List.getElem?_map] using this.symm
        simp only [selects, patternMatches, beq_iff_eq]
        constructor
        · rintro ⟨j, w, hj, hs, rfl⟩
          have := hstr i
          rw [hj, List.getElem?_eq_getElem hi] at this
          simp at this
          rw [← this, hs]
        · intro hl
          have := hstr i
          rw [List.getElem?_eq_getElem hi] at this
          cases hw : ws0[i]? with
          | none => rw [hw] at this; simp at this
          | some w =>
            rw [hw] at this; simp at this
            exact ⟨i, w, hw, by rw [this, hl], rfl⟩
      rw [this]

theorem foldl_mark (hashing : Bool) (ws0 : List AWord) (ps : List Unq) : ∀ (ws : List AWord),
    ws.map (·.str) = ws0.map (·.str) →
    ps.foldl (fun ws p => if hashing then markHashed (buildTable 0 ws0 (fun _ => [])) p ws
        else markLinear p ws) ws =
      ws.map (fun w => { w with matched := w.matched || ps.any (fun p => selects p w.str) }) := by
  induction ps with
  | nil => intro ws h; simp
  | cons p ps ih =>
    intro ws h
    have h1 : (if hashing then markHashed (buildTable 0 ws0 (fun _ => [])) p ws else markLinear p ws)
        = markLinear p ws := by
      split
      · exact markHashed_eq ws0 ws h p
      · rfl
    rw [List.foldl_cons, h1, markLinear_eq, ih]
    · simp [Bool.or_assoc, Function.comp_def]
    · rw [← h]; simp [Function.comp_def]

/-! ### sort -/

theorem strcmp_eq_zero : ∀ {a b : Str}, strcmp a b = 0 ↔ a = b
  | [], [] => by simp [strcmp]
  | [], b :: bs => by simp [strcmp]
  | a :: as, [] => by simp [strcmp]
  | a :: as, b :: bs => by
    unfold strcmp
    by_cases h : a = b
    · simp [h, strcmp_eq_zero (a := as)]
    · simp only [h, if_false]
      split <;> simp [h]

theorem toNat_ne {a b : Char} (h : a ≠ b) : a.toNat ≠ b.toNat := by
  intro h'; exact h (Char.toNat_inj.mp h')

theorem strcmp_lt_zero : ∀ {a b : Str}, strcmp a b < 0 ↔ a < b
  | [], [] => by simp [strcmp]
  | [], b :: bs => by simp [strcmp]
  | a :: as, [] => by simp [strcmp]
  | a :: as, b :: bs => by
    unfold strcmp
    rw [List.cons_lt_cons_iff]
    by_cases h : a = b
    · subst h
      simp [strcmp_lt_zero (a := as), Char.lt_irrefl]
    · simp only [h, if_false, false_and, or_false]
      have : a < b ↔ a.toNat < b.toNat := Char.lt_def.trans UInt32.lt_iff_toNat_lt
      rw [this]
      split
      · rename_i h1; simp [h1]
      · rename_i h1; simp [h1]

theorem str_lt_trans {a b c : Str} (h1 : a < b) (h2 : b < c) : a < c := List.lt_trans h1 h2
theorem str_lt_irrefl (a : Str) : ¬ a < a := List.lt_irrefl a

theorem strcmp_anti {a b : Str} : strcmp a b > 0 ↔ strcmp b a < 0 := by
  induction a generalizing b with
  | nil => cases b <;> simp [strcmp]
  | cons x xs ih =>
    cases b with
    | nil => simp [strcmp]
    | cons y ys =>
      unfold strcmp
      by_cases h : x = y
      · subst h; simpa using ih
      · have h' : y ≠ x := Ne.symm h
        have := toNat_ne h
        simp only [h, h', if_false]
        by_cases h2 : x.toNat < y.toNat
        · have : ¬ y.toNat < x.toNat := by omega
          simp [h2, this]
        · have : y.toNat < x.toNat := by omega
          simp [h2, this]

theorem alpha_zero {a b : Str} : alphaCompare a b = 0 ↔ a = b := by
  unfold alphaCompare
  split
  · rename_i h
    constructor
    · intro h'; omega
    · rintro rfl; exact absurd rfl h
  · exact strcmp_eq_zero

theorem alpha_lt_iff {a b : Str} : alphaCompare a b < 0 ↔
    headSchar a < headSchar b ∨ (headSchar a = headSchar b ∧ a < b) := by
  unfold alphaCompare
  split
  · rename_i h; omega
  · rename_i h
    have h : headSchar a = headSchar b := by omega
    rw [strcmp_lt_zero]; simp [h]

theorem alpha_trans {a b c : Str} (h1 : alphaCompare a b < 0) (h2 : alphaCompare b c < 0) :
    alphaCompare a c < 0 := by
  rw [alpha_lt_iff] at *
  rcases h1 with h1 | ⟨h1, h1'⟩ <;> rcases h2 with h2 | ⟨h2, h2'⟩
  · left; omega
  · left; omega
  · left; omega
  · exact Or.inr ⟨by omega, str_lt_trans h1' h2'⟩

theorem alpha_irrefl (a : Str) : ¬ alphaCompare a a < 0 := by
  have : alphaCompare a a = 0 := alpha_zero.mpr rfl
  omega

theorem alpha_gt {a b : Str} : alphaCompare a b > 0 ↔ alphaCompare b a < 0 := by
  unfold alphaCompare
  by_cases h : headSchar a = headSchar b
  · simp [h, strcmp_anti]
  · have h' : headSchar b ≠ headSchar a := Ne.symm h
    simp [h, h']; omega

/-- The words left by the output loop. -/
def dedup : List Str → List Str
  | [] => []
  | [w] => [w]
  | w :: x :: ws => if w = x then dedup (x :: ws) else w :: dedup (x :: ws)

theorem sortOutGo_eq : ∀ (ws : List Str),
    sortOutGo ws = (dedup ws).flatMap (fun w => w ++ [' '])
  | [] => rfl
  | [w] => by simp [sortOutGo, dedup]
  | w :: x :: ws => by
    unfold sortOutGo dedup
    have : (x.length ≠ w.length ∨ strcmp w x ≠ 0) ↔ w ≠ x := by
      constructor
      · rintro (h | h)
        · intro h'; subst h'; exact h rfl
        · intro h'; exact h (strcmp_eq_zero.mpr h')
      · intro h; right; intro h'; exact h (strcmp_eq_zero.mp h')
    by_cases h : w = x
    · rw [if_neg (by rw [this]; simp [h]), if_pos h, sortOutGo_eq (x :: ws)]
    · rw [if_pos (this.mpr h), if_neg h, sortOutGo_eq (x :: ws)]; simp

theorem dedup_mem : ∀ (ws : List Str) (w : Str), w ∈ dedup ws ↔ w ∈ ws
  | [], w => by simp [dedup]
  | [x], w => by simp [dedup]
  | y :: x :: ws, w => by
    unfold dedup
    split
    · rename_i h; subst h
      rw [dedup_mem (y :: ws) w]; simp
    · rw [List.mem_cons, dedup_mem (x :: ws) w, List.mem_cons (b := y)]

theorem dedup_ne_nil : ∀ {ws : List Str}, ws ≠ [] → dedup ws ≠ []
  | [], h => absurd rfl h
  | [x], _ => by simp [dedup]
  | y :: x :: ws, _ => by
    unfold dedup
    split
    · exact dedup_ne_nil (by simp)
    · simp

theorem dedup_sorted : ∀ {ws : List Str}, ws.Pairwise (fun a b => alphaCompare a b ≤ 0) →
    (dedup ws).Pairwise (fun a b => alphaCompare a b < 0)
  | [], _ => by simp [dedup]
  | [x], _ => by simp [dedup]
  | y :: x :: ws, h => by
    unfold dedup
    rw [List.pairwise_cons] at h
    have ih := dedup_sorted h.2
    split
    · exact ih
    · rename_i hne
      rw [List.pairwise_cons]
      refine ⟨?_, ih⟩
      intro w hw
      rw [dedup_mem] at hw
      have hyx := h.1 x (by simp)
      have hyx' : alphaCompare y x < 0 := by
        have : alphaCompare y x ≠ 0 := fun h' => hne (alpha_zero.mp h')
        omega
      rcases List.mem_cons.mp hw with rfl | hw'
      · exact hyx'
      · have hxw := (List.pairwise_cons.mp h.2).1 w hw'
        by_cases h0 : alphaCompare x w = 0
        · rw [← alpha_zero.mp h0]; exact hyx'
        · exact alpha_trans hyx' (by omega)

theorem sorted_unique : ∀ {xs ys : List Str}, xs.Pairwise (fun a b => alphaCompare a b < 0) →
    ys.Pairwise (fun a b => alphaCompare a b < 0) → (∀ w, w ∈ xs ↔ w ∈ ys) → xs = ys
  | [], [], _, _, _ => rfl
  | [], y :: ys, _, _, h => by have := (h y).mpr (by simp); simp at this
  | x :: xs, [], _, _, h => by have := (h x).mp (by simp); simp at this
  | x :: xs, y :: ys, hx, hy, h => by
    rw [List.pairwise_cons] at hx hy
    have hxy : x = y := by
      have h1 := (h x).mp (by simp)
      have h2 := (h y).mpr (by simp)
      rcases List.mem_cons.mp h1 with h1 | h1
      · exact h1
      · rcases List.mem_cons.mp h2 with h2 | h2
        · exact h2.symm
        · exact absurd (alpha_trans (hx.1 y h2) (hy.1 x h1)) (alpha_irrefl x)
    subst hxy
    congr 1
    refine sorted_unique hx.2 hy.2 (fun w => ?_)
    have := h w
    simp only [List.mem_cons] at this
    constructor
    · intro hw
      rcases this.mp (Or.inr hw) with rfl | h'
      · exact absurd (hx.1 w hw) (alpha_irrefl w)
      · exact h'
    · intro hw
      rcases this.mpr (Or.inr hw) with rfl | h'
      · exact absurd (hy.1 w hw) (alpha_irrefl w)
      · exact h'

theorem sortScan_nul (junk : Str) : sortScan ('\x00' :: junk) = .ok [] := by
  rw [sortScan]
  split
  · rename_i h4; rw [List.dropWhile_cons_of_neg (by decide)] at h4; cases h4
  · rename_i h4; rw [List.dropWhile_cons_of_neg (by decide)] at h4; cases h4; simp

theorem sortScan_word {w : Str} {x : Char} {rest : Str} (hw : w ≠ [])
    (h : ∀ c ∈ w, (!isSpace c && c != '\x00') = true) (hx : (!isSpace x && x != '\x00') = false)
    {ws : List Str} (hr : sortScan rest = .ok ws) :
    sortScan (w ++ x :: rest) = .ok (w :: ws) := by
  have htake : (w ++ x :: rest).takeWhile (fun c => !isSpace c && c != '\x00') = w :=
    takeWhile_append_all h (by intro c hc; simp at hc; subst hc; exact hx)
  have hdrop : (w ++ x :: rest).dropWhile (fun c => !isSpace c && c != '\x00') = x :: rest := by
    have := List.takeWhile_append_dropWhile (p := fun c => !isSpace c && c != '\x00')
      (l := w ++ x :: rest)
    rw [htake] at this
    exact List.append_cancel_left this
  match w, hw with
  | y :: ys, _ =>
    have hy := h y (by simp)
    simp only [Bool.and_eq_true, Bool.not_eq_true', bne_iff_ne] at hy
    have hd : (y :: ys ++ x :: rest).dropWhile isSpace = y :: (ys ++ x :: rest) := by
      rw [List.cons_append, List.dropWhile_cons_of_neg (by simp [hy.1])]
    rw [sortScan]
    split
    · rename_i h'; rw [hd] at h'; cases h'
    · rename_i c cs h'
      rw [hd] at h'
      cases h'
      rw [if_neg hy.2]
      simp only
      rw [← List.cons_append]
      split
      · rename_i hh; rw [hdrop] at hh; cases hh
      · rename_i x' rest' hh
        rw [hdrop] at hh
        cases hh
        rw [htake, hr]

/-- Scanning memory `text NUL NUL ...`. -/
theorem sortScan_ok (text junk : Str) (hn : '\x00' ∉ text) :
    sortScan (text ++ '\x00' :: '\x00' :: junk) = .ok (wordsOf text) := by
  generalize hl : text.length = n
  induction n using Nat.strongRecOn generalizing text with
  | _ n ih =>
    rw [wordsOf_token]
    match h : findNextToken text with
    | none =>
      unfold findNextToken at h
      split at h
      · rename_i hh
        unfold nextToken at hh
        have hall : ∀ c ∈ text, isSpace c = true := by
          have := List.takeWhile_append_dropWhile (p := isSpace) (l := text)
          rw [hh] at this
          simp only [List.append_nil] at this
          intro c hc
          rw [← this] at hc
          exact mem_takeWhile_imp hc
        have : (text ++ '\x00' :: '\x00' :: junk).dropWhile isSpace = '\x00' :: '\x00' :: junk := by
          rw [List.dropWhile_append_of_pos (by simpa using hall)]
          rw [List.dropWhile_cons_of_neg (by decide)]
        rw [sortScan]
        split
        · rename_i h'; rw [this] at h'; cases h'
        · rename_i h'; rw [this] at h'; cases h'; simp
      · cases h
    | some (t, r) =>
      obtain ⟨⟨a, ha, has⟩, h1, h2, h3, -⟩ := findNextToken_spec h
      subst ha
      have hd : (a ++ t ++ r ++ '\x00' :: '\x00' :: junk).dropWhile isSpace =
          t ++ (r ++ '\x00' :: '\x00' :: junk) := by
        simp only [List.append_assoc]
        rw [List.dropWhile_append_of_pos (by simpa using has)]
        cases t with
        | nil => exact absurd rfl h1
        | cons x xs => rw [List.cons_append, List.dropWhile_cons_of_neg (by simp [h2 x])]
      have hnt : ∀ c ∈ t, (!isSpace c && c != '\x00') = true := by
        intro c hc
        have hcn : c ≠ '\x00' := by
          rintro rfl; exact hn (by simp [hc])
        simp [h2 c hc, hcn]
      have hhead : ∀ c, (r ++ '\x00' :: '\x00' :: junk).head? = some c →
          (!isSpace c && c != '\x00') = false := by
        intro c hc
        cases r with
        | nil => simp at hc; subst hc; decide
        | cons x xs => simp at hc; subst hc; simp [h3 x rfl]
      have htake : (t ++ (r ++ '\x00' :: '\x00' :: junk)).takeWhile
          (fun c => !isSpace c && c != '\x00') = t := takeWhile_append_all hnt hhead
      have hdrop : (t ++ (r ++ '\x00' :: '\x00' :: junk)).dropWhile
          (fun c => !isSpace c && c != '\x00') = r ++ '\x00' :: '\x00' :: junk := by
        have := List.takeWhile_append_dropWhile (p := fun c => !isSpace c && c != '\x00')
          (l := t ++ (r ++ '\x00' :: '\x00' :: junk))
        rw [htake] at this
        exact List.append_cancel_left this
      rw [sortScan]
      split
      · rename_i h'; rw [hd] at h'; simp at h'
      · rename_i c cs h'
        rw [hd] at h'
        have hc0 : c ≠ '\x00' := by
          cases t with
          | nil => exact absurd rfl h1
          | cons x xs =>
            simp at h'
            rw [← h'.1]; rintro rfl; exact hn (by simp)
        rw [if_neg hc0]
        simp only
        rw [← h']
        split
        · rename_i hh; rw [hdrop] at hh; simp at hh
        · rename_i x rest hh
          rw [hdrop] at hh
          rw [htake]
          cases r with
          | nil =>
            simp at hh
            have : rest = [] ++ '\x00' :: junk := by simp [hh.2]
            -- the second NUL ends the scan
            rw [← hh.2, wordsOf_nil]
            have h0 : sortScan ('\x00' :: junk) = .ok [] := by
              rw [sortScan]
              split
              · rename_i h4; rw [List.dropWhile_cons_of_neg (by decide)] at h4; cases h4
              · rename_i h4; rw [List.dropWhile_cons_of_neg (by decide)] at h4; cases h4; simp
            rw [h0]
          | cons y ys =>
            simp only [List.cons_append, List.cons.injEq] at hh
            rw [← hh.2, wordsOf_cons_space (h3 y rfl)]
            rw [ih ys.length (by rw [← hl]; simp; omega) ys
              (fun h => hn (by simp [h])) rfl]

/-- The word map of `patsubst_expand_pat`. -/
def patsubstF (pre post : Str) (rp : Pct) (w : Str) : Option Str :=
  if patMatch pre post w then
    match rp with
    | .lit r => if r = [] then none else some r
    | .pat a b => some (a ++ (w.drop pre.length).take (w.length - (pre.length + post.length)) ++ b)
  else some w

end Remake
