import Verif.Stale.Model
import Verif.Files.Static
import Verif.Text.Lemmas

/-!
# C154: the stem is put in through a live pointer
-/
set_option linter.unusedSimpArgs false
namespace Remake
open Spec

/-! ## Lemmas -/

theorem staleHalve_sublist (rev : Str) : (halveBs rev).Sublist rev := by
  have e : rev = rev.takeWhile (· == '\\') ++ rev.drop (bsCount rev) := by
    unfold bsCount
    conv => lhs; rw [← List.takeWhile_append_dropWhile (p := (· == '\\')) (l := rev)]
    congr 1
    induction rev with
    | nil => rfl
    | cons c cs ih => by_cases h : c == '\\' <;> simp_all [List.takeWhile_cons, List.dropWhile_cons]
  have r : rev.takeWhile (· == '\\') = List.replicate (bsCount rev) '\\' := by
    unfold bsCount
    refine List.eq_replicate_iff.2 ⟨rfl, fun c hc => ?_⟩
    have := List.all_eq_true.1 (List.all_takeWhile (p := (· == '\\')) (l := rev)) c hc
    simpa using this
  conv => rhs; rw [e, r]
  unfold halveBs
  refine List.Sublist.append ?_ (List.Sublist.refl _)
  exact List.replicate_sublist_replicate _ |>.2 (Nat.div_le_self _ _)

theorem staleFind_sublist (stop : Char) : ∀ (s rev pre post : Str) (c : Char),
    findCharUnquoteGo stop rev s = .found pre c post → (pre ++ c :: post).Sublist (rev.reverse ++ s) := by
  intro s
  induction s with
  | nil => intro rev pre post c h; simp [findCharUnquoteGo] at h
  | cons d ds ih =>
    intro rev pre post c h
    unfold findCharUnquoteGo at h
    split at h
    · split at h
      · cases h; exact List.Sublist.refl _
      · split at h
        · cases h
          exact List.Sublist.append (List.reverse_sublist.2 (staleHalve_sublist rev)) (List.Sublist.refl _)
        · have := ih _ _ _ _ h
          refine this.trans ?_
          simp only [List.reverse_cons, List.append_assoc, List.singleton_append]
          exact List.Sublist.append (List.reverse_sublist.2 (staleHalve_sublist rev)) (List.Sublist.refl _)
    · have := ih _ _ _ _ h
      simpa using this

theorem stalePercent_sublist {nm pre post : Str} {c : Char} (h : findPercent nm = .found pre c post) :
    (pre ++ c :: post).Sublist nm := by
  simpa using staleFind_sublist '%' nm [] pre post c h

theorem staleOut_text (move : Nat → Nat → Nat) (b : OutBuf) (s : Str) : (outPut move b s).text = b.text ++ s := by
  unfold outPut; split <;> rfl

theorem staleFold_text (move : Nat → Nat → Nat) : ∀ (l : List Str) (b : OutBuf),
    (l.foldl (outPut move) b).text = b.text ++ l.flatten := by
  intro l
  induction l with
  | nil => intro b; simp
  | cons s l ih => intro b; simp [ih, staleOut_text]

theorem staleFold_stay (move : Nat → Nat → Nat) : ∀ (l : List Str) (b : OutBuf),
    b.text.length + l.flatten.length + 5 ≤ b.len →
    (l.foldl (outPut move) b).base = b.base ∧ (l.foldl (outPut move) b).len = b.len := by
  intro l
  induction l with
  | nil => intro b _; simp
  | cons s l ih =>
    intro b h
    simp only [List.flatten_cons, List.length_append] at h
    have n : ¬ (s.length + b.text.length + 5 > b.len) := by omega
    have e : outPut move b s = { b with text := b.text ++ s } := by unfold outPut; rw [if_neg n]
    rw [List.foldl_cons, e]
    have := ih { b with text := b.text ++ s } (by simp only [List.length_append]; omega)
    exact this

theorem staleFold_same (move : Nat → Nat → Nat) (a : Nat) (hm : ∀ n, move a n = a) : ∀ (l : List Str) (b : OutBuf),
    b.base = a → (l.foldl (outPut move) b).base = a := by
  intro l
  induction l with
  | nil => intro b h; exact h
  | cons s l ih =>
    intro b h
    rw [List.foldl_cons]
    apply ih
    unfold outPut
    split
    · simp [h, hm]
    · exact h

theorem staleFold_away (move : Nat → Nat → Nat) (a : Nat) (hm : ∀ x n, move x n ≠ a) : ∀ (l : List Str) (b : OutBuf),
    b.base ≠ a → (l.foldl (outPut move) b).base ≠ a := by
  intro l
  induction l with
  | nil => intro b h; exact h
  | cons s l ih =>
    intro b h
    rw [List.foldl_cons]
    apply ih
    unfold outPut
    split
    · exact hm _ _
    · exact h

theorem staleFold_moves (move : Nat → Nat → Nat) (a : Nat) (hm : ∀ x n, move x n ≠ a) : ∀ (l : List Str) (b : OutBuf),
    l ≠ [] → b.len < b.text.length + l.flatten.length + 5 → (l.foldl (outPut move) b).base ≠ a := by
  intro l
  induction l with
  | nil => intro b h _; exact absurd rfl h
  | cons s l ih =>
    intro b _ h
    rw [List.foldl_cons]
    simp only [List.flatten_cons, List.length_append] at h
    by_cases g : s.length + b.text.length + 5 > b.len
    · apply staleFold_away move a hm
      unfold outPut; rw [if_pos g]; exact hm _ _
    · have e : outPut move b s = { b with text := b.text ++ s } := by unfold outPut; rw [if_neg g]
      rw [e]
      by_cases hl : l = []
      · subst hl; simp at h; omega
      · exact ih _ hl (by simp only [List.length_append]; omega)

/-- What `patsubst_expand_pat` puts out for the pattern `%`, before the last space is killed. -/
theorem stalePatsubst (pre post : Str) : ∀ (ts : List Str) (st : Str × Bool), (∀ t ∈ ts, t ≠ []) →
    ts.foldl (patsubstStep [] [] (.found pre '%' post)) st =
      (st.1 ++ (ts.flatMap fun t => [pre, t, post, [' ']]).flatten, st.2 || !ts.isEmpty) := by
  intro ts
  induction ts with
  | nil => intro st _; simp
  | cons t ts ih =>
    intro st h
    have ht : t ≠ [] := h t (by simp)
    have hp : 0 < t.length := List.length_pos_iff.2 ht
    have e : patsubstStep [] [] (.found pre '%' post) st t = (st.1 ++ pre ++ t ++ post ++ [' '], true) := by
      unfold patsubstStep patMatch
      simp [ht]
    rw [List.foldl_cons, e, ih _ fun u hu => h u (by simp [hu])]
    simp

theorem staleTokens_ne {stem t : Str} (h : t ∈ tokens stem) : t ≠ [] := by
  rw [tokens_eq] at h; exact (mem_wordsOf h).1

theorem staleName {stem pre post : Str} (hs : stem ≠ []) :
    patsubstExpandPat stem (.found [] '%' []) (.found pre '%' post) =
      if tokens stem = [] then [] else (stemPieces stem pre post).flatten.dropLast := by
  unfold patsubstExpandPat stemPieces killLast
  simp only [if_neg hs]
  rw [stalePatsubst _ _ _ _ fun t ht => staleTokens_ne ht]
  cases h : tokens stem <;> simp

/-- The end of the text of the pieces: a space. -/
theorem stalePieces_last {ts : List Str} (pre post : Str) (h : ts ≠ []) :
    ∃ x, (ts.flatMap fun t => [pre, t, post, [' ']]).flatten = x ++ [' '] := by
  obtain ⟨l, t, rfl⟩ : ∃ l t, ts = l ++ [t] := ⟨ts.dropLast, ts.getLast h, (List.dropLast_concat_getLast h).symm⟩
  exact ⟨(l.flatMap fun t => [pre, t, post, [' ']]).flatten ++ (pre ++ t ++ post), by simp⟩

theorem staleLen (move : Nat → Nat → Nat) : ∀ (l : List Str) (b : OutBuf), b.len ≤ (l.foldl (outPut move) b).len := by
  intro l
  induction l with
  | nil => intro b; exact Nat.le_refl _
  | cons s l ih =>
    intro b
    rw [List.foldl_cons]
    refine Nat.le_trans ?_ (ih _)
    unfold outPut
    split
    · dsimp only; split <;> omega
    · exact Nat.le_refl _

/-- The characters of a token are characters of the text. -/
theorem staleTokens_sub (s : Str) : ∀ t ∈ tokens s, ∀ c ∈ t, c ∈ s := by
  induction s using tokens.induct with
  | case1 s h => intro t ht; rw [tokens.eq_def] at ht; split at ht <;> simp_all
  | case2 s t r h ih =>
    intro u hu c hc
    have e : tokens s = t :: tokens r := by
      rw [tokens.eq_def]
      split
      · rename_i h'; rw [h] at h'; cases h'
      · rename_i h'; rw [h] at h'; cases h'; rfl
    rw [e] at hu
    unfold findNextToken at h
    split at h
    · cases h
    · rename_i hnt
      cases h
      have hsub : (nextToken s).Sublist s := List.dropWhile_sublist _
      rcases List.mem_cons.1 hu with rfl | hu
      · exact hsub.subset ((List.takeWhile_sublist _).subset hc)
      · exact hsub.subset ((List.dropWhile_sublist _).subset (ih u hu c hc))

theorem stale_mem {nm pre post : Str} {c : Char} (h : findPercent nm = .found pre c post) : '%' ∈ nm := by
  apply Decidable.byContradiction
  intro hn
  have := (ReadsAs_iff (by decide)).1 (ReadsAs.none hn)
  have e : findCharUnquote '%' nm = .found pre c post := h
  rw [e] at this
  cases this

/-- The names in terms of the reading of percent signs. -/
theorem stale_fill {stem : Str} {ps : List PreReq} {rd : Str → Pct} (hs : ∀ c ∈ stem, isSpace c = false)
    (hn : ∀ d ∈ ps, d.name ≠ []) (hrd : ∀ d ∈ ps, ReadsAs '%' d.name (rd d.name))
    (hq : ∀ d ∈ ps, ∀ t, rd d.name = .lit t → t = d.name) :
    stemPrereqs stem ps = ps.filterMap fun d =>
      if fillStem stem (rd d.name) = [] then none else some { d with name := fillStem stem (rd d.name) } := by
  unfold stemPrereqs
  have key : ∀ (l : List PreReq) (f g : PreReq → Option PreReq), (∀ d ∈ l, f d = g d) → l.filterMap f = l.filterMap g := by
    intro l f g h
    induction l with
    | nil => rfl
    | cons d l ih => rw [List.filterMap_cons, List.filterMap_cons, h d (by simp), ih fun e he => h e (by simp [he])]
  refine key _ _ _ fun d hd => ?_
  have e : (findPercent d.name).toPct = rd d.name := (ReadsAs_iff (by decide)).1 (hrd d hd)
  have f : stemPct stem d.name (rd d.name) = fillStem stem (rd d.name) := by
    have := hq d hd
    cases h : rd d.name with
    | lit t => rw [h] at this; exact (this t rfl).symm
    | pat a b => rfl
  rw [stemName_eq hs (hn d hd), e, f]
  split <;> rfl

/-- One prerequisite whose text was put out without moving the buffer is named as without a buffer. -/
theorem stale_one {stem nm pre post : Str} {c first : Char} (hf : findPercent nm = .found pre c post)
    (hn : Char.ofNat 0 ∉ nm) (hst : Char.ofNat 0 ∉ stem) (hi : stem ≠ [] → tokens stem = [] → first = Char.ofNat 0) :
    let text := (stemPieces stem pre post).flatten
    let first' := text.head?.getD first
    (stem ≠ [] → tokens stem = [] → first' = Char.ofNat 0) ∧
    stemName stem nm = if first' = Char.ofNat 0 then none else some (stemResult stem text) := by
  have hsub := stalePercent_sublist hf
  have hpp : ∀ x ∈ pre ++ post, x ≠ Char.ofNat 0 := by
    rintro x hx rfl
    apply hn
    apply hsub.subset
    simp only [List.mem_append, List.mem_cons] at hx ⊢
    rcases hx with h | h
    · exact Or.inl h
    · exact Or.inr (Or.inr h)
  unfold stemName
  simp only [hf]
  by_cases hs : stem = []
  · subst hs
    refine ⟨fun h => absurd rfl h, ?_⟩
    simp only [stemPieces, stemResult, if_true, List.flatten_cons, List.flatten_nil, List.append_nil]
    cases he : pre ++ post with
    | nil => simp
    | cons x xs =>
      rw [he] at hpp
      have hx : x ≠ Char.ofNat 0 := hpp x (by simp)
      have ht : (x :: xs ++ [Char.ofNat 0]).takeWhile (· ≠ Char.ofNat 0) = x :: xs := by
        rw [List.takeWhile_append_of_pos (by intro a ha; simpa using hpp a ha)]
        simp
      rw [ht]
      simp [hx]
  · simp only [if_neg hs]
    rw [staleName hs]
    by_cases ht : tokens stem = []
    · have hp : (stemPieces stem pre post) = [] := by simp [stemPieces, hs, ht]
      simp [hp, ht, hi hs ht]
    · refine ⟨fun _ h => absurd h ht, ?_⟩
      rw [if_neg ht]
      obtain ⟨t, ts, hts⟩ : ∃ t ts, tokens stem = t :: ts := by
        cases h : tokens stem with
        | nil => exact absurd h ht
        | cons t ts => exact ⟨t, ts, rfl⟩
      have htn : t ≠ [] := staleTokens_ne (stem := stem) (by rw [hts]; simp)
      have htm : ∀ x ∈ t, x ≠ Char.ofNat 0 := by
        rintro x hx rfl
        exact hst (staleTokens_sub stem t (by rw [hts]; simp) _ hx)
      have hfl : (stemPieces stem pre post).flatten =
          (pre ++ t) ++ (post ++ ' ' :: (ts.flatMap fun t => [pre, t, post, [' ']]).flatten) := by
        simp [stemPieces, hs, hts]
      have hr : stemResult stem (stemPieces stem pre post).flatten = (stemPieces stem pre post).flatten.dropLast := by
        simp [stemResult, hs]
      rw [hr, hfl]
      have hne : pre ++ t ≠ [] := by simp [htn]
      obtain ⟨y, ys, hy⟩ : ∃ y ys, pre ++ t = y :: ys := by
        cases h : pre ++ t with
        | nil => exact absurd h hne
        | cons y ys => exact ⟨y, ys, rfl⟩
      have hyn : y ≠ Char.ofNat 0 := by
        have : y ∈ pre ++ t := by rw [hy]; simp
        rcases List.mem_append.1 this with h | h
        · exact hpp y (by simp [h])
        · exact htm y h
      rw [hy]
      generalize (ts.flatMap fun t => [pre, t, post, [' ']]).flatten = z
      have hd : (y :: ys ++ (post ++ ' ' :: z)).dropLast ≠ [] := by
        intro h
        have := congrArg List.length h
        simp at this
      rw [if_neg hd]
      have hh : (y :: ys ++ (post ++ ' ' :: z)).head?.getD first = y := rfl
      rw [hh, if_neg hyn]

/-- The loop gives the list of the model without a buffer if the buffer never moves. -/
theorem stale_loop {move : Nat → Nat → Nat} {stem : Str} {buffer : Nat} (hst : Char.ofNat 0 ∉ stem) :
    ∀ (ps : List PreReq) (len : Nat) (first : Char),
    (stem ≠ [] → tokens stem = [] → first = Char.ofNat 0) → (∀ d ∈ ps, Char.ofNat 0 ∉ d.name) →
    (∀ d ∈ ps, ∀ pre c post, findPercent d.name = .found pre c post → ∀ len', len ≤ len' →
      ((stemPieces stem pre post).foldl (outPut move) ⟨buffer, len', []⟩).base = buffer) →
    stemLoop move stem buffer len first ps = .done (stemPrereqs stem ps) := by
  intro ps
  induction ps with
  | nil => intro len first _ _ _; rfl
  | cons d ds ih =>
    intro len first hi hn hb
    unfold stemLoop
    cases hf : findPercent d.name with
    | none t =>
      simp only
      rw [ih len first hi (fun e he => hn e (by simp [he])) fun e he => hb e (by simp [he])]
      simp [StaleRes.cons, stemPrereqs, stemName, hf]
    | found pre c post =>
      simp only
      have h1 := hb d (by simp) pre c post hf len (Nat.le_refl _)
      have n : ¬ (((stemPieces stem pre post).foldl (outPut move) ⟨buffer, len, []⟩).base ≠ buffer) := by simp [h1]
      rw [if_neg n, staleFold_text]
      simp only [List.nil_append]
      obtain ⟨h2, h3⟩ := stale_one (first := first) hf (hn d (by simp)) hst hi
      have hl := staleLen move (stemPieces stem pre post) ⟨buffer, len, []⟩
      rw [ih _ _ h2 (fun e he => hn e (by simp [he]))
        fun e he pre c post hf len' hle => hb e (by simp [he]) pre c post hf len' (Nat.le_trans hl hle)]
      by_cases g : (stemPieces stem pre post).flatten.head?.getD first = Char.ofNat 0
      · rw [if_pos g] at h3 ⊢
        simp [stemPrereqs, h3]
      · rw [if_neg g] at h3 ⊢
        simp [stemPrereqs, h3, StaleRes.cons]

theorem stalePieces_length {stem pre post : Str} (h : ∀ c ∈ stem, isSpace c = false) :
    (stemPieces stem pre post).flatten.length = pre.length + stem.length + post.length + 1 := by
  unfold stemPieces
  by_cases hs : stem = []
  · subst hs; simp; omega
  · rw [if_neg hs, tokens_one hs h]
    simp; omega

/-! ## C154 -/

/-- C154 (partial): if for each prerequisite the buffer has room for its text and the stem together, and five more characters, then the names of
the prerequisites with the stem in the place of the percent sign are what is recorded, wherever the buffer would be moved to.  Missing: a name
that is longer than the buffer, see `C154_stale`; stems with blanks, see `C68_blank`. -/
theorem C154_room_partial {move : Nat → Nat → Nat} {stem : Str} {buffer len : Nat} {ps : List PreReq} {rd : Str → Pct}
    (hs : ∀ c ∈ stem, isSpace c = false ∧ c ≠ Char.ofNat 0) (hn : ∀ d ∈ ps, d.name ≠ [] ∧ Char.ofNat 0 ∉ d.name)
    (hrd : ∀ d ∈ ps, ReadsAs '%' d.name (rd d.name)) (hq : ∀ d ∈ ps, ∀ t, rd d.name = .lit t → t = d.name)
    (hroom : ∀ d ∈ ps, '%' ∈ d.name → stem.length + d.name.length + 5 ≤ len) :
    stemInBuffer move stem buffer len ps =
      .done (ps.filterMap fun d =>
        if fillStem stem (rd d.name) = [] then none else some { d with name := fillStem stem (rd d.name) }) := by
  unfold stemInBuffer
  rw [stale_loop (fun h => (hs _ h).2 rfl) ps len _ (fun _ _ => rfl) fun d hd => (hn d hd).2]
  · exact congrArg _ (stale_fill (fun c hc => (hs c hc).1) (fun d hd => (hn d hd).1) hrd hq)
  · intro d hd pre c post hf len' hle
    have hl := stalePieces_length (pre := pre) (post := post) fun c hc => (hs c hc).1
    have hsub := (stalePercent_sublist hf).length_le
    simp only [List.length_append, List.length_cons] at hsub
    have := hroom d hd (stale_mem hf)
    exact (staleFold_stay move _ ⟨buffer, len', []⟩ (by simp only [List.length_nil]; omega)).1

/-- C154 (partial): the same if the stem and the text of each prerequisite stand, in this order and with a colon between them, in a line that was
in the buffer before: a buffer that held the line is long enough.  Missing: names that do not stand in the line, as after tilde expansion and
after matching with wildcards. -/
theorem C154_line_partial {move : Nat → Nat → Nat} {stem line : Str} {buffer len : Nat} {ps : List PreReq} {rd : Str → Pct}
    (hs : ∀ c ∈ stem, isSpace c = false ∧ c ≠ Char.ofNat 0) (hn : ∀ d ∈ ps, d.name ≠ [] ∧ Char.ofNat 0 ∉ d.name)
    (hrd : ∀ d ∈ ps, ReadsAs '%' d.name (rd d.name)) (hq : ∀ d ∈ ps, ∀ t, rd d.name = .lit t → t = d.name)
    (hline : ∀ d ∈ ps, (stem ++ ':' :: d.name).Sublist line) (hheld : line.length + 1 + 5 ≤ len) :
    stemInBuffer move stem buffer len ps =
      .done (ps.filterMap fun d =>
        if fillStem stem (rd d.name) = [] then none else some { d with name := fillStem stem (rd d.name) }) := by
  refine C154_room_partial hs hn hrd hq fun d hd _ => ?_
  have := (hline d hd).length_le
  simp only [List.length_append, List.length_cons] at this
  omega

/-- C154: the same for any lengths if the allocator leaves the buffer where it is when it grows. -/
theorem C154_inplace {move : Nat → Nat → Nat} {stem : Str} {buffer len : Nat} {ps : List PreReq} {rd : Str → Pct}
    (hs : ∀ c ∈ stem, isSpace c = false ∧ c ≠ Char.ofNat 0) (hn : ∀ d ∈ ps, d.name ≠ [] ∧ Char.ofNat 0 ∉ d.name)
    (hrd : ∀ d ∈ ps, ReadsAs '%' d.name (rd d.name)) (hq : ∀ d ∈ ps, ∀ t, rd d.name = .lit t → t = d.name)
    (hm : ∀ n, move buffer n = buffer) :
    stemInBuffer move stem buffer len ps =
      .done (ps.filterMap fun d =>
        if fillStem stem (rd d.name) = [] then none else some { d with name := fillStem stem (rd d.name) }) := by
  unfold stemInBuffer
  rw [stale_loop (fun h => (hs _ h).2 rfl) ps len _ (fun _ _ => rfl) fun d hd => (hn d hd).2]
  · exact congrArg _ (stale_fill (fun c hc => (hs c hc).1) (fun d hd => (hn d hd).1) hrd hq)
  · intro d hd pre c post hf len' hle
    exact staleFold_same move buffer hm _ _ rfl

/-- C154 fails for long names: if one prerequisite's name, with the stem put in, needs a longer buffer, and the allocator does not give out the
old address again, then the old address is read through. -/
theorem C154_stale {move : Nat → Nat → Nat} {stem : Str} {buffer len : Nat} {ps : List PreReq} {d : PreReq} {a b : Str}
    (hs : ∀ c ∈ stem, isSpace c = false) (hd : d ∈ ps) (hrd : ReadsAs '%' d.name (.pat a b))
    (hlong : len < (fillStem stem (.pat a b)).length + 1 + 5) (hm : ∀ x n, move x n ≠ buffer) :
    stemInBuffer move stem buffer len ps = .undefined := by
  obtain ⟨c, hf⟩ : ∃ c, findPercent d.name = .found a c b := by
    have := (ReadsAs_iff (by decide)).1 hrd
    cases h : findPercent d.name with
    | none t => unfold findPercent at h; rw [h] at this; cases this
    | found p c q => unfold findPercent at h; rw [h] at this; cases this; exact ⟨c, rfl⟩
  unfold stemInBuffer
  generalize Char.ofNat 0 = first
  have hl := stalePieces_length (pre := a) (post := b) hs
  simp only [fillStem, List.length_append] at hlong
  induction ps generalizing first with
  | nil => cases hd
  | cons e es ih =>
    unfold stemLoop
    cases he : findPercent e.name with
    | none t =>
      have : d ∈ es := by
        rcases List.mem_cons.1 hd with rfl | h
        · rw [hf] at he; cases he
        · exact h
      simp only
      rw [ih this]; rfl
    | found p c' q =>
      simp only
      have hne : stemPieces stem p q ≠ [] := by
        intro h
        have := stalePieces_length (pre := p) (post := q) hs
        rw [h] at this
        simp at this
      by_cases g : ((stemPieces stem p q).foldl (outPut move) ⟨buffer, len, []⟩).base ≠ buffer
      · rw [if_pos g]
      · rw [if_neg g]
        have hfit : (stemPieces stem p q).flatten.length + 5 ≤ len := by
          apply Decidable.byContradiction
          intro hc
          exact g (staleFold_moves move buffer hm _ ⟨buffer, len, []⟩ hne (by simp only [List.length_nil]; omega))
        have hlen := (staleFold_stay move (stemPieces stem p q) ⟨buffer, len, []⟩ (by simp only [List.length_nil]; omega)).2
        rw [hlen]
        have : d ∈ es := by
          rcases List.mem_cons.1 hd with rfl | h
          · rw [hf] at he; cases he; omega
          · exact h
        simp only
        split
        · exact ih this _
        · rw [ih this _]; rfl

/-- The hypotheses of `C154_room_partial` are met by `a.o: %.o: %.c x` in a fresh buffer. -/
example : stemInBuffer (fun a n => a + n) "a".toList 1000 200 [⟨"%.c".toList, false⟩, ⟨"x".toList, true⟩] =
    .done [⟨"a.c".toList, false⟩, ⟨"x".toList, true⟩] := by decide +kernel

/-- The line of this rule is one as in `C154_line_partial`. -/
example : ("a".toList ++ ':' :: "%.c".toList).Sublist "a.o: %.o: %.c".toList ∧ "a.o: %.o: %.c".toList.length + 1 + 5 ≤ 200 := by
  decide +kernel

/-- A case of `C154_inplace` in which the buffer grows. -/
example : stemInBuffer (fun a _ => a) "a".toList 1000 8 [⟨"%.c".toList, false⟩, ⟨"%.long".toList, true⟩] =
    .done [⟨"a.c".toList, false⟩, ⟨"a.long".toList, true⟩] := by decide +kernel

/-- C154 fails for a rule that can be written: in `a: %: ~/%.x`, with a home directory of 195 characters, the name does not fit into the fresh
buffer of 200 characters. -/
theorem C154_home :
    stemInBuffer (fun a n => a + n) "a".toList 1000 200 [⟨List.replicate 195 'h' ++ "/%.x".toList, false⟩] = .undefined := by
  decide +kernel

/-- The hypotheses of `C154_stale` are met there. -/
example : ReadsAs '%' (List.replicate 195 'h' ++ "/%.x".toList) (.pat (List.replicate 195 'h' ++ "/".toList) ".x".toList) := by
  exact (ReadsAs_iff (by decide)).2 (by decide +kernel)

end Remake
