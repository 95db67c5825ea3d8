import Verif.Vpath.Lemmas
/-! Helper lemmas: histories of directives, and libraries. -/
set_option linter.unusedVariables false
set_option linter.unusedSimpArgs false
namespace Remake
open Remake.Spec

/-! ## Directives -/

/-- Patterns come from `find_percent`. -/
def EntriesOk (vs : List VpathEntry) : Prop := ∀ e ∈ vs, ∃ w, e.pat = findPercent w

theorem findPercent_inj {a b : Str} : (findPercent a).toPct = (findPercent b).toPct ↔ findPercent a = findPercent b := by
  constructor
  · intro h
    cases ha : findPercent a with
    | none s =>
      cases hb : findPercent b with
      | none t => rw [ha, hb] at h; simp only [Unq.toPct, Pct.lit.injEq] at h; rw [h]
      | found => rw [ha, hb] at h; simp [Unq.toPct] at h
    | found p c q =>
      cases hb : findPercent b with
      | none t => rw [ha, hb] at h; simp [Unq.toPct] at h
      | found p' c' q' =>
        have h1 := findCharUnquote_char ha
        have h2 := findCharUnquote_char hb
        rw [ha, hb] at h
        simp only [Unq.toPct, Pct.pat.injEq] at h
        rw [h1, h2, h.1, h.2]
  · intro h; rw [h]

theorem findPercent_reads {w : Str} {q : Pct} (h : ReadsAs '%' w q) : (findPercent w).toPct = q :=
  (ReadsAs_iff (by decide)).1 h

/-- What the specification sees of an entry. -/
def seen (e : VpathEntry) : Pct × List Str := (e.pat.toPct, e.dirs)

theorem nextToken_blank (a : Str) (ha : ∀ c ∈ a, isSpace c = true) (b : Str) : nextToken (a ++ b) = nextToken b := by
  unfold nextToken
  exact List.dropWhile_append_of_pos ha

theorem nextToken_start {r : Str} (h : ∀ c, r.head? = some c → isSpace c = false) : nextToken r = r := by
  unfold nextToken
  cases r with
  | nil => rfl
  | cons c cs => rw [List.dropWhile_cons, h c rfl]; simp

theorem findNextToken_word {a w b : Str} (ha : ∀ c ∈ a, isSpace c = true) (hw : w ≠ [])
    (hns : ∀ c ∈ w, isSpace c = false) (hb : ∀ c, b.head? = some c → isSpace c = true) :
    findNextToken (a ++ w ++ b) = some (w, b) := by
  unfold findNextToken
  rw [List.append_assoc, nextToken_blank a ha, nextToken_start]
  · have h1 : tokenPrefix (w ++ b) = w := by
      unfold tokenPrefix
      rw [List.takeWhile_append_of_pos (by simpa using hns)]
      cases b with
      | nil => simp
      | cons c cs => rw [List.takeWhile_cons, hb c rfl]; simp
    have h2 : endOfToken (w ++ b) = b := by
      unfold endOfToken
      rw [List.dropWhile_append_of_pos (by simpa using hns)]
      cases b with
      | nil => simp
      | cons c cs => rw [List.dropWhile_cons, hb c rfl]; simp
    cases hh : w ++ b with
    | nil => simp at hh; exact absurd hh.1 hw
    | cons c cs => rw [hh] at h1 h2; simp only [h1, h2]
  · intro c hc
    cases w with
    | nil => exact absurd rfl hw
    | cons x xs => simp only [List.cons_append, List.head?_cons, Option.some.injEq] at hc; subst hc; exact hns _ (by simp)

theorem blank_head {b r : Str} (hb : ∀ c ∈ b, isSpace c = true) (hne : b ≠ []) :
    ∀ c, (b ++ r).head? = some c → isSpace c = true := by
  intro c hc
  cases b with
  | nil => exact absurd rfl hne
  | cons x xs => simp only [List.cons_append, List.head?_cons, Option.some.injEq] at hc; subst hc; exact hb _ (by simp)

/-- The effect of one line. -/
theorem vpathLine_spec {text : Str} {d : VpathDirective} (h : VpathReads text d) (vs : List VpathEntry) (hv : EntriesOk vs) :
    EntriesOk (vpathLine text vs) ∧
    (vpathLine text vs).reverse.map seen =
      (vs.reverse.map seen).filter (fun e => !cancels e.1 d) ++ inForce [d] := by
  cases h with
  | clear hs =>
    have : findNextToken text = none := by
      unfold findNextToken
      have := nextToken_blank text hs []
      rw [List.append_nil] at this
      rw [this]; rfl
    unfold vpathLine
    rw [this]
    simp [constructVpath, EntriesOk, cancels, inForce]
  | @remove a w b q ha hw hns hb hq =>
    have h1 : findNextToken (a ++ w ++ b) = some (w, b) :=
      findNextToken_word ha hw hns (fun c hc => hb c (List.mem_of_mem_head? hc))
    have h2 : nextToken b = [] := by
      have := nextToken_blank b hb []
      rw [List.append_nil] at this
      rw [this]; rfl
    unfold vpathLine
    rw [h1]
    simp only [h2, constructVpath]
    refine ⟨fun e he => hv e (List.mem_filter.1 he).1, ?_⟩
    rw [← List.filter_reverse]
    simp only [inForce, List.append_nil]
    rw [List.filter_map]
    congr 1
    apply List.filter_congr
    intro e he
    obtain ⟨w', hw'⟩ := hv e (List.mem_reverse.1 he)
    show (!decide (e.pat = findPercent w)) = !decide (q = e.pat.toPct)
    congr 1
    rw [decide_eq_decide, hw', ← findPercent_reads hq, findPercent_inj]
    exact eq_comm
  | @add a w b r q ha hw hns hb hbne hr hrh hq =>
    have h1 : findNextToken (a ++ w ++ (b ++ r)) = some (w, b ++ r) :=
      findNextToken_word ha hw hns (blank_head hb hbne)
    have h2 : nextToken (b ++ r) = r := by rw [nextToken_blank b hb, nextToken_start hrh]
    unfold vpathLine
    rw [h1]
    simp only [h2]
    rw [construct_some]
    have hf : (vs.reverse.map seen).filter (fun e => !cancels e.1 (.add q (dirsOf r))) = vs.reverse.map seen :=
      List.filter_eq_self.2 (fun e _ => by simp [cancels])
    rw [hf]
    by_cases hd : dirsOf r = []
    · rw [if_pos hd]
      exact ⟨hv, by simp [inForce, hd]⟩
    · rw [if_neg hd]
      constructor
      · intro e he
        rcases List.mem_cons.1 he with rfl | he
        · exact ⟨w, rfl⟩
        · exact hv e he
      · simp [inForce, hd, seen, entryOf, findPercent_reads hq]

theorem inForce_cons (d : VpathDirective) (ds : List VpathDirective) :
    inForce (d :: ds) = (inForce [d]).filter (fun e => !ds.any (cancels e.1)) ++ inForce ds := by
  cases d with
  | clear => simp [inForce]
  | remove => simp [inForce]
  | add p dirs =>
    by_cases hd : dirs = []
    · simp [inForce, hd]
    · by_cases hc : ds.any (cancels p) = true
      · simp only [inForce, hd, hc, or_true, if_true, false_or, List.any_nil, Bool.false_eq_true, or_self, if_false]
        simp [List.filter_cons, hc]
      · simp only [inForce, hd, hc, or_false, if_false, false_or, List.any_nil, Bool.false_eq_true, or_self]
        simp [List.filter_cons, hc]

/-- All the lines. -/
theorem vpathLines_spec (lines : List (Str × VpathDirective)) (h : ∀ p ∈ lines, VpathReads p.1 p.2)
    (vs : List VpathEntry) (hv : EntriesOk vs) :
    EntriesOk (lines.foldl (fun v p => vpathLine p.1 v) vs) ∧
    (lines.foldl (fun v p => vpathLine p.1 v) vs).reverse.map seen =
      (vs.reverse.map seen).filter (fun e => !(lines.map (·.2)).any (cancels e.1)) ++ inForce (lines.map (·.2)) := by
  induction lines generalizing vs with
  | nil => exact ⟨hv, by simp only [List.map_nil, List.any_nil, Bool.not_false, inForce, List.append_nil, List.foldl_nil]; exact (List.filter_eq_self.2 (fun _ _ => rfl)).symm⟩
  | cons p ps ih =>
    obtain ⟨h1, h2⟩ := vpathLine_spec (h p (by simp)) vs hv
    obtain ⟨h3, h4⟩ := ih (fun q hq => h q (by simp [hq])) _ h1
    refine ⟨h3, ?_⟩
    rw [List.foldl_cons, h4, h2, List.map_cons, inForce_cons p.2 (ps.map (·.2)), List.filter_append, List.filter_filter, List.append_assoc]
    congr 1
    apply List.filter_congr
    intro e he
    simp only [List.any_cons, Bool.not_or]
    exact Bool.and_comm _ _

theorem buildPath_spec (text : Str) :
    (match buildPath text with | none => [] | some e => [seen e]) =
      (if dirsOf text = [] then [] else [(Pct.pat [] [], dirsOf text)]) ∧
    ∀ e, buildPath text = some e → e.dirs = dirsOf text ∧ (∀ d ∈ e.dirs, d.length ≤ e.maxlen) := by
  unfold buildPath
  by_cases ht : text = []
  · subst ht
    simp [dirsOf, fieldsOf_nil]
  · rw [if_neg ht, construct_some]
    by_cases hd : dirsOf text = []
    · simp [hd]
    · simp only [hd, if_false, List.head?_cons, Option.some.injEq]
      constructor
      · have : (findPercent ['%']).toPct = Pct.pat [] [] := by decide
        simp [seen, entryOf, this]
      · rintro e rfl
        exact ⟨rfl, entryOf_max _ _⟩

theorem mem_fieldsOf {p : Char → Bool} {s w : Str} (h : w ∈ fieldsOf p s) : w ≠ [] := by
  unfold fieldsOf at h
  have := (List.mem_filter.1 h).2
  simpa using this

theorem mem_dirsOf {s d : Str} (h : d ∈ dirsOf s) : d ≠ [] := by
  unfold dirsOf at h
  obtain ⟨h1, _⟩ := List.mem_filter.1 h
  obtain ⟨w, hw, rfl⟩ := List.mem_map.1 h1
  exact withoutSlash_ne w (mem_fieldsOf hw)

/-! ## Places by number -/

/-- The name `n` is found in directory `j` of list `i`. -/
def FoundAt (env : VpathEnv) (lists : List (Pct × List Str)) (n : Str) (i j : Nat) (r : Str) : Prop :=
  ∃ p ds d t, lists[i]? = some (p, ds) ∧ ds[j]? = some d ∧ p.Matches n ∧ There env n (joinedDir d n) t ∧ r = joinedDir d n

theorem selective_index (env : VpathEnv) (file : Str) (hf : Regular file) (ds : List Str) (hd : DirsOk ds) (i : Nat) :
    (∃ k, selectiveSearch env file i ds = (.no, k) ∧ ∀ d ∈ ds, ∀ t, ¬ There env file (joinedDir d file) t) ∨
    ∃ j d t, selectiveSearch env file i ds = (.yes (joinedDir d file) t, i + j) ∧ ds[j]? = some d ∧
      There env file (joinedDir d file) t ∧
      ∀ j' d', j' < j → ds[j']? = some d' → ∀ t, ¬ There env file (joinedDir d' file) t := by
  induction ds generalizing i with
  | nil => exact Or.inl ⟨i, rfl, by simp⟩
  | cons d ds ih =>
    have hd1 := hd d (by simp)
    rcases tryDir_spec env file d hf hd1.1 hd1.2 with ⟨h1, h2⟩ | ⟨t, h1, h2⟩
    · rw [selectiveSearch, h1]
      simp only
      rcases ih (fun x hx => hd x (by simp [hx])) (i + 1) with ⟨k, e, hn⟩ | ⟨j, d', t, e, hj, ht, hb⟩
      · refine Or.inl ⟨k, e, ?_⟩
        intro x hx
        rcases List.mem_cons.1 hx with rfl | hx
        · exact h2
        · exact hn x hx
      · refine Or.inr ⟨j + 1, d', t, ?_, by simpa using hj, ht, ?_⟩
        · rw [e, Nat.add_assoc, Nat.add_comm 1 j]
        · intro j' x hj' hx
          cases j' with
          | zero => simp only [List.getElem?_cons_zero, Option.some.injEq] at hx; subst hx; exact h2
          | succ j' => exact hb j' x (by omega) (by simpa using hx)
    · refine Or.inr ⟨0, d, t, ?_, rfl, h2, by simp⟩
      rw [selectiveSearch, h1]; rfl

/-- The search by number. -/
theorem vpathLoop_index (env : VpathEnv) (file : Str) (hf : Regular file) (g : Option VpathEntry)
    (hg : ∀ e, g = some e → DirsOk e.dirs ∧ e.pat.toPct = .pat [] []) (vs : List VpathEntry) (hv : ∀ e ∈ vs, DirsOk e.dirs) (i : Nat) :
    (∃ k, vpathLoop env g file i vs = (.no, k) ∧
      ∀ i' j r, ¬ FoundAt env (vs.map seen ++ g.toList.map seen) file i' j r) ∨
    ∃ k j r t, vpathLoop env g file i vs = (.yes r t, i + k, j) ∧
      FoundAt env (vs.map seen ++ g.toList.map seen) file k j r ∧
      ∀ k' j' r', (k' < k ∨ k' = k ∧ j' < j) → ¬ FoundAt env (vs.map seen ++ g.toList.map seen) file k' j' r' := by
  induction vs generalizing i with
  | nil =>
    cases g with
    | none =>
      refine Or.inl ⟨_, rfl, ?_⟩
      rintro i' j r ⟨p, ds, d, t, h, _⟩
      simp at h
    | some e =>
      obtain ⟨hd, hp⟩ := hg e rfl
      rcases selective_index env file hf e.dirs hd 0 with ⟨k, e1, hn⟩ | ⟨j, d, t, e1, hj, ht, hb⟩
      · refine Or.inl ⟨(i, k), by simp [vpathLoop, e1], ?_⟩
        rintro i' j r ⟨p, ds, d, t, h, hds, _, ht, _⟩
        simp only [List.map_nil, List.nil_append, Option.toList_some, List.map_cons] at h
        cases i' with
        | succ => simp at h
        | zero =>
          simp only [seen, List.getElem?_cons_zero, Option.some.injEq, Prod.mk.injEq] at h
          obtain ⟨rfl, rfl⟩ := h
          exact hn d (List.mem_of_getElem? hds) t ht
      · refine Or.inr ⟨0, j, joinedDir d file, t, by simp [vpathLoop, e1], ?_, ?_⟩
        · exact ⟨_, e.dirs, d, t, rfl, hj, by rw [hp]; exact ⟨file, by simp⟩, ht, rfl⟩
        · rintro k' j' r' hlt ⟨p, ds, d', t', h, hds, _, ht', _⟩
          have hk : k' = 0 := by omega
          subst hk
          simp only [List.map_nil, List.nil_append, Option.toList_some, List.map_cons, seen, List.getElem?_cons_zero,
            Option.some.injEq, Prod.mk.injEq] at h
          obtain ⟨rfl, rfl⟩ := h
          exact hb j' d' (by omega) hds t' ht'
  | cons v vs ih =>
    have hvs : ∀ e ∈ vs, DirsOk e.dirs := fun e he => hv e (by simp [he])
    have hshift : ∀ i' j r, FoundAt env ((v :: vs).map seen ++ g.toList.map seen) file (i' + 1) j r ↔
        FoundAt env (vs.map seen ++ g.toList.map seen) file i' j r := by
      intro i' j r; unfold FoundAt; simp
    have hzero : ∀ j r, FoundAt env ((v :: vs).map seen ++ g.toList.map seen) file 0 j r ↔
        ∃ d t, v.dirs[j]? = some d ∧ v.pat.toPct.Matches file ∧ There env file (joinedDir d file) t ∧ r = joinedDir d file := by
      intro j r
      constructor
      · rintro ⟨p, ds, d, t, h, h2, h3, h4, h5⟩
        simp only [List.map_cons, List.cons_append, List.getElem?_cons_zero, Option.some.injEq, seen, Prod.mk.injEq] at h
        obtain ⟨rfl, rfl⟩ := h
        exact ⟨d, t, h2, h3, h4, h5⟩
      · rintro ⟨d, t, h2, h3, h4, h5⟩
        exact ⟨_, _, d, t, rfl, h2, h3, h4, h5⟩
    have hrest : (∀ j r, ¬ FoundAt env ((v :: vs).map seen ++ g.toList.map seen) file 0 j r) →
        vpathLoop env g file i (v :: vs) = vpathLoop env g file (i + 1) vs →
        ((∃ k, vpathLoop env g file i (v :: vs) = (.no, k) ∧
          ∀ i' j r, ¬ FoundAt env ((v :: vs).map seen ++ g.toList.map seen) file i' j r) ∨
        ∃ k j r t, vpathLoop env g file i (v :: vs) = (.yes r t, i + k, j) ∧
          FoundAt env ((v :: vs).map seen ++ g.toList.map seen) file k j r ∧
          ∀ k' j' r', (k' < k ∨ k' = k ∧ j' < j) → ¬ FoundAt env ((v :: vs).map seen ++ g.toList.map seen) file k' j' r') := by
      intro h0 he
      rw [he]
      rcases ih hvs (i + 1) with ⟨k, e1, hn⟩ | ⟨k, j, r, t, e1, hfa, hb⟩
      · refine Or.inl ⟨k, e1, ?_⟩
        intro i' j r
        cases i' with
        | zero => exact h0 j r
        | succ i' => rw [hshift]; exact hn i' j r
      · refine Or.inr ⟨k + 1, j, r, t, ?_, (hshift k j r).2 hfa, ?_⟩
        · rw [e1, Nat.add_assoc, Nat.add_comm 1 k]
        · intro k' j' r' hlt
          cases k' with
          | zero => exact h0 j' r'
          | succ k' => rw [hshift]; exact hb k' j' r' (by omega)
    by_cases hm : patternMatches v.pat file = true
    · have hm' := (patternMatches_iff _ _).1 hm
      rcases selective_index env file hf v.dirs (hv v (by simp)) 0 with ⟨k, e1, hn⟩ | ⟨j, d, t, e1, hj, ht, hb⟩
      · apply hrest
        · intro j r hfa
          obtain ⟨d, t, h2, _, h4, _⟩ := (hzero j r).1 hfa
          exact hn d (List.mem_of_getElem? h2) t h4
        · rw [vpathLoop, if_pos hm, e1]
      · refine Or.inr ⟨0, j, joinedDir d file, t, ?_, (hzero _ _).2 ⟨d, t, hj, hm', ht, rfl⟩, ?_⟩
        · rw [vpathLoop, if_pos hm, e1]; simp
        · intro k' j' r' hlt hfa
          have hk : k' = 0 := by omega
          subst hk
          obtain ⟨d', t', h2, _, h4, _⟩ := (hzero j' r').1 hfa
          exact hb j' d' (by omega) h2 t' h4
    · apply hrest
      · intro j r hfa
        obtain ⟨d, t, _, h3, _⟩ := (hzero j r).1 hfa
        exact hm ((patternMatches_iff _ _).2 h3)
      · rw [vpathLoop, if_neg hm]

end Remake
