import Verif.Vpath.Lemmas2
/-! Helper lemmas: the search for libraries. -/
set_option linter.unusedVariables false
set_option linter.unusedSimpArgs false
namespace Remake
open Remake.Spec

/-- The name is in standard directory `k`. -/
def StdAt (env : VpathEnv) (std : List Str) (n : Str) (k : Nat) (r : Str) : Prop :=
  ∃ d, std[k]? = some d ∧ env.stat (joinedDir d n) ≠ none ∧ r = joinedDir d n

theorem stdAt_cons_succ (env : VpathEnv) (d : Str) (ds : List Str) (n : Str) (k : Nat) (r : Str) :
    StdAt env (d :: ds) n (k + 1) r ↔ StdAt env ds n k r := by
  unfold StdAt; simp

theorem stdAt_cons_zero (env : VpathEnv) (d : Str) (ds : List Str) (n : Str) (r : Str) :
    StdAt env (d :: ds) n 0 r ↔ env.stat (joinedDir d n) ≠ none ∧ r = joinedDir d n := by
  unfold StdAt; simp

theorem libStd_some (env : VpathEnv) (n : Str) (ds : List Str) (vi : Nat) (b : LibBest) :
    (libStd env.stat n vi ds (some b) = some b ∧ ∀ k r, vi + k < b.vpath → ¬ StdAt env ds n k r) ∨
    ∃ k b', libStd env.stat n vi ds (some b) = some b' ∧ b'.vpath = vi + k ∧ vi + k < b.vpath ∧
      StdAt env ds n k b'.name ∧ ∀ k' r, k' < k → ¬ StdAt env ds n k' r := by
  induction ds generalizing vi b with
  | nil =>
    refine Or.inl ⟨rfl, ?_⟩
    rintro k r _ ⟨d, h, _⟩
    simp at h
  | cons d ds ih =>
    rw [libStd]
    by_cases hc : (env.stat (d ++ '/' :: n)).isSome = true ∧ vi < b.vpath
    · have : ((env.stat (d ++ '/' :: n)).isSome && decide (vi < b.vpath)) = true := by simp [hc.1, hc.2]
      rw [if_pos this]
      right
      refine ⟨0, { name := d ++ '/' :: n, vpath := vi, path := ((some b).map (·.path)).getD 0 }, ?_, rfl, hc.2, ?_, by omega⟩
      · rcases ih (vi + 1) { name := d ++ '/' :: n, vpath := vi, path := ((some b).map (·.path)).getD 0 } with ⟨h1, _⟩ | ⟨k, b', _, _, hlt, _⟩
        · exact h1
        · simp only at hlt; omega
      · rw [stdAt_cons_zero]
        refine ⟨?_, rfl⟩
        intro hh
        unfold joinedDir at hh
        rw [hh] at hc; simp at hc
    · have : ¬ ((env.stat (d ++ '/' :: n)).isSome && decide (vi < b.vpath)) = true := by
        simpa using hc
      rw [if_neg this]
      have h0 : ∀ r, vi < b.vpath → ¬ StdAt env (d :: ds) n 0 r := by
        intro r hv hs
        rw [stdAt_cons_zero] at hs
        apply hc
        refine ⟨?_, hv⟩
        have := hs.1
        unfold joinedDir at this
        exact Option.isSome_iff_ne_none.2 this
      rcases ih (vi + 1) b with ⟨h1, h2⟩ | ⟨k, b', h1, h2, h3, h4, h5⟩
      · refine Or.inl ⟨h1, ?_⟩
        intro k r hk
        cases k with
        | zero => exact h0 r (by omega)
        | succ k => rw [stdAt_cons_succ]; exact h2 k r (by omega)
      · refine Or.inr ⟨k + 1, b', h1, by omega, by omega, (stdAt_cons_succ ..).2 h4, ?_⟩
        intro k' r hk
        cases k' with
        | zero => exact h0 r (by omega)
        | succ k' => rw [stdAt_cons_succ]; exact h5 k' r (by omega)

theorem libStd_none (env : VpathEnv) (n : Str) (ds : List Str) (vi : Nat) :
    (libStd env.stat n vi ds none = none ∧ ∀ k r, ¬ StdAt env ds n k r) ∨
    ∃ k b', libStd env.stat n vi ds none = some b' ∧ b'.vpath = vi + k ∧
      StdAt env ds n k b'.name ∧ ∀ k' r, k' < k → ¬ StdAt env ds n k' r := by
  induction ds generalizing vi with
  | nil =>
    refine Or.inl ⟨rfl, ?_⟩
    rintro k r ⟨d, h, _⟩
    simp at h
  | cons d ds ih =>
    rw [libStd]
    simp only [Bool.and_true]
    by_cases hc : (env.stat (d ++ '/' :: n)).isSome = true
    · rw [if_pos hc]
      right
      refine ⟨0, { name := d ++ '/' :: n, vpath := vi, path := (Option.map (·.path) (none : Option LibBest)).getD 0 }, ?_, rfl, ?_, by omega⟩
      · rcases libStd_some env n ds (vi + 1) { name := d ++ '/' :: n, vpath := vi, path := (Option.map (·.path) (none : Option LibBest)).getD 0 } with ⟨h1, _⟩ | ⟨k, b', _, _, hlt, _⟩
        · exact h1
        · simp only at hlt; omega
      · rw [stdAt_cons_zero]
        exact ⟨Option.isSome_iff_ne_none.1 hc, rfl⟩
    · rw [if_neg hc]
      have h0 : ∀ r, ¬ StdAt env (d :: ds) n 0 r := by
        intro r hs
        rw [stdAt_cons_zero] at hs
        exact hc (Option.isSome_iff_ne_none.2 hs.1)
      rcases ih (vi + 1) with ⟨h1, h2⟩ | ⟨k, b', h1, h2, h4, h5⟩
      · refine Or.inl ⟨h1, ?_⟩
        intro k r
        cases k with
        | zero => exact h0 r
        | succ k => rw [stdAt_cons_succ]; exact h2 k r
      · refine Or.inr ⟨k + 1, b', h1, by omega, (stdAt_cons_succ ..).2 h4, ?_⟩
        intro k' r hk
        cases k' with
        | zero => exact h0 r
        | succ k' => rw [stdAt_cons_succ]; exact h5 k' r (by omega)

/-- Earlier place among the search directories. -/
def PlaceLt (i j i' j' : Nat) : Prop := i < i' ∨ i = i' ∧ j < j'

/-- The best so far, after the names `done`. -/
def BestOk (env : VpathEnv) (lists : List (Pct × List Str)) (std : List Str) (base : Nat) (done : List Str) :
    Option LibBest → Prop
  | none => (∀ n ∈ done, ∀ i j r, ¬ FoundAt env lists n i j r) ∧ ∀ n ∈ done, ∀ k r, ¬ StdAt env std n k r
  | some b =>
    (b.vpath < base ∧ ∃ a n c, done = a ++ n :: c ∧ FoundAt env lists n b.vpath b.path b.name ∧
      (∀ m ∈ a, ∀ r, ¬ FoundAt env lists m b.vpath b.path r) ∧
      ∀ i j r, PlaceLt i j b.vpath b.path → ∀ m ∈ done, ¬ FoundAt env lists m i j r) ∨
    (∃ k, b.vpath = base + k ∧ (∀ n ∈ done, ∀ i j r, ¬ FoundAt env lists n i j r) ∧
      ∃ a n c, done = a ++ n :: c ∧ StdAt env std n k b.name ∧ (∀ m ∈ a, ∀ r, ¬ StdAt env std m k r) ∧
      ∀ k' r, k' < k → ∀ m ∈ done, ¬ StdAt env std m k' r)

theorem foundAt_lt {env : VpathEnv} {lists : List (Pct × List Str)} {n : Str} {i j : Nat} {r : Str}
    (h : FoundAt env lists n i j r) : i < lists.length := by
  obtain ⟨p, ds, d, t, h1, _⟩ := h
  exact (List.getElem?_eq_some_iff.1 h1).1

/-- After the search directories and before the standard ones, for a new name. -/
theorem bestOk_std {env : VpathEnv} {lists : List (Pct × List Str)} {std : List Str} {base : Nat} {done : List Str} {n : Str}
    (best : Option LibBest)
    (h : match best with
      | none => (∀ m ∈ done ++ [n], ∀ i j r, ¬ FoundAt env lists m i j r) ∧ ∀ m ∈ done, ∀ k r, ¬ StdAt env std m k r
      | some b =>
        (b.vpath < base ∧ ∃ a x c, done ++ [n] = a ++ x :: c ∧ FoundAt env lists x b.vpath b.path b.name ∧
          (∀ m ∈ a, ∀ r, ¬ FoundAt env lists m b.vpath b.path r) ∧
          ∀ i j r, PlaceLt i j b.vpath b.path → ∀ m ∈ done ++ [n], ¬ FoundAt env lists m i j r) ∨
        (∃ k, b.vpath = base + k ∧ (∀ m ∈ done ++ [n], ∀ i j r, ¬ FoundAt env lists m i j r) ∧
          ∃ a x c, done = a ++ x :: c ∧ StdAt env std x k b.name ∧ (∀ m ∈ a, ∀ r, ¬ StdAt env std m k r) ∧
          ∀ k' r, k' < k → ∀ m ∈ done, ¬ StdAt env std m k' r)) :
    BestOk env lists std base (done ++ [n]) (libStd env.stat n base std best) := by
  cases best with
  | none =>
    simp only at h
    rcases libStd_none env n std base with ⟨h1, h2⟩ | ⟨k, b', h1, h2, h3, h4⟩
    · rw [h1]
      refine ⟨h.1, ?_⟩
      intro m hm k r
      rcases List.mem_append.1 hm with hm | hm
      · exact h.2 m hm k r
      · simp only [List.mem_singleton] at hm; subst hm; exact h2 k r
    · rw [h1]
      refine Or.inr ⟨k, h2, h.1, done, n, [], rfl, h3, fun m hm r => h.2 m hm k r, ?_⟩
      intro k' r hk m hm
      rcases List.mem_append.1 hm with hm | hm
      · exact h.2 m hm k' r
      · simp only [List.mem_singleton] at hm; subst hm; exact h4 k' r hk
  | some b =>
    simp only at h
    rcases h with ⟨hb, h⟩ | ⟨k, hk, hno, a, x, c, hdone, hs, ha, hlt⟩
    · rcases libStd_some env n std base b with ⟨h1, _⟩ | ⟨k, b', _, _, h3, _⟩
      · rw [h1]; exact Or.inl ⟨hb, h⟩
      · omega
    · rcases libStd_some env n std base b with ⟨h1, h2⟩ | ⟨k', b', h1, h2, h3, h4, h5⟩
      · rw [h1]
        refine Or.inr ⟨k, hk, hno, a, x, c ++ [n], by rw [hdone]; simp, hs, ha, ?_⟩
        intro k' r hk' m hm
        rcases List.mem_append.1 hm with hm | hm
        · exact hlt k' r hk' m hm
        · simp only [List.mem_singleton] at hm; subst hm; exact h2 k' r (by omega)
      · rw [h1]
        refine Or.inr ⟨k', h2, hno, done, n, [], rfl, h4, fun m hm r => hlt k' r (by omega) m hm, ?_⟩
        intro k'' r hk'' m hm
        rcases List.mem_append.1 hm with hm | hm
        · exact hlt k'' r (by omega) m hm
        · simp only [List.mem_singleton] at hm; subst hm; exact h5 k'' r hk''

theorem placeLt_trichotomy (i j i' j' : Nat) : PlaceLt i j i' j' ∨ (i = i' ∧ j = j') ∨ PlaceLt i' j' i j := by
  unfold PlaceLt; omega

/-- The whole loop. -/
theorem libLoop_ok (env : VpathEnv) (l : VpathLists) (lists : List (Pct × List Str)) (std : List Str) (base : Nat)
    (hbase : lists.length ≤ base)
    (hsearch : ∀ n, Regular n →
      (∃ k, vpathSearch env l n = (.no, k) ∧ ∀ i j r, ¬ FoundAt env lists n i j r) ∨
      ∃ i j r t, vpathSearch env l n = (.yes r t, i, j) ∧ FoundAt env lists n i j r ∧
        ∀ i' j' r', PlaceLt i' j' i j → ¬ FoundAt env lists n i' j' r')
    (names done : List Str) (hn : ∀ n ∈ names, Regular n) (best : Option LibBest)
    (hb : BestOk env lists std base done best) :
    (∃ a n c, names = a ++ n :: c ∧ (∀ m ∈ a, env.stat m = none) ∧ env.stat n ≠ none ∧
      libLoop env l std base names best = some (some n)) ∨
    ((∀ m ∈ names, env.stat m = none) ∧ ∃ best', libLoop env l std base names best = some (best'.map (·.name)) ∧
      BestOk env lists std base (done ++ names) best') := by
  induction names generalizing done best with
  | nil => exact Or.inr ⟨by simp, best, rfl, by simpa using hb⟩
  | cons n ns ih =>
    by_cases hs : (env.stat n).isSome = true
    · refine Or.inl ⟨[], n, ns, rfl, by simp, Option.isSome_iff_ne_none.1 hs, ?_⟩
      rw [libLoop, if_pos hs]
    · have hsn : env.stat n = none := by simpa using hs
      have hns : ∀ m ∈ ns, Regular m := fun m hm => hn m (by simp [hm])
      -- the rest of the loop, once the state after this name is known
      have hstep : ∀ best1, libLoop env l std base (n :: ns) best =
            libLoop env l std base ns (libStd env.stat n base std best1) →
          BestOk env lists std base (done ++ [n]) (libStd env.stat n base std best1) →
          ((∃ a x c, n :: ns = a ++ x :: c ∧ (∀ m ∈ a, env.stat m = none) ∧ env.stat x ≠ none ∧
            libLoop env l std base (n :: ns) best = some (some x)) ∨
          ((∀ m ∈ n :: ns, env.stat m = none) ∧ ∃ best', libLoop env l std base (n :: ns) best = some (best'.map (·.name)) ∧
            BestOk env lists std base (done ++ n :: ns) best')) := by
        intro best1 he hok
        rw [he]
        rcases ih (done ++ [n]) hns _ hok with ⟨a, x, c, h1, h2, h3, h4⟩ | ⟨h1, best', h2, h3⟩
        · refine Or.inl ⟨n :: a, x, c, by rw [h1]; rfl, ?_, h3, h4⟩
          intro m hm
          rcases List.mem_cons.1 hm with rfl | hm
          · exact hsn
          · exact h2 m hm
        · refine Or.inr ⟨?_, best', h2, by rw [List.append_assoc] at h3; exact h3⟩
          intro m hm
          rcases List.mem_cons.1 hm with rfl | hm
          · exact hsn
          · exact h1 m hm
      rcases hsearch n (hn n (by simp)) with ⟨k, e, hno⟩ | ⟨i, j, r, t, e, hfa, hlt⟩
      · apply hstep best
        · rw [libLoop, if_neg hs, e]
        · apply bestOk_std
          cases best with
          | none =>
            refine ⟨?_, hb.2⟩
            intro m hm
            rcases List.mem_append.1 hm with hm | hm
            · exact hb.1 m hm
            · simp only [List.mem_singleton] at hm; subst hm; exact hno
          | some b =>
            rcases hb with ⟨hv, a, x, c, h1, h2, h3, h4⟩ | ⟨k, hk, hno', h5⟩
            · refine Or.inl ⟨hv, a, x, c ++ [n], by rw [h1]; simp, h2, h3, ?_⟩
              intro i j r hp m hm
              rcases List.mem_append.1 hm with hm | hm
              · exact h4 i j r hp m hm
              · simp only [List.mem_singleton] at hm; subst hm; exact hno i j r
            · refine Or.inr ⟨k, hk, ?_, h5⟩
              intro m hm
              rcases List.mem_append.1 hm with hm | hm
              · exact hno' m hm
              · simp only [List.mem_singleton] at hm; subst hm; exact hno
      · have hi : i < base := Nat.lt_of_lt_of_le (foundAt_lt hfa) hbase
        -- the new best is this hit
        have hnew : (∀ i' j' r', ¬ PlaceLt i j i' j' → ∀ m ∈ done, ¬ FoundAt env lists m i' j' r') →
            BestOk env lists std base (done ++ [n]) (libStd env.stat n base std (some { name := r, vpath := i, path := j })) := by
          intro hd
          apply bestOk_std
          refine Or.inl ⟨hi, done, n, [], rfl, hfa, ?_, ?_⟩
          · intro m hm r'
            exact hd i j r' (by unfold PlaceLt; omega) m hm
          · intro i' j' r' hp m hm
            rcases List.mem_append.1 hm with hm | hm
            · refine hd i' j' r' ?_ m hm
              unfold PlaceLt at hp ⊢; simp only at hp; omega
            · simp only [List.mem_singleton] at hm; subst hm; exact hlt i' j' r' hp
        cases best with
        | none =>
          apply hstep (some { name := r, vpath := i, path := j })
          · rw [libLoop, if_neg hs, e]; simp
          · exact hnew (fun i' j' r' _ m hm => hb.1 m hm i' j' r')
        | some b =>
          rcases hb with ⟨hv, a, x, c, h1, h2, h3, h4⟩ | ⟨k, hk, hno', h5⟩
          · by_cases hbet : PlaceLt i j b.vpath b.path
            · apply hstep (some { name := r, vpath := i, path := j })
              · rw [libLoop, if_neg hs, e]
                have : (decide (i < b.vpath) || (decide (i = b.vpath) && decide (j < b.path))) = true := by
                  simpa [PlaceLt] using hbet
                simp [this]
              · apply hnew
                intro i' j' r' hnp m hm
                refine h4 i' j' r' ?_ m hm
                unfold PlaceLt at hbet hnp ⊢; omega
            · apply hstep (some b)
              · rw [libLoop, if_neg hs, e]
                have : (decide (i < b.vpath) || (decide (i = b.vpath) && decide (j < b.path))) = false := by
                  rw [← Bool.not_eq_true]; simpa [PlaceLt] using hbet
                simp [this]
              · apply bestOk_std
                refine Or.inl ⟨hv, a, x, c ++ [n], by rw [h1]; simp, h2, h3, ?_⟩
                intro i' j' r' hp m hm
                rcases List.mem_append.1 hm with hm | hm
                · exact h4 i' j' r' hp m hm
                · simp only [List.mem_singleton] at hm; subst hm
                  refine hlt i' j' r' ?_
                  unfold PlaceLt at hp hbet ⊢; omega
          · apply hstep (some { name := r, vpath := i, path := j })
            · rw [libLoop, if_neg hs, e]
              have : (decide (i < b.vpath) || (decide (i = b.vpath) && decide (j < b.path))) = true := by
                have : i < b.vpath := by omega
                simp [this]
              simp [this]
            · exact hnew (fun i' j' r' _ m hm => hno' m hm i' j' r')

theorem notFound_lists {env : VpathEnv} {lists : List (Pct × List Str)} {names : List Str}
    (h : ∀ n ∈ names, ∀ i j r, ¬ FoundAt env lists n i j r) :
    ∀ e ∈ lists, ∀ x ∈ e.2, ∀ m ∈ names, e.1.Matches m → NotIn env x m := by
  intro e he x hx m hm hmt t ht
  obtain ⟨i, hi, rfl⟩ := List.mem_iff_getElem.1 he
  obtain ⟨j, hj, rfl⟩ := List.mem_iff_getElem.1 hx
  exact h m hm i j _ ⟨_, _, _, t, List.getElem?_eq_getElem hi, List.getElem?_eq_getElem hj, hmt, ht, rfl⟩

theorem getElem?_split {α} {l : List α} {i : Nat} {x : α} (h : l[i]? = some x) :
    ∃ a b, l = a ++ x :: b ∧ a.length = i := by
  obtain ⟨hi, rfl⟩ := List.getElem?_eq_some_iff.1 h
  refine ⟨l.take i, l.drop (i + 1), ?_, by simp; omega⟩
  rw [List.getElem_cons_drop, List.take_append_drop]

/-- The result in the words of the specification. -/
theorem bestOk_found {env : VpathEnv} {lists : List (Pct × List Str)} {std names : List Str} {base : Nat}
    {best : Option LibBest} (hs : ∀ m ∈ names, env.stat m = none) (h : BestOk env lists std base names best) :
    LibFound env lists std names (best.map (·.name)) := by
  cases best with
  | none =>
    refine .missing hs (notFound_lists h.1) ?_
    intro x hx m hm
    obtain ⟨k, hk, rfl⟩ := List.mem_iff_getElem.1 hx
    apply Classical.byContradiction
    intro hne
    exact h.2 m hm k _ ⟨_, List.getElem?_eq_getElem hk, hne, rfl⟩
  | some b =>
    rcases h with ⟨hv, a, n, c, hnames, ⟨p, ds, d, t, k1, k2, k3, k4, k5⟩, ha, hlt⟩ | ⟨k, hk, hno, a, n, c, hnames, ⟨d, k1, k2, k3⟩, ha, hlt⟩
    · obtain ⟨la, lb, rfl, hla⟩ := getElem?_split k1
      obtain ⟨da, db, rfl, hda⟩ := getElem?_split k2
      show LibFound env _ std names (some b.name)
      rw [k5]
      refine .path hs rfl ?_ ?_ hnames ?_ k3 k4
      · intro e he x hx m hm hmt t' ht'
        obtain ⟨i, hi, rfl⟩ := List.mem_iff_getElem.1 he
        obtain ⟨j, hj, rfl⟩ := List.mem_iff_getElem.1 hx
        refine hlt i j _ (Or.inl (by omega)) m hm ⟨_, _, _, t', ?_, List.getElem?_eq_getElem hj, hmt, ht', rfl⟩
        rw [List.getElem?_append_left hi]
        exact List.getElem?_eq_getElem hi
      · intro x hx m hm hmt t' ht'
        obtain ⟨j, hj, rfl⟩ := List.mem_iff_getElem.1 hx
        refine hlt b.vpath j _ (Or.inr ⟨rfl, by omega⟩) m hm ⟨_, _, _, t', k1, ?_, hmt, ht', rfl⟩
        rw [List.getElem?_append_left hj]
        exact List.getElem?_eq_getElem hj
      · intro m hm hmt t' ht'
        exact ha m hm _ ⟨_, _, _, t', k1, k2, hmt, ht', rfl⟩
    · obtain ⟨sa, sb, rfl, hsa⟩ := getElem?_split k1
      show LibFound env lists _ names (some b.name)
      rw [k3]
      refine .standard hs (notFound_lists hno) rfl ?_ hnames ?_ k2
      · intro x hx m hm
        obtain ⟨j, hj, rfl⟩ := List.mem_iff_getElem.1 hx
        apply Classical.byContradiction
        intro hne
        refine hlt j _ (by omega) m hm ⟨_, ?_, hne, rfl⟩
        rw [List.getElem?_append_left hj]
        exact List.getElem?_eq_getElem hj
      · intro m hm
        apply Classical.byContradiction
        intro hne
        exact ha m hm _ ⟨d, k1, hne, rfl⟩

end Remake
