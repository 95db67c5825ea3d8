import Verif.Path.Model
import Verif.Path.Spec
import Verif.Text.Lemmas
set_option linter.unusedVariables false
/-!
# Property C13: absolute file names
-/
namespace Remake
open Spec

/-! ### helpers -/

/-- Reversed buffer contents for a reversed component list. -/
def revPath : List Str → Str
  | [] => []
  | c :: r => c.reverse ++ '/' :: revPath r

/-- The buffer represents the directory `cs`. -/
def DestRep (dest : Str) (cs : List Str) : Prop :=
  dest = '/' :: revPath cs.reverse ∨ (cs ≠ [] ∧ dest = revPath cs.reverse)

theorem components_nil : components [] = [] := by simp [components]

theorem components_slash (s : Str) : components ('/' :: s) = components s := by
  unfold components; rw [List.splitOnP_cons_eq_if_modifyHead]; simp

theorem components_dropSlash (s : Str) : components (s.dropWhile (· == '/')) = components s := by
  induction s with
  | nil => rfl
  | cons c cs ih =>
    rw [List.dropWhile_cons]
    split
    · rename_i h; simp at h; subst h; rw [ih, components_slash]
    · rfl

theorem components_comp {w : Str} (hw : w ≠ []) (hns : '/' ∉ w) {r : Str}
    (hr : r = [] ∨ r.head? = some '/') : components (w ++ r) = w :: components r := by
  have hns' : ∀ c ∈ w, (c == '/') = false := by
    intro c hc; simp; rintro rfl; exact hns hc
  rcases hr with rfl | hr
  · rw [List.append_nil, components_nil]
    unfold components
    rw [List.splitOnP_eq_singleton (by simpa using hns')]
    simp [hw]
  · cases r with
    | nil => simp at hr
    | cons x xs =>
      simp at hr; subst hr
      rw [components_slash]
      unfold components
      rw [List.splitOnP_append_cons_of_forall_mem (by simpa using hns') _ (by simp)]
      simp [hw]

/-- First component of a name that does not start with a slash. -/
theorem components_first (c : Char) (cs : Str) (hc : c ≠ '/') :
    components (c :: cs) = (c :: cs).takeWhile (fun c => c != '/') ::
      components ((c :: cs).dropWhile (fun c => c != '/')) := by
  conv => lhs; rw [← List.takeWhile_append_dropWhile (p := fun c => c != '/') (l := c :: cs)]
  apply components_comp
  · rw [List.takeWhile_cons_of_pos (by simpa using hc)]; simp
  · intro h; have := mem_takeWhile_imp h; simp at this
  · cases h : (c :: cs).dropWhile (fun c => c != '/') with
    | nil => left; rfl
    | cons x xs =>
      right
      have hne : (c :: cs).dropWhile (fun c => c != '/') ≠ [] := by rw [h]; simp
      have := List.head_dropWhile_not (fun c => c != '/') hne
      simp only [h, List.head_cons] at this
      simp at this; subst this; rfl

theorem mem_components {w s : Str} (h : w ∈ components s) : w ≠ [] ∧ '/' ∉ w := by
  generalize hn : s.length = n
  induction n using Nat.strongRecOn generalizing s with
  | _ n ih =>
    rw [← components_dropSlash] at h
    match hd : s.dropWhile (· == '/') with
    | [] => rw [hd, components_nil] at h; simp at h
    | c :: cs =>
      have hc : c ≠ '/' := by
        have hne : s.dropWhile (· == '/') ≠ [] := by rw [hd]; simp
        have := List.head_dropWhile_not (· == '/') (l := s) hne
        simp only [hd, List.head_cons] at this
        simpa using this
      rw [hd, components_first c cs hc] at h
      simp only [List.mem_cons] at h
      rcases h with rfl | h
      · constructor
        · rw [List.takeWhile_cons_of_pos (by simpa using hc)]; simp
        · intro h; have := mem_takeWhile_imp h; simp at this
      · have h1 := dropWhile_length_le (· == '/') s
        have h2 := dropWhile_length_le (fun c => c != '/') cs
        rw [hd] at h1
        refine ih _ ?_ h rfl
        rw [List.dropWhile_cons_of_pos (by simpa using hc)]
        simp at h1; omega

theorem revPath_append (a b : List Str) : revPath (a ++ b) = revPath a ++ revPath b := by
  induction a with
  | nil => rfl
  | cons c a ih => simp [revPath, ih]

theorem head_revPath {c : Str} {r : List Str} (hc : Proper c) :
    ∃ x xs, c.reverse = x :: xs ∧ x ≠ '/' := by
  cases h : c.reverse with
  | nil => simp at h; exact absurd h hc.1
  | cons x xs =>
    refine ⟨x, xs, rfl, ?_⟩
    rintro rfl
    exact hc.2.2.2 (by rw [← List.mem_reverse, h]; simp)

theorem absSlash_rep {dest : Str} {cs : List Str} (h : DestRep dest cs) (hp : ∀ c ∈ cs, Proper c) :
    absSlash dest = '/' :: revPath cs.reverse := by
  rcases h with rfl | ⟨hne, rfl⟩
  · simp [absSlash]
  · unfold absSlash
    cases hr : cs.reverse with
    | nil => simp at hr; exact absurd hr hne
    | cons c r =>
      have hcm : c ∈ cs := by rw [← List.mem_reverse, hr]; simp
      obtain ⟨x, xs, hx, hx2⟩ := head_revPath (r := r) (hp c hcm)
      simp [revPath, hx, hx2]

theorem absBackup_rep {dest : Str} {cs : List Str} (h : DestRep dest cs) (hp : ∀ c ∈ cs, Proper c) :
    DestRep (absUp dest) cs.dropLast := by
  unfold absUp
  have key : ∀ (c : Str) (r : List Str), Proper c →
      (c.reverse ++ '/' :: revPath r).dropWhile (fun c => c != '/') = '/' :: revPath r ∧
      (c.reverse ++ '/' :: revPath r).tail.dropWhile (fun c => c != '/') = '/' :: revPath r := by
    intro c r hc
    have hall : ∀ d ∈ c.reverse, (d != '/') = true := by
      intro d hd; simp; rintro rfl; exact hc.2.2.2 (by simpa using hd)
    constructor
    · rw [List.dropWhile_append_of_pos hall]; simp
    · obtain ⟨x, xs, hx, -⟩ := head_revPath (r := r) hc
      rw [hx] at hall ⊢
      simp only [List.cons_append, List.tail_cons]
      rw [List.dropWhile_append_of_pos (fun d hd => hall d (by simp [hd]))]; simp
  cases hr : cs.reverse with
  | nil =>
    simp at hr; subst hr
    rcases h with rfl | ⟨hne, -⟩
    · simp [revPath, DestRep]
    · exact absurd rfl hne
  | cons c r =>
    have hcm : c ∈ cs := by rw [← List.mem_reverse, hr]; simp
    have hdl : cs.dropLast.reverse = r := by
      have : cs = r.reverse ++ [c] := by
        have := congrArg List.reverse hr; simpa using this
      rw [this]; simp
    have hpc := hp c hcm
    obtain ⟨x, xs, hx, -⟩ := head_revPath (r := r) hpc
    left
    rw [hdl]
    rcases h with h | ⟨hne, h⟩
    · rw [h, hr]
      rw [if_pos (by simp [revPath]; omega)]
      unfold absBackup
      simp only [List.tail_cons, revPath]
      exact (key c r hpc).1
    · rw [h, hr]
      rw [if_pos (by simp [revPath, hx]; omega)]
      unfold absBackup
      simp only [revPath]
      exact (key c r hpc).2

theorem absGo_spec (limit : Nat) (dest name : Str) (cs : List Str) (h : DestRep dest cs)
    (hp : ∀ c ∈ cs, Proper c) {d : Str} (hd : absGo limit dest name = some d) :
    DestRep d (resolve cs (components name)) ∧ ∀ c ∈ resolve cs (components name), Proper c := by
  have firstNe : ∀ {name : Str} {c : Char} {r : Str}, name.dropWhile (· == '/') = c :: r → c ≠ '/' := by
    intro name c r hd
    have hne : name.dropWhile (· == '/') ≠ [] := by rw [hd]; simp
    have := List.head_dropWhile_not (· == '/') (l := name) hne
    simp only [hd, List.head_cons] at this
    simpa using this
  fun_induction absGo limit dest name generalizing cs with
  | case1 dest name hn =>
    cases hd
    rw [← components_dropSlash, hn, components_nil]
    exact ⟨h, hp⟩
  | case2 dest name c r hn comp rest hc ih =>
    rw [← components_dropSlash, hn, components_first c r (firstNe hn)]
    show DestRep d (resolve cs (comp :: components rest)) ∧ ∀ c ∈ resolve cs (comp :: components rest), Proper c
    rw [resolve, if_pos hc]
    exact ih cs h hp hd
  | case3 dest name c r hn comp rest hc hc2 ih =>
    rw [← components_dropSlash, hn, components_first c r (firstNe hn)]
    show DestRep d (resolve cs (comp :: components rest)) ∧ ∀ c ∈ resolve cs (comp :: components rest), Proper c
    rw [resolve, if_neg hc, if_pos hc2]
    exact ih cs.dropLast (absBackup_rep h hp) (fun c hc => hp c (List.dropLast_subset _ hc)) hd
  | case4 dest name c r hn comp hc hc2 hlim => cases hd
  | case5 dest name c r hn comp rest hc hc2 hlim ih =>
    rw [← components_dropSlash, hn]
    have hfirst := components_first c r (firstNe hn)
    rw [hfirst]
    show DestRep d (resolve cs (comp :: components rest)) ∧ ∀ c ∈ resolve cs (comp :: components rest), Proper c
    have hcomp : Proper comp := by
      have := mem_components (w := comp) (s := c :: r) (by rw [hfirst]; simp [comp])
      exact ⟨this.1, hc, hc2, this.2⟩
    rw [resolve, if_neg hc, if_neg hc2]
    refine ih (cs ++ [comp]) ?_ ?_ hd
    · right
      refine ⟨by simp, ?_⟩
      rw [absSlash_rep h hp]; simp [revPath]
    · intro x hx
      simp only [List.mem_append, List.mem_singleton] at hx
      rcases hx with hx | rfl
      · exact hp x hx
      · exact hcomp

theorem absGo_total (limit : Nat) (dest name : Str)
    (h : dest.length + 1 + (name.dropWhile (· == '/')).length < limit) :
    ∃ d, absGo limit dest name = some d := by
  have key : ∀ (c : Char) (r : Str), c ≠ '/' →
      ((c :: r).takeWhile (fun c => c != '/')).length + 1 +
        (((c :: r).dropWhile (fun c => c != '/')).dropWhile (· == '/')).length ≤ (c :: r).length + 1 ∧
      (((c :: r).dropWhile (fun c => c != '/')) ≠ [] →
        ((c :: r).takeWhile (fun c => c != '/')).length + 1 +
        (((c :: r).dropWhile (fun c => c != '/')).dropWhile (· == '/')).length ≤ (c :: r).length) := by
    intro c r hc
    have h1 := congrArg List.length
      (List.takeWhile_append_dropWhile (p := fun c => c != '/') (l := c :: r))
    rw [List.length_append] at h1
    have h2 := dropWhile_length_le (· == '/') ((c :: r).dropWhile (fun c => c != '/'))
    refine ⟨by omega, fun hne => ?_⟩
    cases hd : (c :: r).dropWhile (fun c => c != '/') with
    | nil => exact absurd hd hne
    | cons x xs =>
      have := List.head_dropWhile_not (fun c => c != '/') hne
      simp only [hd, List.head_cons] at this
      simp at this; subst this
      rw [hd] at h1
      have := dropWhile_length_le (· == '/') xs
      rw [List.dropWhile_cons_of_pos (by simp)]
      simp at h1 ⊢; omega
  have firstNe : ∀ {name : Str} {c : Char} {r : Str}, name.dropWhile (· == '/') = c :: r → c ≠ '/' := by
    intro name c r hd
    have hne : name.dropWhile (· == '/') ≠ [] := by rw [hd]; simp
    have := List.head_dropWhile_not (· == '/') (l := name) hne
    simp only [hd, List.head_cons] at this
    simpa using this
  have slen : ∀ d : Str, (absSlash d).length ≤ d.length + 1 := by
    intro d; unfold absSlash; split <;> simp
  have blen : ∀ d : Str, (absBackup d).length ≤ d.length := by
    intro d; unfold absBackup
    have := dropWhile_length_le (fun c => c != '/') d.tail
    simp at this; omega
  fun_induction absGo limit dest name with
  | case1 dest name hn => exact ⟨dest, rfl⟩
  | case2 dest name c r hn comp rest hc ih =>
    have := key c r (firstNe hn)
    refine ih ?_
    rw [hn] at h
    have := this.1
    simp only [rest]
    omega
  | case3 dest name c r hn comp rest hc hc2 ih =>
    have := (key c r (firstNe hn)).1
    refine ih ?_
    rw [hn] at h
    have h3 : (absUp dest).length ≤ dest.length := by
      unfold absUp
      split
      · exact blen dest
      · exact Nat.le_refl _
    simp only [rest]
    omega
  | case4 dest name c r hn comp hc hc2 hlim =>
    exfalso
    have h1 := (key c r (firstNe hn)).1
    have h2 := slen dest
    rw [hn] at h
    simp only [comp] at hlim
    have := congrArg List.length
      (List.takeWhile_append_dropWhile (p := fun c => c != '/') (l := c :: r))
    rw [List.length_append] at this
    omega
  | case5 dest name c r hn comp rest hc hc2 hlim ih =>
    have h2 := slen dest
    rw [hn] at h
    by_cases hr : rest = []
    · rw [hr, absGo]
      split
      · exact ⟨_, rfl⟩
      · rename_i hh; simp at hh
    · refine ih ?_
      have h1 := (key c r (firstNe hn)).2 hr
      simp only [List.length_append, List.length_reverse]
      simp only [comp, rest]
      omega

theorem intercalate_slash (cs : List Str) (c : Str) :
    ['/'].intercalate (cs ++ [c]) = (if cs = [] then c else ['/'].intercalate cs ++ '/' :: c) := by
  induction cs with
  | nil => simp
  | cons d ds ih =>
    cases ds with
    | nil => simp [List.intercalate, List.intersperse]
    | cons e es =>
      have h1 : ['/'].intercalate (d :: e :: es ++ [c]) = d ++ '/' :: ['/'].intercalate (e :: es ++ [c]) := by
        simp [List.intercalate, List.intersperse]
      have h2 : ['/'].intercalate (d :: e :: es) = d ++ '/' :: ['/'].intercalate (e :: es) := by
        simp [List.intercalate, List.intersperse]
      rw [h1, ih, h2]; simp

theorem pathOf_eq (cs : List Str) : pathOf cs = if cs = [] then ['/'] else (revPath cs.reverse).reverse := by
  unfold pathOf
  have key : ∀ r : List Str, '/' :: ['/'].intercalate r.reverse =
      if r = [] then ['/'] else (revPath r).reverse := by
    intro r
    induction r with
    | nil => rfl
    | cons c r ih =>
      rw [List.reverse_cons, intercalate_slash]
      by_cases h : r = []
      · subst h; simp [revPath]
      · rw [if_neg h] at ih
        rw [if_neg (by simpa using h), if_neg (by simp), ← List.cons_append, ih]
        simp [revPath]
  have := key cs.reverse
  rw [List.reverse_reverse] at this
  rw [this]
  simp

theorem destRep_pathOf {d : Str} {cs : List Str} (h : DestRep d cs) (hp : ∀ c ∈ cs, Proper c) :
    (if d.length > 1 ∧ d.head? = some '/' then d.tail else d).reverse = pathOf cs := by
  rw [pathOf_eq]
  rcases h with rfl | ⟨hne, rfl⟩
  · by_cases h : cs = []
    · subst h; simp [revPath]
    · rw [if_neg h]
      have : (revPath cs.reverse).length > 0 := by
        cases hr : cs.reverse with
        | nil => simp at hr; exact absurd hr h
        | cons c r => simp [revPath]; omega
      rw [if_pos (by simp; omega)]; rfl
  · rw [if_neg hne]
    rw [if_neg]
    rintro ⟨-, hh⟩
    cases hr : cs.reverse with
    | nil => simp at hr; exact hne hr
    | cons c r =>
      have hcm : c ∈ cs := by rw [← List.mem_reverse, hr]; simp
      obtain ⟨x, xs, hx, hx2⟩ := head_revPath (r := r) (hp c hcm)
      rw [hr] at hh
      simp [revPath, hx] at hh
      exact hx2 hh

theorem destRep_of_pathOf {cs : List Str} : DestRep (pathOf cs).reverse cs := by
  rw [pathOf_eq]
  by_cases h : cs = []
  · subst h; left; simp [revPath]
  · right; rw [if_neg h]; exact ⟨h, by simp⟩

theorem components_pathOf {cs : List Str} (hp : ∀ c ∈ cs, Proper c) : components (pathOf cs) = cs := by
  unfold pathOf
  rw [components_slash]
  induction cs with
  | nil => simp [components_nil]
  | cons c cs ih =>
    have hc := hp c (by simp)
    have ih' := ih (fun x hx => hp x (by simp [hx]))
    cases cs with
    | nil =>
      have := components_comp hc.1 hc.2.2.2 (Or.inl rfl : ([] : Str) = [] ∨ _)
      simpa [components_nil] using this
    | cons d ds =>
      have : ['/'].intercalate (c :: d :: ds) = c ++ '/' :: ['/'].intercalate (d :: ds) := by
        simp [List.intercalate, List.intersperse]
      rw [this, components_comp hc.1 hc.2.2.2 (Or.inr rfl), components_slash, ih']

theorem resolve_proper {base cs : List Str} (hp : ∀ c ∈ cs, Proper c) : resolve base cs = base ++ cs := by
  induction cs generalizing base with
  | nil => simp [resolve]
  | cons c cs ih =>
    have hc := hp c (by simp)
    rw [resolve, if_neg hc.2.1, if_neg hc.2.2.1, ih (fun x hx => hp x (by simp [hx]))]; simp

/-! ### the property -/

/-- Whenever `$(abspath name)` yields a value, it is the name of the directory
reached by walking the components of `name` from the starting directory (or from the root, for an
absolute name), and all its components are proper. -/
theorem C13_abspath (base : List Str) (hb : ∀ c ∈ base, Proper c) (limit : Nat) (name p : Str)
    (h : abspath (some (pathOf base)) limit name = some p) :
    p = pathOf (resolve (if name.head? = some '/' then [] else base) (components name)) ∧
    ∀ c ∈ resolve (if name.head? = some '/' then [] else base) (components name), Proper c := by
  unfold abspath at h
  match name, h with
  | c :: cs, h =>
    simp only at h
    by_cases hc : c = '/'
    · subst hc
      simp only [ne_eq, not_true_eq_false, if_false] at h
      match hg : absGo limit ['/'] cs, h with
      | some d, h =>
        simp only [Option.some.injEq] at h
        have hrep : DestRep ['/'] [] := Or.inl rfl
        obtain ⟨h1, h2⟩ := absGo_spec limit ['/'] cs [] hrep (by simp) hg
        have e : (if ('/' :: cs).head? = some '/' then ([] : List Str) else base) = [] := by simp
        rw [e, components_slash, ← h]
        exact ⟨destRep_pathOf h1 h2, h2⟩
    · simp only [ne_eq, hc, not_false_eq_true, if_true] at h
      match hg : absGo limit (pathOf base).reverse (c :: cs), h with
      | some d, h =>
        simp only [Option.some.injEq] at h
        obtain ⟨h1, h2⟩ := absGo_spec limit _ (c :: cs) base destRep_of_pathOf hb hg
        have e : (if (c :: cs).head? = some '/' then ([] : List Str) else base) = base := by simp [hc]
        rw [e, ← h]
        exact ⟨destRep_pathOf h1 h2, h2⟩

/-- It does yield a value for every non-empty name that fits with the starting directory into
`PATH_MAX`. -/
theorem C13_abspath_total (base : List Str) (limit : Nat) (name : Str) (hne : name ≠ [])
    (hlen : (pathOf base).length + 1 + name.length < limit) :
    ∃ p, abspath (some (pathOf base)) limit name = some p := by
  unfold abspath
  match name, hne with
  | c :: cs, _ =>
    simp only
    have hp : 0 < (pathOf base).length := by simp [pathOf]
    have hd := dropWhile_length_le (· == '/') cs
    have hd2 := dropWhile_length_le (· == '/') (c :: cs)
    by_cases hc : c = '/'
    · subst hc
      obtain ⟨d, hg⟩ := absGo_total limit ['/'] cs (by simp at hlen ⊢; omega)
      simp [hg]
    · obtain ⟨d, hg⟩ := absGo_total limit (pathOf base).reverse (c :: cs) (by
        simp only [List.length_reverse]; simp at hlen hd2 ⊢; omega)
      simp [hc, hg]

/-- The result is canonical: applying `abspath` again, from any directory, does not change it. -/
theorem C13_abspath_idem (base base' : List Str) (hb : ∀ c ∈ base, Proper c)
    (hb' : ∀ c ∈ base', Proper c) (limit : Nat) (name p q : Str)
    (h : abspath (some (pathOf base)) limit name = some p)
    (h' : abspath (some (pathOf base')) limit p = some q) : q = p := by
  obtain ⟨h1, h2⟩ := C13_abspath base hb limit name p h
  obtain ⟨h3, -⟩ := C13_abspath base' hb' limit p q h'
  have hhead : p.head? = some '/' := by rw [h1]; rfl
  rw [if_pos hhead] at h3
  have hcomp : components p = resolve (if name.head? = some '/' then [] else base) (components name) := by
    rw [h1]; exact components_pathOf h2
  rw [hcomp, resolve_proper h2, List.nil_append, ← h1] at h3
  exact h3

/-- `$(abspath names)` maps the words in order, dropping those without a value. -/
theorem C13_func (start : Option Str) (limit : Nat) (text : Str) :
    funcAbspath start limit text = unwords ((wordsOf text).filterMap
      (fun w => if w.length < limit then abspath start limit w else none)) := by
  unfold funcAbspath
  rw [tokens_eq]
  simp only
  exact foldl_words_out _ _ (by
    intro st w
    unfold abspathStep
    split
    · split <;> simp_all
    · rfl) _

example : Proper "a".toList ∧ abspath (some (pathOf ["a".toList])) 4096 "../b//./c/".toList
    = some "/b/c".toList := by
  constructor
  · simp [Proper]
  · obtain ⟨p, hp⟩ := C13_abspath_total ["a".toList] 4096 "../b//./c/".toList (by decide) (by decide)
    have := (C13_abspath ["a".toList] (by simp [Proper]) 4096 _ _ hp).1
    rw [hp, this]
    decide

end Remake
