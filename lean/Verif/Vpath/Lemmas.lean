import Verif.Vpath.Spec
import Verif.Text.Lemmas4
import Verif.Quote.Lemmas
/-! Helper lemmas for the search paths. -/
set_option linter.unusedVariables false
set_option linter.unusedSimpArgs false
namespace Remake
open Remake.Spec

theorem dirSep_eq : dirSep = isPathSep := by
  funext c
  unfold dirSep isPathSep isBlank
  rw [Bool.eq_iff_iff]
  simp [or_assoc]

theorem fieldsOf_nil (p : Char → Bool) : fieldsOf p [] = [] := by simp [fieldsOf]

theorem fieldsOf_dropWhile (p : Char → Bool) (s : Str) : fieldsOf p (s.dropWhile p) = fieldsOf p s := by
  induction s with
  | nil => rfl
  | cons c cs ih =>
    rw [List.dropWhile_cons]
    split
    · rename_i h
      rw [ih]
      unfold fieldsOf
      rw [List.splitOnP_cons_eq_if_modifyHead (x := c)]
      simp [h]
    · rfl

theorem fieldsOf_head (p : Char → Bool) {c : Char} {cs : Str} (hc : p c = false) :
    fieldsOf p (c :: cs) = (c :: cs).takeWhile (fun c => !p c) ::
      fieldsOf p (((c :: cs).dropWhile (fun c => !p c)).dropWhile p) := by
  rw [fieldsOf_dropWhile]
  have hsplit := (List.takeWhile_append_dropWhile (p := fun c => !p c) (l := c :: cs)).symm
  have hne : (c :: cs).takeWhile (fun c => !p c) ≠ [] := by simp [hc]
  have hns : ∀ d ∈ (c :: cs).takeWhile (fun c => !p c), p d = false := by
    intro d hd
    have := mem_takeWhile_imp hd
    simpa using this
  generalize hw : (c :: cs).takeWhile (fun c => !p c) = w at *
  cases he : (c :: cs).dropWhile (fun c => !p c) with
  | nil =>
    rw [he, List.append_nil] at hsplit
    rw [hsplit, fieldsOf_nil]
    unfold fieldsOf
    rw [List.splitOnP_eq_singleton (by simpa using hns)]
    simp [hne]
  | cons d ds =>
    have hd : p d = true := by
      have := List.head_dropWhile_not (fun c => !p c) (l := c :: cs) (by simp [he])
      simpa [he] using this
    rw [he] at hsplit
    rw [hsplit]
    unfold fieldsOf
    rw [List.splitOnP_append_cons_of_forall_mem (by simpa using hns) _ hd]
    rw [List.splitOnP_cons_eq_if_modifyHead (x := d)]
    simp [hne, hd]

theorem rest_lt {c : Char} {cs : Str} (hc : isPathSep c = false) :
    (((c :: cs).dropWhile (fun c => !isPathSep c)).dropWhile isPathSep).length < (c :: cs).length := by
  rw [List.dropWhile_cons]
  simp only [hc, Bool.not_false, if_true]
  have h1 := dropWhile_length_le isPathSep (cs.dropWhile (fun c => !isPathSep c))
  have h2 := dropWhile_length_le (fun c => !isPathSep c) cs
  simp only [List.length_cons]
  omega

theorem rest_head (s : Str) (c : Char) (h : (s.dropWhile isPathSep).head? = some c) : isPathSep c = false := by
  cases hd : s.dropWhile isPathSep with
  | nil => rw [hd] at h; simp at h
  | cons d ds =>
    have := List.head_dropWhile_not isPathSep (l := s) (by simp [hd])
    rw [hd] at h
    simp only [List.head?_cons, Option.some.injEq] at h
    subst h
    simpa [hd] using this

theorem stripped_eq (w : Str) : (if 1 < w.length ∧ w.getLast? = some '/' then w.dropLast else w) = withoutSlash w := by
  unfold withoutSlash
  by_cases h : w.getLast? = some '/'
  · by_cases h1 : w = ['/']
    · subst h1; simp
    · have : 1 < w.length := by
        match w, h with
        | [c], h => simp at h; subst h; exact absurd rfl h1
        | _ :: _ :: _, _ => simp
      simp [h, h1, this]
  · simp [h]

theorem withoutSlash_ne (w : Str) (h : w ≠ []) : withoutSlash w ≠ [] := by
  unfold withoutSlash
  split
  · rename_i h2
    match w, h, h2 with
    | [c], _, h2 => simp at h2
    | a :: b :: r, _, _ => simp
  · exact h

theorem dot_test (v : Str) (h : v ≠ []) : (1 < v.length ∨ v.head? ≠ some '.') ↔ v ≠ ['.'] := by
  match v, h with
  | [c], _ => simp
  | a :: b :: r, _ => simp

/-- The loop over the text gives the directories and their greatest length. -/
theorem splitDirs_eq (m : Nat) (p : Str) (h : ∀ c, p.head? = some c → isPathSep c = false) :
    (splitDirs m p).1 = dirsOf p ∧ m ≤ (splitDirs m p).2 ∧
      ∀ d ∈ (splitDirs m p).1, d.length ≤ (splitDirs m p).2 := by
  generalize hn : p.length = n
  induction n using Nat.strongRecOn generalizing p m with
  | _ n ih =>
    cases p with
    | nil => unfold splitDirs; simp [dirsOf, fieldsOf_nil]
    | cons c cs =>
      have hc := h c rfl
      have hlt := rest_lt (cs := cs) hc
      have hfields := fieldsOf_head isPathSep (cs := cs) hc
      have hw : (c :: cs).takeWhile (fun c => !isPathSep c) ≠ [] := by simp [hc]
      have hih := fun m => ih _ (hn ▸ hlt) m _ (fun c => rest_head _ c) rfl
      rw [splitDirs]
      simp only
      rw [stripped_eq]
      rw [dif_pos hlt]
      have hd : dirsOf (c :: cs) = (if withoutSlash ((c :: cs).takeWhile (fun c => !isPathSep c)) ≠ ['.'] then
          [withoutSlash ((c :: cs).takeWhile (fun c => !isPathSep c))] else []) ++
          dirsOf (((c :: cs).dropWhile (fun c => !isPathSep c)).dropWhile isPathSep) := by
        unfold dirsOf
        rw [dirSep_eq, hfields, List.map_cons, List.filter_cons]
        split
        · rename_i h; simp only [decide_eq_true_eq] at h; simp [h]
        · rename_i h; simp only [decide_eq_true_eq] at h; simp [h]
      have hne := withoutSlash_ne _ hw
      by_cases hdot : withoutSlash ((c :: cs).takeWhile (fun c => !isPathSep c)) ≠ ['.']
      · rw [if_pos ((dot_test _ hne).2 hdot), hd, if_pos hdot]
        obtain ⟨h1, h2, h3⟩ := hih (max m (withoutSlash ((c :: cs).takeWhile (fun c => !isPathSep c))).length)
        refine ⟨by simp [h1], by simp only; omega, ?_⟩
        intro d hdm
        simp only [List.mem_cons] at hdm
        rcases hdm with rfl | hdm
        · simp only; omega
        · exact h3 d hdm
      · rw [if_neg (fun hh => hdot ((dot_test _ hne).1 hh)), hd, if_neg hdot]
        obtain ⟨h1, h2, h3⟩ := hih m
        exact ⟨by simp [h1], h2, h3⟩

theorem skipSeps_head (s : Str) : ∀ c, (skipSeps s).head? = some c → isPathSep c = false := rest_head s

theorem dirsOf_skip (s : Str) : dirsOf (skipSeps s) = dirsOf s := by
  unfold dirsOf skipSeps
  rw [dirSep_eq, fieldsOf_dropWhile]

/-- An entry of the list. -/
def entryOf (q : Unq) (text : Str) : VpathEntry :=
  { pat := q, dirs := dirsOf text, maxlen := (splitDirs 0 (skipSeps text)).2 }

theorem construct_some (p : Option Str) (d : Str) (vs : List VpathEntry) :
    constructVpath p (some d) vs =
      if dirsOf d = [] then vs else entryOf (findPercent (p.getD [])) d :: vs := by
  have h := (splitDirs_eq 0 (skipSeps d) (skipSeps_head d)).1
  rw [dirsOf_skip] at h
  unfold constructVpath entryOf
  simp only [h]

theorem entryOf_max (q : Unq) (text : Str) : ∀ d ∈ (entryOf q text).dirs, d.length ≤ (entryOf q text).maxlen := by
  have h := splitDirs_eq 0 (skipSeps text) (skipSeps_head text)
  intro d hd
  unfold entryOf at hd ⊢
  rw [← dirsOf_skip, ← h.1] at hd
  exact h.2.2 d hd

/-- The number of pieces is at most that of the separators plus one. -/
theorem fieldsOf_length (p : Char → Bool) (s : Str) : (fieldsOf p s).length ≤ (s.filter p).length + 1 := by
  unfold fieldsOf
  refine Nat.le_trans (List.length_filter_le _ _) ?_
  induction s with
  | nil => simp
  | cons c cs ih =>
    rw [List.splitOnP_cons_eq_if_modifyHead, List.filter_cons]
    split
    · simp only [List.length_cons]; omega
    · simpa using ih

theorem dirsOf_length (s : Str) : (dirsOf s).length + 1 ≤ maxElem s := by
  unfold maxElem
  rw [← dirsOf_skip]
  have h1 := fieldsOf_length isPathSep (skipSeps s)
  have h2 : (dirsOf (skipSeps s)).length ≤ (fieldsOf isPathSep (skipSeps s)).length := by
    unfold dirsOf
    rw [dirSep_eq]
    refine Nat.le_trans (List.length_filter_le _ _) (by simp)
  omega

/-! ## Names -/

theorem dirPrefix_split (file d b : Str) (h : file = d ++ '/' :: b) (hb : '/' ∉ b) : dirPrefix file = d := by
  subst h
  unfold dirPrefix
  rw [if_pos (by simp)]
  have : (d ++ '/' :: b).reverse.dropWhile (· ≠ '/') = '/' :: d.reverse := by
    rw [List.reverse_append, List.reverse_cons, List.append_assoc]
    rw [List.dropWhile_append_of_pos]
    · simp
    · intro c hc
      simp only [decide_not, Bool.not_eq_eq_eq_not, Bool.not_true, decide_eq_false_iff_not]
      rintro rfl
      exact hb (List.mem_reverse.1 hc)
  rw [this]
  simp

theorem lastPart_split (file d b : Str) (h : file = d ++ '/' :: b) (hb : '/' ∉ b) (hd : d ≠ []) : lastPart file = b := by
  unfold lastPart
  rw [dirPrefix_split file d b h hb, if_neg hd]
  subst h
  rw [List.reverse_append, List.reverse_cons, List.append_assoc]
  rw [List.takeWhile_append_of_pos]
  · simp
  · intro c hc
    simp only [decide_not, Bool.not_eq_eq_eq_not, Bool.not_true, decide_eq_false_iff_not]
    rintro rfl
    exact hb (List.mem_reverse.1 hc)

theorem last_slash (s : Str) (h : '/' ∈ s) : ∃ d b, s = d ++ '/' :: b ∧ '/' ∉ b := by
  induction s with
  | nil => simp at h
  | cons c cs ih =>
    by_cases hc : '/' ∈ cs
    · obtain ⟨d, b, rfl, hb⟩ := ih hc
      exact ⟨c :: d, b, rfl, hb⟩
    · simp only [List.mem_cons] at h
      rcases h with rfl | h
      · exact ⟨[], cs, rfl, hc⟩
      · exact absurd h hc

theorem dirPrefix_none (file : Str) (h : '/' ∉ file) : dirPrefix file = [] := by
  unfold dirPrefix; rw [if_neg h]

/-- For regular names and directories the path is the directory, a slash, and the name. -/
theorem regular_path {file dir : Str} (hf : Regular file) (hd : dir ≠ []) (hds : dir.getLast? ≠ some '/') :
    beforeP dir file ≠ [] ∧ (beforeP dir file).getLast? ≠ some '/' ∧
    beforeP dir file ++ '/' :: lastPart file = joinedDir dir file ∧ '/' ∉ lastPart file := by
  by_cases h : '/' ∈ file
  · obtain ⟨d, b, he, hb⟩ := last_slash file h
    have hdne : d ≠ [] := by
      rintro rfl
      exact hf.1 (by rw [he]; rfl)
    have h1 := dirPrefix_split file d b he hb
    have h2 := lastPart_split file d b he hb hdne
    have h3 := hf.2 d b he hb
    have hbp : beforeP dir file = dir ++ '/' :: d := by
      unfold beforeP; rw [h1, if_neg hdne]
    rw [hbp, h2]
    refine ⟨by simp, ?_, ?_, hb⟩
    · match d, hdne, h3 with
      | x :: xs, _, h3 => simpa using h3
    · rw [he]; simp [joinedDir]
  · have h1 := dirPrefix_none file h
    have hbp : beforeP dir file = dir := by unfold beforeP; rw [h1]; simp
    have hlp : lastPart file = file := by unfold lastPart; rw [h1]; simp
    rw [hbp, hlp]
    exact ⟨hd, hds, rfl, h⟩

theorem beforeP_length (dir file : Str) :
    (beforeP dir file).length ≤ dir.length + 1 + (dirPrefix file).length := by
  unfold beforeP
  split
  · omega
  · simp only [List.length_append, List.length_cons]; omega

/-- The room for the name is large enough. -/
theorem nameUsed_le (dir file : Str) (m : Nat) (h : dir.length ≤ m) : nameUsed dir file ≤ nameRoom m file := by
  have := beforeP_length dir file
  unfold nameUsed nameRoom pathName
  split <;> simp <;> omega

/-! ## Searching -/

theorem cached_iff (env : VpathEnv) (d b : Str) (hb : '/' ∉ b) :
    Cached env (d ++ '/' :: b) ↔ env.dirHas d b = true := by
  constructor
  · rintro ⟨d', b', he, hb', h⟩
    have h1 := dirPrefix_split _ d b rfl hb
    have h2 := dirPrefix_split _ d' b' he hb'
    rw [h1] at h2
    subst h2
    have := List.append_cancel_left he
    simp only [List.cons.injEq, true_and] at this
    rw [this]; exact h
  · intro h; exact ⟨d, b, rfl, hb, h⟩

/-- One directory, for regular names. -/
theorem tryDir_spec (env : VpathEnv) (file dir : Str) (hf : Regular file) (hd : dir ≠ [])
    (hds : dir.getLast? ≠ some '/') :
    (tryDir env file dir = .no ∧ ∀ t, ¬ There env file (joinedDir dir file) t) ∨
    ∃ t, tryDir env file dir = .yes (joinedDir dir file) t ∧ There env file (joinedDir dir file) t := by
  obtain ⟨h1, h2, h3, h4⟩ := regular_path hf hd hds
  have hp : pathName dir file = joinedDir dir file := by
    unfold pathName; rw [if_pos ⟨h1, h2⟩, h3]
  have hc : clobbered dir file = some (joinedDir dir file) := by
    unfold clobbered; rw [if_pos ⟨h1, h2⟩, h3]
  have hca : Cached env (joinedDir dir file) ↔ env.dirHas (beforeP dir file) (lastPart file) = true := by
    rw [← h3]; exact cached_iff env _ _ h4
  have hnt : ∀ f : VpathFile, ((match env.lookup file with
      | none => true
      | some f => !f.isTarget) || f.isTarget) = true ↔
      (f.isTarget = true ∨ ∀ g, env.lookup file = some g → g.isTarget = false) := by
    intro f
    cases env.lookup file with
    | none => simp
    | some g => cases hg : g.isTarget <;> cases f.isTarget <;> simp [hg]
  have hment : ∀ f, Mentioned env file (joinedDir dir file) f ↔
      (env.lookup (joinedDir dir file)).filter (fun f => (match env.lookup file with
      | none => true
      | some f => !f.isTarget) || f.isTarget) = some f := by
    intro f
    rw [Option.filter_eq_some_iff]
    unfold Mentioned
    rw [hnt]
  unfold tryDir
  simp only
  rw [hp, hc]
  cases hl : (env.lookup (joinedDir dir file)).filter (fun f => (match env.lookup file with
      | none => true
      | some f => !f.isTarget) || f.isTarget) with
  | some f =>
    have hm := (hment f).2 hl
    refine Or.inr ?_
    cases hs : f.special with
    | none => exact ⟨.unknown, by simp [hs], .plain hm hs⟩
    | some b => exact ⟨.special b, by simp [hs], .special hm hs⟩
  | none =>
    have hnm : ∀ f, ¬ Mentioned env file (joinedDir dir file) f := by
      intro f hm; have := (hment f).1 hm; rw [hl] at this; simp at this
    simp only
    cases hh : env.dirHas (beforeP dir file) (lastPart file) with
    | false =>
      refine Or.inl ⟨by simp, ?_⟩
      intro t ht
      cases ht with
      | plain hm _ => exact hnm _ hm
      | special hm _ => exact hnm _ hm
      | exists_ _ hcd _ => rw [hca, hh] at hcd; exact absurd hcd (by simp)
    | true =>
      cases hst : env.stat (joinedDir dir file) with
      | none =>
        refine Or.inl ⟨by simp, ?_⟩
        intro t ht
        cases ht with
        | plain hm _ => exact hnm _ hm
        | special hm _ => exact hnm _ hm
        | exists_ _ _ hs => rw [hst] at hs; exact absurd hs (by simp)
      | some t => exact Or.inr ⟨.stat t, by simp, .exists_ hnm (hca.2 hh) hst⟩

theorem there_unique {env : VpathEnv} {file path : Str} {t t' : VpathTime} (h : There env file path t)
    (h' : There env file path t') : t = t' := by
  cases h with
  | plain hm hs =>
    cases h' with
    | plain => rfl
    | special hm' hs' =>
      have := hm.1.symm.trans hm'.1
      simp only [Option.some.injEq] at this
      subst this; rw [hs] at hs'; exact absurd hs' (by simp)
    | exists_ hn => exact absurd hm (hn _)
  | special hm hs =>
    cases h' with
    | plain hm' hs' =>
      have := hm.1.symm.trans hm'.1
      simp only [Option.some.injEq] at this
      subst this; rw [hs] at hs'; exact absurd hs' (by simp)
    | special hm' hs' =>
      have := hm.1.symm.trans hm'.1
      simp only [Option.some.injEq] at this
      subst this; rw [hs] at hs'; simp only [Option.some.injEq] at hs'; rw [hs']
    | exists_ hn => exact absurd hm (hn _)
  | exists_ hn hc hs =>
    cases h' with
    | plain hm => exact absurd hm (hn _)
    | special hm => exact absurd hm (hn _)
    | exists_ _ _ hs' => rw [hs] at hs'; simp only [Option.some.injEq] at hs'; rw [hs']

theorem firstIn_unique {env : VpathEnv} {file : Str} {ds : List Str} {r r' : Option (Str × VpathTime)}
    (h : FirstIn env file ds r) (h' : FirstIn env file ds r') : r = r' := by
  cases h with
  | none hn =>
    generalize he : ds = ds' at h'
    cases h' with
    | none => rfl
    | some hb ht => exact absurd ht (hn _ (by rw [he]; simp) _)
  | @some before d after t hb ht =>
    generalize he : before ++ d :: after = ds' at h'
    cases h' with
    | none hn => exact absurd ht (hn _ (by rw [← he]; simp) _)
    | @some before' d' after' t' hb' ht' =>
      rcases List.append_eq_append_iff.1 he with ⟨m, h1, h2⟩ | ⟨m, h1, h2⟩
      · cases m with
        | nil =>
          simp only [List.nil_append, List.cons.injEq] at h2
          obtain ⟨rfl, rfl⟩ := h2
          rw [there_unique ht ht']
        | cons x xs =>
          simp only [List.cons_append, List.cons.injEq] at h2
          obtain ⟨rfl, _⟩ := h2
          exact absurd ht (hb' _ (by rw [h1]; simp) _)
      · cases m with
        | nil =>
          simp only [List.nil_append, List.cons.injEq] at h2
          obtain ⟨rfl, rfl⟩ := h2
          rw [there_unique ht ht']
        | cons x xs =>
          simp only [List.cons_append, List.cons.injEq] at h2
          obtain ⟨rfl, _⟩ := h2
          exact absurd ht' (hb _ (by rw [h1]; simp) _)

/-- The directories are usable: not empty, no slash at the end. -/
def DirsOk (ds : List Str) : Prop := ∀ d ∈ ds, d ≠ [] ∧ d.getLast? ≠ some '/'

/-- The outcome as a result of the specification. -/
def hitOf : VpathHit → Option (Option (Str × VpathTime))
  | .no => some none
  | .yes n t => some (some (n, t))
  | .overrun => none

theorem firstIn_cons_no {env : VpathEnv} {file d : Str} {ds : List Str} {r : Option (Str × VpathTime)}
    (h : ∀ t, ¬ There env file (joinedDir d file) t) (hf : FirstIn env file ds r) : FirstIn env file (d :: ds) r := by
  cases hf with
  | none hn =>
    refine .none ?_
    intro x hx
    rcases List.mem_cons.1 hx with rfl | hx
    · exact h
    · exact hn x hx
  | @some b d' a t hb ht =>
    rw [← List.cons_append]
    refine .some ?_ ht
    intro x hx
    rcases List.mem_cons.1 hx with rfl | hx
    · exact h
    · exact hb x hx

theorem selective_spec (env : VpathEnv) (file : Str) (hf : Regular file) (ds : List Str) (hd : DirsOk ds) (i : Nat) :
    ∃ r, hitOf (selectiveSearch env file i ds).1 = some r ∧ FirstIn env file ds r := by
  induction ds generalizing i with
  | nil => exact ⟨none, rfl, .none (by simp)⟩
  | cons d ds ih =>
    have hd1 := hd d (by simp)
    rcases tryDir_spec env file d hf hd1.1 hd1.2 with ⟨h1, h2⟩ | ⟨t, h1, h2⟩
    · obtain ⟨r, hr1, hr2⟩ := ih (fun x hx => hd x (by simp [hx])) (i + 1)
      refine ⟨r, ?_, firstIn_cons_no h2 hr2⟩
      rw [selectiveSearch, h1]
      exact hr1
    · refine ⟨some (joinedDir d file, t), ?_, ?_⟩
      · rw [selectiveSearch, h1]; rfl
      · exact FirstIn.some (before := []) (by simp) h2

theorem firstIn_append_none {env : VpathEnv} {file : Str} {as bs : List Str} {r : Option (Str × VpathTime)}
    (ha : FirstIn env file as none) (hb : FirstIn env file bs r) : FirstIn env file (as ++ bs) r := by
  cases ha with
  | none ha =>
    induction as with
    | nil => exact hb
    | cons a as ih =>
      exact firstIn_cons_no (ha a (by simp)) (ih (fun d hd => ha d (by simp [hd])))

theorem firstIn_append_some {env : VpathEnv} {file : Str} {as bs : List Str} {x : Str × VpathTime}
    (ha : FirstIn env file as (some x)) : FirstIn env file (as ++ bs) (some x) := by
  cases ha with
  | some h1 h2 => rw [List.append_assoc, List.cons_append]; exact .some h1 h2

theorem vpathLoop_spec (env : VpathEnv) (file : Str) (hf : Regular file) (g : Option VpathEntry)
    (hg : ∀ e, g = some e → DirsOk e.dirs) (vs : List VpathEntry) (hv : ∀ e ∈ vs, DirsOk e.dirs) (i : Nat) :
    ∃ r, hitOf (vpathLoop env g file i vs).1 = some r ∧
      FirstIn env file ((vs.filter (fun e => patternMatches e.pat file)).flatMap (·.dirs) ++
        (match g with | none => [] | some e => e.dirs)) r := by
  induction vs generalizing i with
  | nil =>
    cases g with
    | none => exact ⟨none, rfl, .none (by simp)⟩
    | some e =>
      obtain ⟨r, h1, h2⟩ := selective_spec env file hf e.dirs (hg e rfl) 0
      exact ⟨r, by simpa [vpathLoop] using h1, by simpa using h2⟩
  | cons v vs ih =>
    have hvs : ∀ e ∈ vs, DirsOk e.dirs := fun e he => hv e (by simp [he])
    by_cases hm : patternMatches v.pat file = true
    · obtain ⟨r, h1, h2⟩ := selective_spec env file hf v.dirs (hv v (by simp)) 0
      rw [vpathLoop, if_pos hm, List.filter_cons, if_pos hm, List.flatMap_cons, List.append_assoc]
      cases hs : selectiveSearch env file 0 v.dirs with
      | mk hit j =>
        rw [hs] at h1
        cases hit with
        | no =>
          simp only [hitOf, Option.some.injEq] at h1
          subst h1
          obtain ⟨r', k1, k2⟩ := ih hvs (i + 1)
          exact ⟨r', k1, firstIn_append_none h2 k2⟩
        | yes n t =>
          simp only [hitOf, Option.some.injEq] at h1
          subst h1
          exact ⟨_, rfl, firstIn_append_some h2⟩
        | overrun => simp [hitOf] at h1
    · rw [vpathLoop, if_neg hm, List.filter_cons, if_neg hm]
      exact ih hvs (i + 1)

end Remake
