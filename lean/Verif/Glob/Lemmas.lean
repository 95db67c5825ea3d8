import Verif.Glob.Model
import Verif.Glob.Spec
import Verif.Glob.MatchProps
/-! Lemmas about `glob`. -/
set_option linter.unusedVariables false
set_option linter.unusedSimpArgs false
namespace Remake
open Spec

/-! ## Wildcards in a text -/

theorem globPatternP_set : ∀ (u t : Str), '\\' ∉ u → globPatternP true (u ++ ']' :: t) = true
  | [], t, _ => by rw [List.nil_append, globPatternP.eq_def]; simp
  | c :: u, t, h => by
    have h1 : ¬ c = '\\' := fun e => h (by simp [e])
    have ih := globPatternP_set u t fun hm => h (by simp [hm])
    rw [List.cons_append, globPatternP.eq_def]
    simp only [h1, if_false, ih]
    split
    · rfl
    · split
      · rfl
      · split <;> simp

theorem setItem_no_backslash {i : SetItem} (h : i.plain) : '\\' ∉ i.text := by
  have hp : ∀ c, plainInSet c → c ≠ '\\' := by
    rintro c h rfl
    exact h (by decide)
  cases i with
  | ch c =>
    intro hm
    simp [SetItem.text] at hm
    exact hp c h hm.symm
  | range a b =>
    intro hm
    simp [SetItem.text] at hm
    rcases hm with hm | hm
    · exact hp a h.1 hm.symm
    · exact hp b h.2.1 hm.symm

theorem globPatternP_append : ∀ (c : List GItem), (∀ p ∈ c, p.plain false) → ∀ t,
    globPatternP false (patText c ++ t) = (c.any GItem.wild || globPatternP false t)
  | [], _, t => by simp [patText]
  | p :: c, hp, t => by
    have ih := globPatternP_append c (fun p h => hp p (by simp [h])) t
    have h0 := hp p (by simp)
    rw [patText_cons, List.append_assoc]
    cases p with
    | any => simp [GItem.text, globPatternP.eq_def _ (_ :: _), GItem.wild]
    | star => simp [GItem.text, globPatternP.eq_def _ (_ :: _), GItem.wild]
    | set neg items =>
      have hb : '\\' ∉ (if neg then ['!'] else []) ++ items.flatMap SetItem.text := by
        intro hm
        rcases List.mem_append.1 hm with hm | hm
        · cases neg <;> simp at hm
        · obtain ⟨i, hi, hm⟩ := List.mem_flatMap.1 hm
          exact setItem_no_backslash (h0.2.1 i hi) hm
      have := globPatternP_set _ (patText c ++ t) hb
      simp only [GItem.text, List.cons_append, List.append_assoc, List.nil_append, List.any_cons, GItem.wild, Bool.true_or]
      rw [globPatternP.eq_def]
      simp only [show ¬ ('[' = '?' ∨ '[' = '*') by decide, show ¬ ('[' = '\\') by decide, if_false, if_true]
      simpa using this
    | lit esc x =>
      simp only [List.any_cons, GItem.wild, Bool.false_or]
      cases esc with
      | true =>
        simp only [GItem.text, List.cons_append, List.nil_append]
        rw [globPatternP.eq_def]
        simp [ih]
      | false =>
        simp only [GItem.text, List.cons_append, List.nil_append]
        have h1 : x ≠ '*' ∧ x ≠ '?' ∧ x ≠ '[' := by
          have := h0.1
          simp at this
          exact this
        have h2 : x ≠ '\\' := fun e => by simpa using h0.2 e
        rw [globPatternP.eq_def]
        simp only [h1, h2, or_self, if_false, ih, Bool.false_or]
        split <;> rfl

/-- Does a pattern for a path have wildcards? -/
def Spec.PathPat.anyWild : PathPat → Bool
  | .base _ c => c.any GItem.wild
  | .sub d c => d.anyWild || c.any GItem.wild

theorem globPatternP_path : ∀ (p : PathPat), p.ok → ∀ t, globPatternP false (p.text ++ t) = (p.anyWild || globPatternP false t)
  | .base abs c, hp, t => by
    have := globPatternP_append c hp.2.2.1 t
    cases abs with
    | false => simpa [PathPat.text, PathPat.anyWild] using this
    | true =>
      simp only [PathPat.text, if_true, List.cons_append, List.nil_append, PathPat.anyWild]
      rw [globPatternP.eq_def]
      simpa using this
  | .sub d c, hp, t => by
    have h1 := globPatternP_append c hp.2.2.2.1 t
    have h2 := globPatternP_path d hp.1 ('/' :: patText c ++ t)
    simp only [PathPat.text, PathPat.anyWild, List.append_assoc, List.cons_append] at h2 ⊢
    rw [h2]
    rw [globPatternP.eq_def]
    simp only [show ¬ ('/' = '?' ∨ '/' = '*') by decide, show ¬ ('/' = '\\') by decide, show ¬ ('/' = '[') by decide,
      show ¬ ('/' = ']') by decide, if_false, h1, Bool.or_assoc]

/-! ## The last slash -/

theorem lastSlash_none {s : Str} (h : '/' ∉ s) : lastSlash s = none := by
  cases hl : lastSlash s with
  | none => rfl
  | some x =>
    have := (lastSlash_eq (d := x.1) (f := x.2) hl).1
    exact absurd (by rw [this]; simp) h

theorem cut_unique : ∀ {f f' : Str} (d d' : Str), '/' ∉ f → '/' ∉ f' → d ++ '/' :: f = d' ++ '/' :: f' → d = d' ∧ f = f'
  | f, f', [], [], h, h', e => by simpa using e
  | f, f', [], x :: d', h, h', e => by
    simp at e
    exact absurd (by rw [e.2]; simp) h
  | f, f', x :: d, [], h, h', e => by
    simp at e
    exact absurd (by rw [← e.2]; simp) h'
  | f, f', x :: d, y :: d', h, h', e => by
    simp at e
    obtain ⟨h1, h2⟩ := cut_unique d d' h h' e.2
    exact ⟨by rw [e.1, h1], h2⟩

theorem lastSlash_some {d f : Str} (h : '/' ∉ f) : lastSlash (d ++ '/' :: f) = some (d, f) := by
  cases hl : lastSlash (d ++ '/' :: f) with
  | none =>
    unfold lastSlash at hl
    split at hl
    · rename_i he
      have : ∀ l : Str, l.dropWhile (fun x => decide (x ≠ '/')) = [] → '/' ∉ l := by
        intro l
        induction l with
        | nil => simp
        | cons y l ih =>
          intro h hm
          rw [List.dropWhile_cons] at h
          split at h
          · rename_i hy
            rcases List.mem_cons.1 hm with rfl | hm
            · simp at hy
            · exact ih h hm
          · cases h
      exact absurd (by simp) (this _ he)
    · cases hl
  | some x =>
    obtain ⟨h1, h2⟩ := lastSlash_eq (d := x.1) (f := x.2) hl
    obtain ⟨rfl, rfl⟩ := cut_unique _ _ h h2 h1
    rfl

/-! ## A directory -/

/-- Is the entry one that the pattern finds? -/
def globTakes (posixly only : Bool) (pattern : Str) (d : DirEnt) : Bool :=
  d.real && !(only && d.other) && (fnmatch { posixly := posixly } true pattern d.name == some true)

theorem globNames_eq (posixly only : Bool) (pattern : Str) (hp : ∀ n, fnmatch { posixly := posixly } true pattern n ≠ none) :
    ∀ (ds : List DirEnt) (acc : List Str), globNames posixly only pattern ds acc =
      some (((ds.filter (globTakes posixly only pattern)).map DirEnt.name).reverse ++ acc)
  | [], acc => by simp [globNames]
  | d :: ds, acc => by
    rw [globNames, globNames_eq posixly only pattern hp ds, List.filter_cons]
    cases hr : d.real with
    | false => simp [globTakes, hr]
    | true =>
      cases ho : (only && d.other) with
      | true => simp [globTakes, hr, ho]
      | false =>
        cases hm : fnmatch { posixly := posixly } true pattern d.name with
        | none => exact absurd hm (hp _)
        | some b =>
          cases b with
          | false => simp [globTakes, hr, ho, hm]
          | true =>
            rw [globNames_eq posixly only pattern hp ds]
            simp [globTakes, hr, ho, hm]

/-- The names in a directory. -/
def Spec.Listed (contents : Str → Option (List DirEnt)) (dir n : Str) : Prop :=
  ∃ l, contents dir = some l ∧ ∃ e ∈ l, e.real = true ∧ e.name = n

/-- The contents that a call looks at. -/
def GlobSys.contents (sys : GlobSys) (alt : Bool) : Str → Option (List DirEnt) := if alt then sys.cached else sys.opendir

/-- What is true of files: a name in the current directory is there with and without `./`, a path leads through directories, a
directory exists and only a directory can be read, its entries have names without slashes, each one once, and an entry that is a
directory does not have another type. -/
structure Spec.FilesOk (sys : GlobSys) : Prop where
  dot : ∀ n, n ≠ [] → sys.stat ('.' :: '/' :: n) = sys.stat n ∧ sys.isDir ('.' :: '/' :: n) = sys.isDir n
  root : ∀ n, n ≠ [] → sys.stat ('/' :: '/' :: n) = sys.stat ('/' :: n) ∧ sys.isDir ('/' :: '/' :: n) = sys.isDir ('/' :: n)
  parent : ∀ d n, d ≠ [] → n ≠ [] → '/' ∉ n → sys.stat (d ++ '/' :: n) = true → sys.isDir d = true
  isFile : ∀ d, sys.isDir d = true → sys.stat d = true
  opened : ∀ alt d l, sys.contents alt d = some l → sys.isDir d = true
  typed : ∀ alt d l, sys.contents alt d = some l → ∀ e ∈ l, e.real = true → sys.isDir (d ++ '/' :: e.name) = true → e.other = false
  names : ∀ alt d l, sys.contents alt d = some l → ∀ e ∈ l, e.name ≠ [] ∧ '/' ∉ e.name
  once : ∀ alt d l, sys.contents alt d = some l → ((l.filter DirEnt.real).map DirEnt.name).Nodup

theorem part_literal {c : List GItem} (h : partOk c) (hw : c.any GItem.wild = false) : patText c = c.flatMap GItem.char := by
  have h3 := h.2.2.2 hw
  clear h hw
  induction c with
  | nil => rfl
  | cons p c ih =>
    obtain ⟨x, rfl⟩ := h3 p (by simp)
    rw [patText_cons, List.flatMap_cons, ih fun p hp => h3 p (by simp [hp])]
    rfl

theorem patText_ne {c : List GItem} (h : c ≠ []) : patText c ≠ [] := by
  cases c with
  | nil => exact absurd rfl h
  | cons p c =>
    rw [patText_cons]
    cases p with
    | lit e x => cases e <;> simp [GItem.text]
    | any => simp [GItem.text]
    | star => simp [GItem.text]
    | set n i => simp [GItem.text]

theorem globInDir_spec {sys : GlobSys} (hs : FilesOk sys) {c : List GItem} (hc : partOk c) (alt only : Bool) (dir : Str) :
    ∃ l, globInDir sys alt only (patText c) dir = some l ∧
      (∀ n ∈ l, Here (fun _ => sys.stat (dir ++ '/' :: n) = true) (Listed (sys.contents alt)) c dir n []) ∧
      (∀ n, Here (fun _ => sys.stat (dir ++ '/' :: n) = true) (Listed (sys.contents alt)) c dir n [] →
        (only = false ∨ sys.isDir (dir ++ '/' :: n) = true) → n ∈ l) ∧ l.Nodup := by
  have hg := globPatternP_append c hc.2.2.1 []
  simp only [List.append_nil] at hg
  have hn : globPatternP false [] = false := rfl
  rw [hn, Bool.or_false] at hg
  unfold globInDir Here
  rw [hg]
  cases hw : c.any GItem.wild with
  | false =>
    simp only [if_true, if_false, Bool.false_eq_true]
    rw [← part_literal hc hw]
    by_cases hst : sys.stat (dir ++ '/' :: patText c) = true
    · refine ⟨[patText c], by rw [if_pos hst], ?_, ?_, by simp⟩
      · intro n hm
        have : n = patText c := by simpa using hm
        subst this
        exact ⟨rfl, hst⟩
      · rintro n ⟨rfl, -⟩ -
        simp
    · refine ⟨[], by rw [if_neg hst], by simp, ?_, by simp⟩
      rintro n ⟨rfl, h⟩
      exact absurd h hst
  | true =>
    simp only [if_true, if_false, Bool.true_eq_false]
    have hsp : ∀ n, ∃ b, fnmatch { posixly := sys.posixly } true (patText c) n = some b ∧ (b = true ↔ Matches false true true c n) :=
      fun n => C123_match_partial { posixly := sys.posixly } true c hc.2.2.1 n (Or.inl rfl)
    have htm : ∀ n, fnmatch { posixly := sys.posixly } true (patText c) n = some true ↔ Matches false true true c n := by
      intro n
      obtain ⟨b, h1, h2⟩ := hsp n
      rw [h1, ← h2]
      simp
    change ∃ l, (match sys.contents alt dir with
      | none => some []
      | some ds => globNames sys.posixly only (patText c) ds []) = some l ∧ _
    cases hd : sys.contents alt dir with
    | none =>
      refine ⟨[], rfl, by simp, ?_, by simp⟩
      rintro n ⟨⟨l, h1, -⟩, -⟩
      rw [hd] at h1
      cases h1
    | some ds =>
      simp only
      rw [globNames_eq _ _ _ fun n h => by obtain ⟨b, h1, -⟩ := hsp n; rw [h] at h1; cases h1]
      refine ⟨_, rfl, ?_, ?_, ?_⟩
      · intro n hm
        simp only [List.append_nil, List.mem_reverse, List.mem_map, List.mem_filter] at hm
        obtain ⟨e, ⟨h1, h2⟩, h3⟩ := hm
        simp only [globTakes, Bool.and_eq_true, beq_iff_eq] at h2
        exact ⟨⟨ds, hd, e, h1, h2.1.1, h3⟩, by rw [← h3]; exact (htm _).1 h2.2⟩
      · rintro n ⟨⟨l, h1, e, h2, h3, h4⟩, hm⟩ ho
        rw [hd] at h1
        cases h1
        simp only [List.append_nil, List.mem_reverse, List.mem_map, List.mem_filter]
        refine ⟨e, ⟨h2, ?_⟩, h4⟩
        simp only [globTakes, h3, Bool.true_and, Bool.and_eq_true, beq_iff_eq]
        refine ⟨?_, by rw [h4]; exact (htm _).2 hm⟩
        rcases ho with ho | ho
        · simp [ho]
        · rw [hs.typed alt dir ds hd e h2 h3 (by rw [h4]; exact ho)]
          simp
      · simp only [List.append_nil]
        rw [List.Nodup, List.pairwise_reverse]
        have := hs.once alt dir ds hd
        refine List.Pairwise.imp (fun h => Ne.symm h) (this.sublist (List.Sublist.map _ ?_))
        have : ds.filter (globTakes sys.posixly only (patText c)) =
            (ds.filter DirEnt.real).filter (globTakes sys.posixly only (patText c)) := by
          rw [List.filter_filter]
          congr 1
          funext e
          simp only [globTakes]
          cases e.real <;> simp
        rw [this]
        exact List.filter_sublist

end Remake
