import Verif.Glob.Lemmas
/-! The files that `glob` finds. -/
set_option linter.unusedVariables false
set_option linter.unusedSimpArgs false
namespace Remake
open Spec

theorem here_congr {F G : Str → Prop} {L : Str → Str → Prop} {c : List GItem} {dir n q q' : Str} (h : F q ↔ G q') :
    Here F L c dir n q ↔ Here G L c dir n q' := by
  unfold Here
  split
  · rfl
  · rw [h]

theorem here_name {sys : GlobSys} (hs : FilesOk sys) {F : Str → Prop} {alt : Bool} {c : List GItem} (hc : partOk c) {dir n q : Str}
    (h : Here F (Listed (sys.contents alt)) c dir n q) : n ≠ [] ∧ '/' ∉ n := by
  unfold Here at h
  split at h
  · obtain ⟨⟨l, h1, e, h2, -, rfl⟩, -⟩ := h
    exact hs.names alt dir l h1 e h2
  · rename_i hw
    have hw' : c.any GItem.wild = false := by simpa using hw
    rw [h.1, ← part_literal hc hw']
    exact ⟨patText_ne hc.1, hc.2.1⟩

/-- A name is in a directory. -/
theorem here_dir {sys : GlobSys} (hs : FilesOk sys) {alt : Bool} {c : List GItem} (hc : partOk c) {dir n : Str} (hd : dir ≠ [])
    (h : Here (fun q => sys.stat q = true) (Listed (sys.contents alt)) c dir n (dir ++ '/' :: n)) : sys.isDir dir = true := by
  obtain ⟨h1, h2⟩ := here_name hs hc h
  unfold Here at h
  split at h
  · obtain ⟨⟨l, h3, -⟩, -⟩ := h
    exact hs.opened alt dir l h3
  · exact hs.parent dir n hd h1 h2 h.2

/-- What `Finds` says of the files. -/
def GlobSys.finds (sys : GlobSys) (alt : Bool) (p : PathPat) (q : Str) : Prop :=
  Finds (fun q => sys.stat q = true) (Listed (sys.contents false)) (Listed (sys.contents alt)) p q

theorem finds_end {sys : GlobSys} (hs : FilesOk sys) {alt : Bool} {p : PathPat} (hp : p.ok) {q : Str} (h : sys.finds alt p q) :
    ∃ r n, q = r ++ n ∧ n ≠ [] ∧ '/' ∉ n := by
  cases p with
  | base abs c =>
    obtain ⟨n, h1, h2⟩ := h
    exact ⟨_, n, h1, here_name hs hp h2⟩
  | sub d c =>
    obtain ⟨r, n, h1, -, h2⟩ := h
    exact ⟨r ++ ['/'], n, by rw [h1]; simp, here_name hs hp.2 h2⟩

theorem finds_ne {sys : GlobSys} (hs : FilesOk sys) {alt : Bool} {p : PathPat} (hp : p.ok) {q : Str} (h : sys.finds alt p q) :
    q ≠ [] ∧ q ≠ ['/'] := by
  obtain ⟨r, n, rfl, h1, h2⟩ := finds_end hs hp h
  cases n with
  | nil => exact absurd rfl h1
  | cons x n =>
    refine ⟨by simp, fun e => ?_⟩
    cases r with
    | nil => simp at e; exact h2 (by simp [e.1])
    | cons y r => simp at e

theorem path_text_ne : ∀ {p : PathPat}, p.ok → p.text ≠ [] ∧ p.text ≠ ['/']
  | .base abs c, hp => by
    have h1 := patText_ne hp.1
    have h2 := hp.2.1
    cases abs with
    | true =>
      simp [PathPat.text, h1]
    | false =>
      refine ⟨by simpa [PathPat.text] using h1, fun e => h2 ?_⟩
      have e' : patText c = ['/'] := by simpa [PathPat.text] using e
      rw [e']
      simp
  | .sub d c, hp => by
    have := (path_text_ne hp.1).1
    cases h : d.text with
    | nil => exact absurd h this
    | cons x t => simp [PathPat.text, h]

/-- Without wildcards a pattern stands for its text. -/
theorem finds_plain_text {sys : GlobSys} : ∀ {p : PathPat} {alt : Bool}, p.ok → p.anyWild = false → ∀ {q}, sys.finds alt p q →
    q = p.text
  | .base abs c, alt, hp, hw, q, ⟨n, h1, h2⟩ => by
    have hw' : c.any GItem.wild = false := hw
    unfold Here at h2
    rw [if_neg (by simp [hw'])] at h2
    rw [h1, h2.1, ← part_literal hp hw']
    rfl
  | .sub d c, alt, hp, hw, q, ⟨r, n, h1, h2, h3⟩ => by
    have hw' : d.anyWild = false ∧ c.any GItem.wild = false := by simpa [PathPat.anyWild] using hw
    unfold Here at h3
    rw [if_neg (by simp [hw'])] at h3
    rw [h1, h3.1, ← part_literal hp.2 hw'.2, finds_plain_text (alt := false) hp.1 hw'.1 h2]
    rfl

/-- A path without wildcards that exists is what the pattern stands for. -/
theorem finds_plain {sys : GlobSys} (hs : FilesOk sys) : ∀ {p : PathPat} {alt : Bool}, p.ok → p.anyWild = false →
    sys.stat p.text = true → sys.finds alt p p.text
  | .base abs c, alt, hp, hw, hst => by
    have hw' : c.any GItem.wild = false := hw
    refine ⟨patText c, rfl, ?_⟩
    unfold Here
    rw [if_neg (by simp [hw'])]
    exact ⟨part_literal hp hw', hst⟩
  | .sub d c, alt, hp, hw, hst => by
    have hw' : d.anyWild = false ∧ c.any GItem.wild = false := by simpa [PathPat.anyWild] using hw
    have hd := hs.parent d.text (patText c) (path_text_ne hp.1).1 (patText_ne hp.2.1) hp.2.2.1 hst
    refine ⟨d.text, patText c, rfl, finds_plain (alt := false) hs hp.1 hw'.1 (hs.isFile _ hd), ?_⟩
    unfold Here
    rw [if_neg (by simp [hw'])]
    exact ⟨part_literal hp.2 hw'.2, hst⟩

/-- The names in each of some directories. -/
theorem globDirs_spec {sys : GlobSys} (hs : FilesOk sys) {c : List GItem} (hc : partOk c) (alt only : Bool) :
    ∀ dirs : List Str, dirs.Nodup → (∀ r ∈ dirs, r ≠ ['/']) →
    ∃ l, globDirs sys alt only (patText c) dirs = some l ∧
      (∀ q ∈ l, ∃ r ∈ dirs, ∃ n, q = r ++ '/' :: n ∧
        Here (fun q => sys.stat q = true) (Listed (sys.contents alt)) c r n q) ∧
      (∀ r ∈ dirs, ∀ n, Here (fun q => sys.stat q = true) (Listed (sys.contents alt)) c r n (r ++ '/' :: n) →
        (only = false ∨ sys.isDir (r ++ '/' :: n) = true) → (r ++ '/' :: n) ∈ l) ∧ l.Nodup
  | [], _, _ => ⟨[], rfl, by simp, by simp, by simp⟩
  | d :: dirs, hn, hr => by
    obtain ⟨l, h1, h2, h3, h4⟩ := globDirs_spec hs hc alt only dirs (List.nodup_cons.1 hn).2 fun r h => hr r (by simp [h])
    obtain ⟨m, g1, g2, g3, g4⟩ := globInDir_spec hs hc alt only d
    have hd : d ≠ ['/'] := hr d (by simp)
    have hpre : prefixArray d m = m.map fun n => d ++ '/' :: n := by
      simp [prefixArray, hd]
    refine ⟨prefixArray d m ++ l, by simp only [globDirs, g1, h1], ?_, ?_, ?_⟩
    · intro q hq
      rcases List.mem_append.1 hq with hq | hq
      · rw [hpre] at hq
        obtain ⟨n, hm, rfl⟩ := List.mem_map.1 hq
        exact ⟨d, by simp, n, rfl, (here_congr Iff.rfl).1 (g2 n hm)⟩
      · obtain ⟨r, k1, k2⟩ := h2 q hq
        exact ⟨r, by simp [k1], k2⟩
    · intro r hrm n hh ho
      rcases List.mem_cons.1 hrm with rfl | hrm
      · refine List.mem_append_left _ ?_
        rw [hpre]
        exact List.mem_map.2 ⟨n, g3 n ((here_congr Iff.rfl).1 hh) ho, rfl⟩
      · exact List.mem_append_right _ (h3 r hrm n hh ho)
    · rw [List.nodup_append]
      refine ⟨?_, h4, ?_⟩
      · rw [hpre]
        refine List.Pairwise.map _ ?_ g4
        intro a b hab e
        exact hab (by simpa using e)
      · intro a ha b hb e
        subst e
        rw [hpre] at ha
        obtain ⟨n, hm, rfl⟩ := List.mem_map.1 ha
        obtain ⟨r, k1, n', k2, k3⟩ := h2 _ hb
        have e1 := (here_name hs hc (g2 n hm)).2
        have e2 := (here_name hs hc k3).2
        obtain ⟨rfl, -⟩ := cut_unique _ _ e1 e2 k2
        exact (List.nodup_cons.1 hn).1 k1

theorem globMark_false (sys : GlobSys) (l : List Str) : globMark sys false l = l := by simp [globMark]

/-- `globList` without a slash. -/
theorem globList_name (sys : GlobSys) (alt mark only : Bool) {s : Str} (h : '/' ∉ s) : globList sys alt mark only s =
    (globInDir sys alt only s ['.']).map (globMark sys mark) := by
  have hl : (s.getLast? == some '/') = false := by
    cases hg : s.getLast? with
    | none => rfl
    | some x =>
      have := List.mem_of_getLast? hg
      have : x ≠ '/' := fun e => h (by rw [← e]; exact this)
      simpa using this
  rw [globList.eq_def]
  simp only [hl, Bool.or_false]
  split
  · rfl
  all_goals
    rename_i hs
    rw [lastSlash_none h] at hs
    cases hs

/-- `globList` with a slash. -/
theorem globList_slash (sys : GlobSys) (alt mark only : Bool) (d : Str) {f : Str} (hf : f ≠ []) (h : '/' ∉ f) :
    globList sys alt mark only (d ++ '/' :: f) =
    if d = [] then (globInDir sys alt only f ['/']).map fun l => globMark sys mark (prefixArray ['/'] l)
    else if globPatternP false d then
      match globList sys false false true d with
      | none => none
      | some dirs => (globDirs sys alt only f dirs).map (globMark sys mark)
    else (globInDir sys alt only f d).map fun l => globMark sys mark (prefixArray d l) := by
  have hl : ((d ++ '/' :: f).getLast? == some '/') = false := by
    have : (d ++ '/' :: f).getLast? = f.getLast? := by
      cases f with
      | nil => exact absurd rfl hf
      | cons x f => simp [List.getLast?_append, List.getLast?_cons_cons, List.getLast?_cons]
    rw [this]
    cases hg : f.getLast? with
    | none => rfl
    | some x =>
      have := List.mem_of_getLast? hg
      have : x ≠ '/' := fun e => h (by rw [← e]; exact this)
      simpa using this
  rw [globList.eq_def]
  simp only [hl, Bool.or_false]
  split
  · rename_i hs
    rw [lastSlash_some h] at hs
    cases hs
  · rename_i hs
    rw [lastSlash_some h] at hs
    cases hs
    rfl
  · rename_i hs
    rw [lastSlash_some h] at hs
    cases hs
    rw [if_neg (by simp [hf])]
    exact (if_neg (by simp)).symm

/-- `glob` finds what the pattern stands for. -/
theorem globList_spec {sys : GlobSys} (hs : FilesOk sys) : ∀ (p : PathPat), p.ok → ∀ (alt only : Bool),
    ∃ l, globList sys alt false only p.text = some l ∧ (∀ q ∈ l, sys.finds alt p q) ∧
      (∀ q, sys.finds alt p q → (only = false ∨ sys.isDir q = true) → q ∈ l) ∧ l.Nodup
  | .base false c, hp, alt, only => by
    obtain ⟨l, h1, h2, h3, h4⟩ := globInDir_spec hs hp alt only ['.']
    have hconv : ∀ n, n ≠ [] → (Here (fun _ => sys.stat (['.'] ++ '/' :: n) = true) (Listed (sys.contents alt)) c ['.'] n [] ↔
        Here (fun q => sys.stat q = true) (Listed (sys.contents alt)) c ['.'] n n) := fun n hn =>
      here_congr (by have := (hs.dot n hn).1; simp [this])
    refine ⟨l, ?_, ?_, ?_, h4⟩
    · simp only [PathPat.text, Bool.false_eq_true, if_false, List.nil_append]
      rw [globList_name _ _ _ _ hp.2.1, h1]
      simp [globMark]
    · intro q hq
      have := h2 q hq
      exact ⟨q, rfl, (hconv q (here_name hs hp this).1).1 this⟩
    · rintro q ⟨n, e, hh⟩ ho
      have hn := (here_name hs hp hh).1
      have e' : q = n := by simpa using e
      subst e'
      refine h3 q ((hconv q hn).2 hh) (ho.imp_right fun h => ?_)
      have := (hs.dot q hn).2
      simpa [this] using h
  | .base true c, hp, alt, only => by
    obtain ⟨l, h1, h2, h3, h4⟩ := globInDir_spec hs hp alt only ['/']
    have hconv : ∀ n, n ≠ [] → (Here (fun _ => sys.stat (['/'] ++ '/' :: n) = true) (Listed (sys.contents alt)) c ['/'] n [] ↔
        Here (fun q => sys.stat q = true) (Listed (sys.contents alt)) c ['/'] n ('/' :: n)) := fun n hn =>
      here_congr (by have := (hs.root n hn).1; simp [this])
    refine ⟨l.map fun n => '/' :: n, ?_, ?_, ?_, ?_⟩
    · have : PathPat.text (.base true c) = [] ++ '/' :: patText c := rfl
      rw [this, globList_slash _ _ _ _ _ (patText_ne hp.1) hp.2.1, if_pos rfl, h1]
      simp [globMark, prefixArray]
    · intro q hq
      obtain ⟨n, hm, rfl⟩ := List.mem_map.1 hq
      have := h2 n hm
      exact ⟨n, rfl, (hconv n (here_name hs hp this).1).1 this⟩
    · rintro q ⟨n, rfl, hh⟩ ho
      have hn := (here_name hs hp hh).1
      refine List.mem_map.2 ⟨n, h3 n ((hconv n hn).2 hh) (ho.imp_right fun h => ?_), rfl⟩
      have := (hs.root n hn).2
      simpa [this] using h
    · exact List.Pairwise.map _ (fun a b hab e => hab (by simpa using e)) h4
  | .sub d c, hp, alt, only => by
    have hne := path_text_ne hp.1
    have hgp := globPatternP_path d hp.1 []
    have hnil : globPatternP false [] = false := rfl
    simp only [List.append_nil, hnil, Bool.or_false] at hgp
    have htext : PathPat.text (.sub d c) = d.text ++ '/' :: patText c := rfl
    rw [htext, globList_slash _ _ _ _ _ (patText_ne hp.2.1) hp.2.2.1, if_neg hne.1, hgp]
    cases hw : d.anyWild with
    | true =>
      obtain ⟨dirs, h1, h2, h3, h4⟩ := globList_spec hs d hp.1 false true
      obtain ⟨l, g1, g2, g3, g4⟩ := globDirs_spec hs hp.2 alt only dirs h4 fun r hr => (finds_ne hs hp.1 (h2 r hr)).2
      rw [if_pos rfl, h1]
      refine ⟨l, by simp [g1, globMark], ?_, ?_, g4⟩
      · intro q hq
        obtain ⟨r, hr, n, e, hh⟩ := g2 q hq
        exact ⟨r, n, e, h2 r hr, hh⟩
      · rintro q ⟨r, n, rfl, hr, hh⟩ ho
        have hr0 := finds_ne hs hp.1 hr
        have hdir := here_dir hs hp.2 hr0.1 hh
        exact g3 r (h3 r hr (Or.inr hdir)) n hh ho
    | false =>
      obtain ⟨l, g1, g2, g3, g4⟩ := globInDir_spec hs hp.2 alt only d.text
      have hpre : prefixArray d.text l = l.map fun n => d.text ++ '/' :: n := by simp [prefixArray, hne.2]
      rw [if_neg (by simp), g1]
      refine ⟨l.map fun n => d.text ++ '/' :: n, by simp [globMark, hpre], ?_, ?_, ?_⟩
      · intro q hq
        obtain ⟨n, hm, rfl⟩ := List.mem_map.1 hq
        have hh : Here (fun q => sys.stat q = true) (Listed (sys.contents alt)) c d.text n (d.text ++ '/' :: n) :=
          (here_congr Iff.rfl).1 (g2 n hm)
        have hdir := here_dir hs hp.2 hne.1 hh
        exact ⟨d.text, n, rfl, finds_plain (alt := false) hs hp.1 hw (hs.isFile _ hdir), hh⟩
      · rintro q ⟨r, n, rfl, hr, hh⟩ ho
        have e : r = d.text := finds_plain_text (alt := false) hp.1 hw hr
        subst e
        exact List.mem_map.2 ⟨n, g3 n ((here_congr Iff.rfl).1 hh) ho, rfl⟩
      · exact List.Pairwise.map _ (fun a b hab e => hab (by simpa using e)) g4

end Remake
