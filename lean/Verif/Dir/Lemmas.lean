import Verif.Dir.Spec
import Verif.Base.Lemmas

/-! # Lemmas on the cache of directories -/
set_option linter.unusedVariables false
set_option linter.unusedSimpArgs false
namespace Remake
open Spec

/-! ## Association lists -/

theorem assocGet_set {α β : Type} [DecidableEq α] (k k' : α) (v : β) (l : List (α × β)) :
    assocGet k' (assocSet k v l) = if k' = k then some v else assocGet k' l := by
  induction l with
  | nil => simp [assocSet, assocGet, eq_comm]
  | cons p l ih =>
    obtain ⟨a, b⟩ := p
    simp only [assocSet]
    split
    · rename_i h; subst h
      by_cases hk : k' = a
      · subst hk; simp [assocGet]
      · have : ¬ a = k' := fun e => hk e.symm
        simp [assocGet, hk, this]
    · rename_i h
      simp only [assocGet]
      by_cases hk : a = k'
      · subst hk; simp [h]
      · simp [hk, ih]

theorem assocGet_set_self {α β : Type} [DecidableEq α] (k : α) (v : β) (l : List (α × β)) :
    assocGet k (assocSet k v l) = some v := by simp [assocGet_set]

/-! ## Entries -/

/-- The names of the real entries. -/
def realNames (es : List Dirent) : List Str :=
  es.filterMap fun e => match e with
    | .entry n ino => if ino = 0 then none else some n
    | .error => none

theorem mem_realNames {b : Str} {es : List Dirent} : b ∈ realNames es ↔ ∃ ino, ino ≠ 0 ∧ Dirent.entry b ino ∈ es := by
  simp only [realNames, List.mem_filterMap]
  constructor
  · rintro ⟨e, he, h⟩
    cases e with
    | entry n ino =>
      simp only at h
      split at h
      · cases h
      · rename_i hi; cases h; exact ⟨ino, hi, he⟩
    | error => cases h
  · rintro ⟨ino, hi, he⟩
    exact ⟨_, he, by simp [hi]⟩

theorem realNames_append (a b : List Dirent) : realNames (a ++ b) = realNames a ++ realNames b := by simp [realNames]

/-- What reading on does to the table. -/
theorem readDir_spec (file : Option Str) (files : List (Str × Bool)) (s : List Dirent) (he : Dirent.error ∉ s) :
    ∃ r files' s' pre, readDir file files s = some (r, files', s') ∧ s = pre ++ s'.getD [] ∧
      (∀ b, b ∈ realNames pre → assocGet b files' = some false) ∧ (∀ b, b ∉ realNames pre → assocGet b files' = assocGet b files) ∧
      (r = true → s'.isSome ∧ ∃ b, file = some b ∧ b ∈ realNames pre) ∧ (r = false → s' = none ∧ ∀ b, file = some b → b ∉ realNames s) := by
  induction s generalizing files with
  | nil => exact ⟨false, files, none, [], rfl, rfl, by simp [realNames], by simp, by simp, by simp [realNames]⟩
  | cons e s ih =>
    have hes : Dirent.error ∉ s := fun h => he (List.mem_cons_of_mem _ h)
    cases e with
    | error => exact absurd (List.mem_cons_self ..) he
    | entry n ino =>
      simp only [readDir]
      by_cases hi : ino = 0
      · obtain ⟨r, files', s', pre, h1, h2, h3, h4, h5, h6⟩ := ih files hes
        have hr : ∀ l, realNames (Dirent.entry n ino :: l) = realNames l := by intro l; simp [realNames, hi]
        exact ⟨r, files', s', .entry n ino :: pre, by rw [if_pos hi]; exact h1, by rw [h2]; simp, by rw [hr]; exact h3, by rw [hr]; exact h4,
          by rw [hr]; exact h5, by rw [hr]; exact h6⟩
      · have hr : ∀ l, realNames (Dirent.entry n ino :: l) = n :: realNames l := by intro l; simp [realNames, hi]
        rw [if_neg hi]
        by_cases hf : file = some n
        · rw [if_pos hf]
          refine ⟨true, _, some s, [.entry n ino], rfl, rfl, ?_, ?_, ?_, by simp⟩
          · intro b hb; rw [hr] at hb; simp [realNames] at hb; subst hb; exact assocGet_set_self ..
          · intro b hb; rw [hr] at hb; simp [realNames] at hb; simp [assocGet_set, hb]
          · intro _; exact ⟨rfl, n, hf, by rw [hr]; simp⟩
        · rw [if_neg hf]
          obtain ⟨r, files', s', pre, h1, h2, h3, h4, h5, h6⟩ := ih (assocSet n false files) hes
          refine ⟨r, files', s', .entry n ino :: pre, h1, by rw [h2]; simp, ?_, ?_, ?_, ?_⟩
          · intro b hb
            by_cases hp : b ∈ realNames pre
            · exact h3 b hp
            · rw [h4 b hp]
              rw [hr] at hb
              rcases List.mem_cons.1 hb with rfl | hb
              · exact assocGet_set_self ..
              · exact absurd hb hp
          · intro b hb
            rw [hr] at hb
            simp only [List.mem_cons, not_or] at hb
            rw [h4 b hb.2, assocGet_set, if_neg hb.1]
          · intro hrt
            obtain ⟨g1, b, g2, g3⟩ := h5 hrt
            exact ⟨g1, b, g2, by rw [hr]; exact List.mem_cons_of_mem _ g3⟩
          · intro hrf
            obtain ⟨g1, g2⟩ := h6 hrf
            refine ⟨g1, fun b hb => ?_⟩
            rw [hr]
            simp only [List.mem_cons, not_or]
            exact ⟨by rintro rfl; exact hf hb, g2 b hb⟩

/-! ## The invariant for a directory that does not change -/

/-- The table and stream of a directory whose entries are `lst`, of which the names in `P` have been marked. -/
structure EntriesInv (lst : Option (List Dirent)) (P : Str → Prop) (c : DirContents) : Prop where
  marks : ∀ b, (∃ files, c.files = some files ∧ assocGet b files = some true) ↔ P b
  absent : lst = none → c.stream = none ∧ (∀ files, c.files = some files → ∀ b, assocGet b files ≠ some false) ∧ (c.files.isSome → ∃ b, P b)
  present : ∀ es, lst = some es → ∃ files pre, c.files = some files ∧ es = pre ++ c.stream.getD [] ∧
    ∀ b, assocGet b files = some false ↔ b ∈ realNames pre

/-- A call of `dir_contents_file_exists_p`. -/
theorem contentsExists_inv (w : DirWorld) (hw : ∀ s, w.resume s = s) (lst : Option (List Dirent)) (P : Str → Prop) (c : DirContents) (file : Option Str)
    (hc : EntriesInv lst P c) (he : ∀ es, lst = some es → Dirent.error ∉ es) (hP : ∀ b es, P b → lst = some es → b ∉ realNames es) :
    ∃ r c' cl, contentsExists w c file = some (r, c', cl) ∧ EntriesInv lst P c' ∧
      (∀ b, file = some b → b ≠ [] → (r = true ↔ ∃ es, lst = some es ∧ b ∈ realNames es)) ∧
      (file = some [] → r = c.files.isSome) ∧ (file = none → c'.stream = none) := by
  unfold contentsExists
  cases hf : c.files with
  | none =>
    have hl : lst = none := by
      cases hl : lst with
      | none => rfl
      | some es => obtain ⟨files, _, h, _⟩ := hc.present es hl; rw [hf] at h; cases h
    subst hl
    exact ⟨false, c, false, rfl, hc, by intro b _ _; simp, by intro _; rfl, fun _ => (hc.absent rfl).1⟩
  | some files =>
    simp only
    by_cases h0 : file = some []
    · rw [if_pos h0]
      subst h0
      exact ⟨true, c, false, rfl, hc, by intro b hb h; cases hb; exact absurd rfl h, by intro _; rfl, by intro h; cases h⟩
    · rw [if_neg h0]
      cases hg : file.bind (fun f => assocGet f files) with
      | some imp =>
        simp only
        cases file with
        | none => cases hg
        | some b =>
          simp only [Option.bind_some] at hg
          refine ⟨!imp, c, false, rfl, hc, ?_, by intro h; exact absurd h h0, by intro h; cases h⟩
          intro b' hb' hne
          cases hb'
          cases imp with
          | true =>
            have hp : P b := (hc.marks b).1 ⟨files, hf, hg⟩
            constructor
            · intro h; cases h
            · rintro ⟨es, he', hm⟩; exact absurd hm (hP b es hp he')
          | false =>
            constructor
            · intro _
              cases hl : lst with
              | none => exact absurd hg ((hc.absent hl).2.1 files hf b)
              | some es =>
                obtain ⟨files', pre, h1, h2, h3⟩ := hc.present es hl
                rw [hf] at h1; cases h1
                exact ⟨es, rfl, by rw [h2, realNames_append]; exact List.mem_append_left _ ((h3 b).1 hg)⟩
            · intro _; rfl
      | none =>
        simp only
        cases hs : c.stream with
        | none =>
          simp only
          refine ⟨false, c, false, rfl, hc, ?_, by intro h; exact absurd h h0, fun _ => hs⟩
          intro b hb hne
          subst hb
          simp only [Option.bind_some] at hg
          constructor
          · intro h; cases h
          · rintro ⟨es, hl, hm⟩
            obtain ⟨files', pre, h1, h2, h3⟩ := hc.present es hl
            rw [hf] at h1; cases h1
            rw [hs] at h2
            simp only [Option.getD_none, List.append_nil] at h2
            rw [h2] at hm
            rw [(h3 b).2 hm] at hg; cases hg
        | some s =>
          simp only
          have hl : ∃ es, lst = some es := by
            cases hl : lst with
            | none => rw [(hc.absent hl).1] at hs; cases hs
            | some es => exact ⟨es, rfl⟩
          obtain ⟨es, hl⟩ := hl
          obtain ⟨files', pre, h1, h2, h3⟩ := hc.present es hl
          rw [hf] at h1; cases h1
          rw [hs] at h2
          simp only [Option.getD_some] at h2
          rw [hw s]
          obtain ⟨r, files2, s', pre2, g1, g2, g3, g4, g5, g6⟩ := readDir_spec file files s
            (fun h => he es hl (by rw [h2]; exact List.mem_append_right _ h))
          rw [g1]
          simp only
          have hmem : ∀ b, b ∈ realNames es ↔ b ∈ realNames pre ∨ b ∈ realNames s := by
            intro b; rw [h2, realNames_append, List.mem_append]
          have hsub : ∀ b, b ∈ realNames pre2 → b ∈ realNames es := by
            intro b hb
            rw [h2, g2, realNames_append, realNames_append]
            exact List.mem_append_right _ (List.mem_append_left _ hb)
          refine ⟨r, _, _, rfl, ⟨?_, ?_, ?_⟩, ?_, by intro h; exact absurd h h0, ?_⟩
          · intro b
            rw [← hc.marks b]
            constructor
            · rintro ⟨f, hf', hb⟩
              cases hf'
              by_cases hp : b ∈ realNames pre2
              · rw [g3 b hp] at hb; cases hb
              · rw [g4 b hp] at hb; exact ⟨files, hf, hb⟩
            · rintro ⟨f, hf', hb⟩
              rw [hf] at hf'; cases hf'
              refine ⟨files2, rfl, ?_⟩
              have hPb : P b := (hc.marks b).1 ⟨files, hf, hb⟩
              rw [g4 b (fun hp => hP b es hPb hl (hsub b hp))]
              exact hb
          · intro h; rw [hl] at h; cases h
          · intro es' h
            rw [hl] at h; cases h
            refine ⟨files2, pre ++ pre2, rfl, by rw [h2, g2]; simp, ?_⟩
            intro b
            rw [realNames_append, List.mem_append]
            by_cases hp : b ∈ realNames pre2
            · simp [g3 b hp, hp]
            · rw [g4 b hp, h3 b]; simp [hp]
          · intro b hb hne
            subst hb
            simp only [Option.bind_some] at hg
            constructor
            · intro hr
              obtain ⟨_, b', hb', hm⟩ := g5 hr
              cases hb'
              exact ⟨es, hl, hsub b hm⟩
            · rintro ⟨es', hl', hm⟩
              rw [hl] at hl'; cases hl'
              cases hr : r with
              | true => rfl
              | false =>
                exfalso
                rcases (hmem b).1 hm with h | h
                · rw [(h3 b).2 h] at hg; cases hg
                · exact (g6 hr).2 b rfl h
          · intro hn
            subst hn
            cases hr : r with
            | true => obtain ⟨_, b, hb, _⟩ := g5 hr; cases hb
            | false => exact (g6 hr).1

/-- The whole cache, after the marks `marks` (directory and name) have been made. -/
structure DirInv (w : DirWorld) (marks : List (Str × Str)) (st : DirState) : Prop where
  known : ∀ n id, assocGet n st.dirs = some (.known id) → w.stat n = some id ∧ ∃ c, assocGet id st.contents = some c
  unknown : ∀ n c, assocGet n st.dirs = some (.unknown c) → w.stat n = none ∧ EntriesInv none (fun b => (n, b) ∈ marks) (c.getD ⟨none, none⟩)
  cont : ∀ id c, assocGet id st.contents = some c → EntriesInv (w.opendir id) (fun b => ∃ d, w.stat d = some id ∧ (d, b) ∈ marks) c
  seen : ∀ d b, (d, b) ∈ marks → ∃ r, assocGet d st.dirs = some r

theorem dirInv_init (w : DirWorld) : DirInv w [] .init :=
  ⟨(by intro n id h; cases h), (by intro n c h; cases h), (by intro id c h; cases h), (by intro d b h; cases h)⟩

/-- The marks are of files that do not exist. -/
def AbsentMarks (w : DirWorld) (marks : List (Str × Str)) : Prop := ∀ d b, (d, b) ∈ marks → ¬ Has w d b

theorem absent_known {w : DirWorld} {marks : List (Str × Str)} (h : AbsentMarks w marks) (id : DevIno) :
    ∀ b es, (∃ d, w.stat d = some id ∧ (d, b) ∈ marks) → w.opendir id = some es → b ∉ realNames es := by
  rintro b es ⟨d, hd, hm⟩ he hb
  exact h d b hm ⟨es, ⟨id, hd, he⟩, mem_realNames.1 hb⟩

theorem EntriesInv.new (es : List Dirent) (P : Str → Prop) (hP : ∀ b, ¬ P b) : EntriesInv (some es) P ⟨some [], some es⟩ :=
  ⟨by intro b; simp [assocGet, hP b], (by intro h; cases h), by
    intro es' h
    cases h
    exact ⟨[], [], rfl, rfl, by intro b; simp [assocGet, realNames]⟩⟩

theorem EntriesInv.null (P : Str → Prop) (hP : ∀ b, ¬ P b) : EntriesInv none P ⟨none, none⟩ :=
  ⟨by intro b; simp [hP b], by intro _; exact ⟨rfl, (by intro f h; cases h), by intro h; cases h⟩, by intro es h; cases h⟩

/-- A new entry in the table of contents. -/
theorem newContents_inv {w : DirWorld} (hw : Steady w) (id : DevIno) (st : DirState) (P : Str → Prop) (hP : ∀ b, ¬ P b) :
    ∃ st' c, newContents w id st = some st' ∧ st'.dirs = st.dirs ∧ st'.contents = assocSet id c st.contents ∧ EntriesInv (w.opendir id) P c := by
  unfold newContents
  cases ho : w.opendir id with
  | none => exact ⟨_, _, rfl, rfl, rfl, EntriesInv.null P hP⟩
  | some es =>
    simp only
    split
    · obtain ⟨r, c', cl, h1, h2, _⟩ := contentsExists_inv { w with resume := fun s => s } (fun s => rfl) (some es) P ⟨some [], some es⟩ none (EntriesInv.new es P hP)
        (by intro es' h; cases h; exact hw.sound id es ho) (by intro b es' hb; exact absurd hb (hP b))
      rw [h1]
      exact ⟨_, c', rfl, rfl, rfl, h2⟩
    · exact ⟨_, _, rfl, rfl, rfl, EntriesInv.new es P hP⟩

/-- `find_directory` keeps the invariant. -/
theorem findDirectory_inv {w : DirWorld} (hw : Steady w) {marks : List (Str × Str)} {st : DirState} (hi : DirInv w marks st) (n : Str) :
    ∃ r st', findDirectory w n st = some (r, st') ∧ DirInv w marks st' ∧ assocGet n st'.dirs = some r := by
  unfold findDirectory
  cases hg : assocGet n st.dirs with
  | some r => exact ⟨r, st, rfl, hi, hg⟩
  | none =>
    simp only
    have hnm : ∀ b, (n, b) ∉ marks := by
      intro b hb
      obtain ⟨r, hr⟩ := hi.seen n b hb
      rw [hg] at hr; cases hr
    cases hs : w.stat n with
    | none =>
      refine ⟨_, _, rfl, ⟨?_, ?_, hi.cont, ?_⟩, assocGet_set_self ..⟩
      · intro m id h
        rw [assocGet_set] at h
        split at h
        · cases h
        · exact hi.known m id h
      · intro m c h
        rw [assocGet_set] at h
        split at h
        · rename_i hm; cases h; subst hm; exact ⟨hs, EntriesInv.null _ hnm⟩
        · exact hi.unknown m c h
      · intro d b h
        rw [assocGet_set]
        split
        · exact ⟨_, rfl⟩
        · exact hi.seen d b h
    | some id =>
      simp only
      cases hc : assocGet id st.contents with
      | some c =>
        refine ⟨_, _, rfl, ⟨?_, ?_, hi.cont, ?_⟩, assocGet_set_self ..⟩
        · intro m id' h
          rw [assocGet_set] at h
          split at h
          · rename_i hm; cases h; subst hm; exact ⟨hs, c, hc⟩
          · exact hi.known m id' h
        · intro m c h
          rw [assocGet_set] at h
          split at h
          · cases h
          · exact hi.unknown m c h
        · intro d b h
          rw [assocGet_set]
          split
          · exact ⟨_, rfl⟩
          · exact hi.seen d b h
      | none =>
        have hP : ∀ b, ¬ ∃ d, w.stat d = some id ∧ (d, b) ∈ marks := by
          rintro b ⟨d, hd, hm⟩
          obtain ⟨r, hr⟩ := hi.seen d b hm
          cases r with
          | known id' =>
            obtain ⟨h1, c, h2⟩ := hi.known d id' hr
            rw [hd] at h1; cases h1
            rw [hc] at h2; cases h2
          | unknown c => rw [(hi.unknown d c hr).1] at hd; cases hd
        obtain ⟨st', c, h1, h2, h3, h4⟩ := newContents_inv hw id { st with dirs := assocSet n (.known id) st.dirs } _ hP
        simp only at h2 h3
        refine ⟨.known id, st', by simp [h1], ⟨?_, ?_, ?_, ?_⟩, by rw [h2]; exact assocGet_set_self ..⟩
        · intro m id' h
          rw [h2, assocGet_set] at h
          rw [h3, assocGet_set]
          split at h
          · rename_i hm; cases h; subst hm; exact ⟨hs, c, by simp⟩
          · obtain ⟨g1, c', g2⟩ := hi.known m id' h
            refine ⟨g1, ?_⟩
            split
            · exact ⟨_, rfl⟩
            · exact ⟨c', g2⟩
        · intro m c h
          rw [h2, assocGet_set] at h
          split at h
          · cases h
          · exact hi.unknown m c h
        · intro id' c' h
          rw [h3, assocGet_set] at h
          split at h
          · rename_i hm; cases h; subst hm; exact h4
          · exact hi.cont id' c' h
        · intro d b h
          rw [h2, assocGet_set]
          split
          · exact ⟨_, rfl⟩
          · exact hi.seen d b h

/-- The entries of a directory by name. -/
def listing (w : DirWorld) (n : Str) : Option (List Dirent) := (w.stat n).bind w.opendir

/-- The names marked in a directory by any of its names. -/
def markedIn (w : DirWorld) (marks : List (Str × Str)) (n : Str) (b : Str) : Prop := ∃ d, SameDir w n d ∧ (d, b) ∈ marks

/-- The contents of a directory that has been looked up. -/
theorem DirInv.get {w : DirWorld} {marks : List (Str × Str)} {st : DirState} (hi : DirInv w marks st) {n : Str} {r : DirRef}
    (h : assocGet n st.dirs = some r) : EntriesInv (listing w n) (markedIn w marks n) ((st.get r).getD ⟨none, none⟩) := by
  cases r with
  | known id =>
    obtain ⟨h1, c, h2⟩ := hi.known n id h
    have h3 := hi.cont id c h2
    simp only [DirState.get, h2, Option.getD_some, listing, h1, Option.bind_some]
    have : markedIn w marks n = fun b => ∃ d, w.stat d = some id ∧ (d, b) ∈ marks := by
      funext b
      apply propext
      constructor
      · rintro ⟨d, hd | ⟨id', g1, g2⟩, hm⟩
        · subst hd; exact ⟨n, h1, hm⟩
        · rw [h1] at g1; cases g1; exact ⟨d, g2, hm⟩
      · rintro ⟨d, hd, hm⟩
        exact ⟨d, Or.inr ⟨id, h1, hd⟩, hm⟩
    rw [this]
    exact h3
  | unknown c =>
    obtain ⟨h1, h2⟩ := hi.unknown n c h
    simp only [DirState.get, listing, h1, Option.bind_none]
    have : markedIn w marks n = fun b => (n, b) ∈ marks := by
      funext b
      apply propext
      constructor
      · rintro ⟨d, hd | ⟨id', g1, g2⟩, hm⟩
        · subst hd; exact hm
        · rw [h1] at g1; cases g1
      · intro hm; exact ⟨n, Or.inl rfl, hm⟩
    rw [this]
    exact h2

/-- New contents for a directory that has been looked up; `b`, if any, is a new mark. -/
theorem DirInv.put {w : DirWorld} {marks : List (Str × Str)} {st : DirState} (hi : DirInv w marks st) {n : Str} {r : DirRef}
    (h : assocGet n st.dirs = some r) (marks' : List (Str × Str)) (hm : marks' = marks ∨ ∃ b, marks' = (n, b) :: marks) (c : DirContents)
    (hc : EntriesInv (listing w n) (markedIn w marks' n) c) : DirInv w marks' (st.put n c r) := by
  have hseen : ∀ d b, (d, b) ∈ marks' → ∃ r, assocGet d st.dirs = some r := by
    intro d b hd
    rcases hm with rfl | ⟨b', rfl⟩
    · exact hi.seen d b hd
    · rcases List.mem_cons.1 hd with h' | h'
      · cases h'; exact ⟨r, h⟩
      · exact hi.seen d b h'
  have hother : ∀ d b, ¬ SameDir w n d → ((d, b) ∈ marks' ↔ (d, b) ∈ marks) := by
    intro d b hd
    rcases hm with rfl | ⟨b', rfl⟩
    · rfl
    · constructor
      · intro h'
        rcases List.mem_cons.1 h' with h' | h'
        · cases h'; exact absurd (Or.inl rfl) hd
        · exact h'
      · exact List.mem_cons_of_mem _
  cases r with
  | known id =>
    obtain ⟨h1, c0, h2⟩ := hi.known n id h
    refine ⟨?_, ?_, ?_, hseen⟩
    · intro m id' h'
      obtain ⟨g1, c', g2⟩ := hi.known m id' h'
      refine ⟨g1, ?_⟩
      simp only [DirState.put, assocGet_set]
      split
      · exact ⟨_, rfl⟩
      · exact ⟨c', g2⟩
    · intro m c' h'
      obtain ⟨g1, g2⟩ := hi.unknown m c' h'
      refine ⟨g1, ?_⟩
      have : (fun b => (m, b) ∈ marks') = fun b => (m, b) ∈ marks := by
        funext b
        apply propext
        apply hother
        rintro (e | ⟨i, e1, e2⟩)
        · subst e; rw [h1] at g1; cases g1
        · rw [g1] at e2; cases e2
      rw [this]; exact g2
    · intro id' c' h'
      simp only [DirState.put, assocGet_set] at h'
      split at h'
      · rename_i e
        cases h'; subst e
        simp only [listing, h1, Option.bind_some] at hc
        have : markedIn w marks' n = fun b => ∃ d, w.stat d = some id' ∧ (d, b) ∈ marks' := by
          funext b
          apply propext
          constructor
          · rintro ⟨d, hd | ⟨id', g1, g2⟩, hm⟩
            · subst hd; exact ⟨n, h1, hm⟩
            · rw [h1] at g1; cases g1; exact ⟨d, g2, hm⟩
          · rintro ⟨d, hd, hm⟩
            exact ⟨d, Or.inr ⟨id', h1, hd⟩, hm⟩
        rw [← this]; exact hc
      · rename_i e
        have g := hi.cont id' c' h'
        have : (fun b => ∃ d, w.stat d = some id' ∧ (d, b) ∈ marks') = fun b => ∃ d, w.stat d = some id' ∧ (d, b) ∈ marks := by
          funext b
          apply propext
          have hne : ∀ d, w.stat d = some id' → ¬ SameDir w n d := by
            rintro d hd (e' | ⟨i, e1, e2⟩)
            · subst e'; rw [h1] at hd; cases hd; exact e rfl
            · rw [h1] at e1; cases e1; rw [hd] at e2; cases e2; exact e rfl
          constructor
          · rintro ⟨d, hd, hm⟩; exact ⟨d, hd, (hother d b (hne d hd)).1 hm⟩
          · rintro ⟨d, hd, hm⟩; exact ⟨d, hd, (hother d b (hne d hd)).2 hm⟩
        rw [this]; exact g
  | unknown c0 =>
    obtain ⟨h1, h2⟩ := hi.unknown n c0 h
    refine ⟨?_, ?_, ?_, ?_⟩
    · intro m id' h'
      simp only [DirState.put, assocGet_set] at h'
      split at h'
      · cases h'
      · exact hi.known m id' h'
    · intro m c' h'
      simp only [DirState.put, assocGet_set] at h'
      split at h'
      · rename_i e
        cases h'; subst e
        refine ⟨h1, ?_⟩
        simp only [listing, h1, Option.bind_none] at hc
        have : markedIn w marks' m = fun b => (m, b) ∈ marks' := by
          funext b
          apply propext
          constructor
          · rintro ⟨d, hd | ⟨id', g1, g2⟩, hm⟩
            · subst hd; exact hm
            · rw [h1] at g1; cases g1
          · intro hm; exact ⟨m, Or.inl rfl, hm⟩
        rw [this] at hc
        exact hc
      · rename_i e
        obtain ⟨g1, g2⟩ := hi.unknown m c' h'
        refine ⟨g1, ?_⟩
        have : (fun b => (m, b) ∈ marks') = fun b => (m, b) ∈ marks := by
          funext b
          apply propext
          apply hother
          rintro (e' | ⟨i, e1, e2⟩)
          · exact e e'.symm
          · rw [g1] at e2; cases e2
        rw [this]; exact g2
    · intro id' c' h'
      have g := hi.cont id' c' h'
      have : (fun b => ∃ d, w.stat d = some id' ∧ (d, b) ∈ marks') = fun b => ∃ d, w.stat d = some id' ∧ (d, b) ∈ marks := by
        funext b
        apply propext
        have hne : ∀ d, w.stat d = some id' → ¬ SameDir w n d := by
          rintro d hd (e' | ⟨i, e1, e2⟩)
          · subst e'; rw [h1] at hd; cases hd
          · rw [h1] at e1; cases e1
        constructor
        · rintro ⟨d, hd, hm⟩; exact ⟨d, hd, (hother d b (hne d hd)).1 hm⟩
        · rintro ⟨d, hd, hm⟩; exact ⟨d, hd, (hother d b (hne d hd)).2 hm⟩
      rw [this]; exact g
    · intro d b hd
      simp only [DirState.put, assocGet_set]
      split
      · exact ⟨_, rfl⟩
      · exact hseen d b hd

theorem dirInv_opened {w : DirWorld} {marks : List (Str × Str)} {st : DirState} (hi : DirInv w marks st) (k : Nat) :
    DirInv w marks { st with opened := k } := ⟨hi.known, hi.unknown, hi.cont, hi.seen⟩

theorem absent_listing {w : DirWorld} {marks : List (Str × Str)} (h : AbsentMarks w marks) (n : Str) :
    ∀ b es, markedIn w marks n b → listing w n = some es → b ∉ realNames es := by
  rintro b es ⟨d, hd, hm⟩ he hb
  simp only [listing, Option.bind_eq_some_iff] at he
  obtain ⟨id, h1, h2⟩ := he
  refine h d b hm ⟨es, ⟨id, ?_, h2⟩, mem_realNames.1 hb⟩
  rcases hd with rfl | ⟨id', g1, g2⟩
  · exact h1
  · rw [h1] at g1; cases g1; exact g2

theorem listing_sound {w : DirWorld} (hw : Steady w) (n : Str) : ∀ es, listing w n = some es → Dirent.error ∉ es := by
  intro es h
  simp only [listing, Option.bind_eq_some_iff] at h
  obtain ⟨id, h1, h2⟩ := h
  exact hw.sound id es h2

theorem has_iff {w : DirWorld} {n b : Str} : Has w n b ↔ ∃ es, listing w n = some es ∧ b ∈ realNames es := by
  simp only [Has, Lists, listing, Option.bind_eq_some_iff, mem_realNames]

theorem readable_iff {w : DirWorld} {n : Str} : Readable w n ↔ ∃ es, listing w n = some es := by
  simp only [Readable, Lists, listing, Option.bind_eq_some_iff]

/-- `dir_file_exists_p` keeps the invariant and answers as the directory would. -/
theorem dirFileExists_inv {w : DirWorld} (hw : Steady w) {marks : List (Str × Str)} {st : DirState} (hi : DirInv w marks st)
    (ha : AbsentMarks w marks) (n : Str) (f : Option Str) :
    ∃ r st', dirFileExists w n f st = some (r, st') ∧ DirInv w marks st' ∧
      (∀ b, f = some b → b ≠ [] → (r = true ↔ Has w n b)) ∧
      (f = some [] → (r = true ↔ Readable w n ∨ ∃ b, markedIn w marks n b)) := by
  obtain ⟨r, st1, h1, hi1, hr⟩ := findDirectory_inv hw hi n
  have hc := hi1.get hr
  unfold dirFileExists
  rw [h1]
  simp only
  have hb : ∀ c : DirContents, EntriesInv (listing w n) (markedIn w marks n) c → (c.files.isSome ↔ Readable w n ∨ ∃ b, markedIn w marks n b) := by
    intro c hc
    constructor
    · intro h
      cases hl : listing w n with
      | none => exact Or.inr ((hc.absent hl).2.2 h)
      | some es => exact Or.inl (readable_iff.2 ⟨es, hl⟩)
    · rintro (h | ⟨b, h⟩)
      · obtain ⟨es, hl⟩ := readable_iff.1 h
        obtain ⟨files, _, g, _⟩ := hc.present es hl
        simp [g]
      · obtain ⟨files, g, _⟩ := (hc.marks b).2 h
        simp [g]
  cases hg : st1.get r with
  | none =>
    rw [hg] at hc
    simp only [Option.getD_none] at hc
    have hl : ¬ ∃ es, listing w n = some es := by
      rintro ⟨es, hl⟩
      obtain ⟨_, _, h, _⟩ := hc.present es hl
      cases h
    have hm : ¬ ∃ b, markedIn w marks n b := by
      rintro ⟨b, hb⟩
      obtain ⟨_, h, _⟩ := (hc.marks b).2 hb
      cases h
    refine ⟨false, st1, rfl, hi1, ?_, ?_⟩
    · intro b _ _
      rw [has_iff]
      constructor
      · intro h; cases h
      · rintro ⟨es, h, _⟩; exact absurd ⟨es, h⟩ hl
    · intro _
      rw [readable_iff]
      constructor
      · intro h; cases h
      · rintro (h | h)
        · exact absurd h hl
        · exact absurd h hm
  | some c =>
    rw [hg] at hc
    simp only [Option.getD_some] at hc
    obtain ⟨a, c', cl, g1, g2, g3, g4, g5⟩ := contentsExists_inv w hw.same _ _ c f hc (listing_sound hw n) (absent_listing ha n)
    simp only [g1]
    refine ⟨a, _, rfl, ?_, ?_, ?_⟩
    · have := hi1.put hr marks (Or.inl rfl) c' g2
      split
      · exact dirInv_opened this _
      · exact this
    · intro b hb hne
      rw [g3 b hb hne, has_iff]
    · intro h
      rw [g4 h]
      exact hb c hc

/-! ## Taking a name apart -/

theorem reverse_split (name : Str) :
    ∃ p b : Str, name.reverse.takeWhile (fun c => decide (c ≠ '/')) = b ∧ name.reverse.dropWhile (fun c => decide (c ≠ '/')) = p ∧
      name = p.reverse ++ b.reverse ∧ '/' ∉ b ∧ ∀ c, p.head? = some c → c = '/' := by
  refine ⟨_, _, rfl, rfl, ?_, ?_, ?_⟩
  · rw [← List.reverse_append, List.takeWhile_append_dropWhile, List.reverse_reverse]
  · intro h
    have := mem_takeWhile_imp h
    simp at this
  · intro c hc
    cases hd : name.reverse.dropWhile (fun c => decide (c ≠ '/')) with
    | nil => rw [hd] at hc; cases hc
    | cons x t =>
      rw [hd] at hc
      simp only [List.head?_cons, Option.some.injEq] at hc
      subst hc
      have := List.head_dropWhile_not (fun c => decide (c ≠ '/')) (l := name.reverse) (by rw [hd]; simp)
      simp only [hd, List.head_cons] at this
      simpa using this

theorem inDir_dirBase (name : Str) : InDir name (dirBase name).1 (dirBase name).2 := by
  obtain ⟨p, b, h1, h2, h3, h4, h5⟩ := reverse_split name
  unfold dirBase
  rw [h1, h2]
  cases p with
  | nil =>
    simp only at *
    simp only [List.reverse_nil, List.nil_append] at h3
    exact ⟨by rw [h3]; simpa using h4, Or.inl ⟨rfl, rfl⟩⟩
  | cons c p =>
    have hc := h5 c rfl
    subst hc
    simp only
    by_cases hp : p = []
    · rw [if_pos hp]
      subst hp
      refine ⟨by simpa using h4, Or.inr (Or.inl ⟨?_, rfl⟩)⟩
      simpa using h3
    · rw [if_neg hp]
      refine ⟨by simpa using h4, Or.inr (Or.inr ⟨by simpa using hp, ?_⟩)⟩
      simpa using h3

/-- A split at the last slash. -/
theorem last_slash_unique {a b c d : Str} (h : a ++ '/' :: b = c ++ '/' :: d) (hb : '/' ∉ b) (hd : '/' ∉ d) : a = c ∧ b = d := by
  induction a generalizing c with
  | nil =>
    cases c with
    | nil => simp at h; exact ⟨rfl, h⟩
    | cons x c =>
      simp only [List.nil_append, List.cons_append, List.cons.injEq] at h
      exact absurd (by rw [h.2]; simp) hb
  | cons x a ih =>
    cases c with
    | nil =>
      simp only [List.nil_append, List.cons_append, List.cons.injEq] at h
      exact absurd (by rw [← h.2]; simp) hd
    | cons y c =>
      simp only [List.cons_append, List.cons.injEq] at h
      obtain ⟨h1, h2⟩ := ih h.2
      exact ⟨by rw [h.1, h1], h2⟩

theorem inDir_unique {name d b d' b' : Str} (h : InDir name d b) (h' : InDir name d' b') : d = d' ∧ b = b' := by
  obtain ⟨hb, h⟩ := h
  obtain ⟨hb', h'⟩ := h'
  rcases h with ⟨rfl, rfl⟩ | ⟨rfl, rfl⟩ | ⟨hd, rfl⟩ <;> rcases h' with ⟨h1, rfl⟩ | ⟨h1, rfl⟩ | ⟨hd', h1⟩
  · exact ⟨rfl, h1⟩
  · exact absurd (by rw [h1]; simp) hb
  · exact absurd (by rw [h1]; simp) hb
  · exact absurd (by rw [← h1]; simp) hb'
  · exact ⟨rfl, by simpa using h1⟩
  · have := last_slash_unique (a := []) h1 hb hb'
    exact absurd this.1.symm hd'
  · exact absurd (by rw [← h1]; simp) hb'
  · have := last_slash_unique (c := []) h1 hb hb'
    exact absurd this.1 hd
  · exact last_slash_unique h1 hb hb'

theorem inDir_iff {name d b : Str} : InDir name d b ↔ dirBase name = (d, b) := by
  constructor
  · intro h
    have := inDir_unique (inDir_dirBase name) h
    exact Prod.ext this.1 this.2
  · intro h
    have := inDir_dirBase name
    rw [h] at this
    exact this

end Remake
