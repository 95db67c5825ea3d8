import Verif.Dir.Lemmas

/-! # Histories of calls -/
set_option linter.unusedVariables false
set_option linter.unusedSimpArgs false
namespace Remake
open Spec

/-- The marks after a call. -/
def marksAfter (marks : List (Str × Str)) : DirOp → List (Str × Str)
  | .mark n => dirBase n :: marks
  | _ => marks

theorem EntriesInv.mark {lst : Option (List Dirent)} {P Q : Str → Prop} {c : DirContents} (hc : EntriesInv lst P c) (b : Str)
    (hQ : ∀ b', Q b' ↔ b' = b ∨ P b') (hb : ∀ es, lst = some es → b ∉ realNames es) :
    EntriesInv lst Q { c with files := some (assocSet b true (c.files.getD [])) } := by
  refine ⟨?_, ?_, ?_⟩
  · intro b'
    rw [hQ b', ← hc.marks b']
    simp only [Option.some.injEq, exists_eq_left', assocGet_set]
    by_cases h : b' = b
    · simp [h]
    · simp only [if_neg h, h, false_or]
      cases hf : c.files with
      | none => simp [assocGet]
      | some f => simp
  · intro hl
    obtain ⟨h1, h2, h3⟩ := hc.absent hl
    refine ⟨h1, ?_, fun _ => ⟨b, (hQ b).2 (Or.inl rfl)⟩⟩
    intro f hf b'
    cases hf
    rw [assocGet_set]
    split
    · simp
    · cases hf : c.files with
      | none => simp [assocGet]
      | some f => exact h2 f hf b'
  · intro es hl
    obtain ⟨files, pre, h1, h2, h3⟩ := hc.present es hl
    refine ⟨_, pre, rfl, h2, ?_⟩
    intro b'
    rw [assocGet_set, h1, Option.getD_some]
    split
    · rename_i e
      subst e
      have : b' ∉ realNames pre := fun h => hb es hl (by rw [h2, realNames_append]; exact List.mem_append_left _ h)
      simp [this]
    · exact h3 b'

theorem fileImpossible_inv {w : DirWorld} (hw : Steady w) {marks : List (Str × Str)} {st : DirState} (hi : DirInv w marks st) (n : Str)
    (ha : ¬ Has w (dirBase n).1 (dirBase n).2) : ∃ st', fileImpossible w n st = some st' ∧ DirInv w (dirBase n :: marks) st' := by
  obtain ⟨r, st1, h1, hi1, hr⟩ := findDirectory_inv hw hi (dirBase n).1
  unfold fileImpossible
  rw [h1]
  refine ⟨_, rfl, hi1.put hr _ (Or.inr ⟨_, rfl⟩) _ ((hi1.get hr).mark _ ?_ ?_)⟩
  · intro b'
    constructor
    · rintro ⟨d, hd, hm⟩
      rcases List.mem_cons.1 hm with h | h
      · exact Or.inl (congrArg Prod.snd h)
      · exact Or.inr ⟨d, hd, h⟩
    · rintro (h | ⟨d, hd, h⟩)
      · exact ⟨(dirBase n).1, Or.inl rfl, by rw [h]; exact List.mem_cons_self ..⟩
      · exact ⟨d, hd, List.mem_cons_of_mem _ h⟩
  · intro es hl hb
    exact ha (has_iff.2 ⟨es, hl, hb⟩)

theorem fileImpossibleP_inv {w : DirWorld} (hw : Steady w) {marks : List (Str × Str)} {st : DirState} (hi : DirInv w marks st) (n : Str) :
    ∃ r st', fileImpossibleP w n st = some (r, st') ∧ DirInv w marks st' ∧ (r = true ↔ markedIn w marks (dirBase n).1 (dirBase n).2) := by
  obtain ⟨r, st1, h1, hi1, hr⟩ := findDirectory_inv hw hi (dirBase n).1
  have hc := hi1.get hr
  unfold fileImpossibleP
  rw [h1]
  simp only
  rw [← hc.marks]
  cases hg : st1.get r with
  | none => exact ⟨false, st1, rfl, hi1, by simp⟩
  | some c =>
    simp only [Option.getD_some]
    cases hf : c.files with
    | none => exact ⟨false, st1, rfl, hi1, by simp⟩
    | some files =>
      refine ⟨_, st1, rfl, hi1, ?_⟩
      simp only [Option.some.injEq, exists_eq_left']
      cases assocGet (dirBase n).2 files <;> simp

theorem globDir_inv {w : DirWorld} (hw : Steady w) {marks : List (Str × Str)} {st : DirState} (hi : DirInv w marks st)
    (ha : AbsentMarks w marks) (n : Str) :
    ∃ r st', globDir w n st = some (r, st') ∧ DirInv w marks st' ∧
      ((∃ l, r = some l) ↔ Readable w n ∨ ∃ b, markedIn w marks n b) ∧
      (∀ l, r = some l → ∃ c r', assocGet n st'.dirs = some r' ∧ st'.get r' = some c ∧
        l = ((c.files.getD []).filter (fun e => !e.2)).map (·.1) ∧ ∀ b, assocGet b (c.files.getD []) = some false ↔ Has w n b) := by
  obtain ⟨r, st1, h1, hi1, hr⟩ := findDirectory_inv hw hi n
  have hc := hi1.get hr
  unfold globDir
  rw [h1]
  simp only
  have hb : ∀ c : DirContents, EntriesInv (listing w n) (markedIn w marks n) c → (c.files.isSome ↔ Readable w n ∨ ∃ b, markedIn w marks n b) := by
    intro c hc
    constructor
    · intro h
      cases hl : listing w n with
      | none => exact Or.inr ((hc.absent hl).2.2 h)
      | some es => exact Or.inl (readable_iff.2 ⟨es, hl⟩)
    · rintro (h | ⟨b, h⟩)
      · obtain ⟨es, hl⟩ := readable_iff.1 h
        obtain ⟨files, _, g, _⟩ := hc.present es hl
        simp [g]
      · obtain ⟨files, g, _⟩ := (hc.marks b).2 h
        simp [g]
  cases hg : st1.get r with
  | none =>
    rw [hg] at hc
    have := hb _ hc
    simp only [Option.getD_none, Option.isSome_none, Bool.false_eq_true, false_iff] at this
    exact ⟨none, st1, rfl, hi1, by simp [this], by intro l h; cases h⟩
  | some c =>
    rw [hg] at hc
    simp only [Option.getD_some] at hc
    simp only
    cases hf : c.files with
    | none =>
      have := hb _ hc
      rw [hf] at this
      simp only [Option.isSome_none, Bool.false_eq_true, false_iff] at this
      exact ⟨none, st1, rfl, hi1, by simp [this], by intro l h; cases h⟩
    | some files =>
      simp only
      obtain ⟨a, c', cl, g1, g2, g3, g4, g5⟩ := contentsExists_inv w hw.same _ _ c none hc (listing_sound hw n) (absent_listing ha n)
      simp only [g1]
      have hput := hi1.put hr marks (Or.inl rfl) c' g2
      refine ⟨_, _, rfl, ?_, ?_, ?_⟩
      · split
        · exact dirInv_opened hput _
        · exact hput
      · rw [← hb c hc, hf]; simp
      · intro l hl
        cases hl
        have hhas : ∀ b, assocGet b (c'.files.getD []) = some false ↔ Has w n b := by
          intro b
          rw [has_iff]
          have hs := g5 rfl
          constructor
          · intro h
            cases hl : listing w n with
            | none =>
              exfalso
              cases hf' : c'.files with
              | none => rw [hf'] at h; simp [assocGet] at h
              | some f => rw [hf'] at h; exact (g2.absent hl).2.1 f hf' b h
            | some es =>
              obtain ⟨f, pre, k1, k2, k3⟩ := g2.present es hl
              rw [k1] at h
              rw [hs] at k2
              simp only [Option.getD_none, List.append_nil] at k2
              exact ⟨es, rfl, by rw [k2]; exact (k3 b).1 h⟩
          · rintro ⟨es, hl, hm⟩
            obtain ⟨f, pre, k1, k2, k3⟩ := g2.present es hl
            rw [hs] at k2
            simp only [Option.getD_none, List.append_nil] at k2
            rw [k1]
            exact (k3 b).2 (by rw [← k2]; exact hm)
        cases r with
        | known id =>
          refine ⟨c', .known id, ?_, ?_, rfl, hhas⟩
          · split <;> exact hr
          · split <;> simp [DirState.get, DirState.put, assocGet_set]
        | unknown c0 =>
          refine ⟨c', .unknown (some c'), ?_, rfl, rfl, hhas⟩
          split <;> simp [DirState.put, assocGet_set]

/-- One call. -/
theorem dirOp_inv {w : DirWorld} (hw : Steady w) (ar : Str → Option Bool) {marks : List (Str × Str)} {st : DirState}
    (hi : DirInv w marks st) (o : DirOp) (ha : AbsentMarks w (marksAfter marks o)) :
    ∃ st', o.run w ar st = some st' ∧ DirInv w (marksAfter marks o) st' := by
  cases o with
  | exists_ n =>
    simp only [DirOp.run, fileExists]
    cases ar n with
    | some b => exact ⟨st, rfl, hi⟩
    | none =>
      obtain ⟨r, st', h1, h2, _⟩ := dirFileExists_inv hw hi ha (dirBase n).1 (some (dirBase n).2)
      exact ⟨st', by simp only [h1, Option.map_some], h2⟩
  | existsIn d n =>
    obtain ⟨r, st', h1, h2, _⟩ := dirFileExists_inv hw hi ha d (some n)
    exact ⟨st', by simp only [DirOp.run, h1, Option.map_some], h2⟩
  | mark n =>
    exact fileImpossible_inv hw hi n (ha _ _ (List.mem_cons_self ..))
  | marked n =>
    obtain ⟨r, st', h1, h2, _⟩ := fileImpossibleP_inv hw hi n
    exact ⟨st', by simp only [DirOp.run, h1, Option.map_some], h2⟩
  | glob d =>
    obtain ⟨r, st', h1, h2, _⟩ := globDir_inv hw hi ha d
    exact ⟨st', by simp only [DirOp.run, h1, Option.map_some], h2⟩

theorem mem_marks_foldl (ops : List DirOp) (marks : List (Str × Str)) (p : Str × Str) :
    p ∈ ops.foldl marksAfter marks ↔ p ∈ marks ∨ ∃ n, DirOp.mark n ∈ ops ∧ dirBase n = p := by
  induction ops generalizing marks with
  | nil => simp
  | cons o ops ih =>
    rw [List.foldl_cons, ih]
    cases o with
    | mark n =>
      simp only [marksAfter, List.mem_cons, DirOp.mark.injEq]
      constructor
      · rintro ((h | h) | ⟨m, h1, h2⟩)
        · exact Or.inr ⟨n, Or.inl rfl, h.symm⟩
        · exact Or.inl h
        · exact Or.inr ⟨m, Or.inr h1, h2⟩
      · rintro (h | ⟨m, h1 | h1, h2⟩)
        · exact Or.inl (Or.inr h)
        · subst h1; exact Or.inl (Or.inl h2.symm)
        · exact Or.inr ⟨m, h1, h2⟩
    | exists_ n => simp [marksAfter]
    | existsIn d n => simp [marksAfter]
    | marked n => simp [marksAfter]
    | glob d => simp [marksAfter]

/-- A history of calls. -/
theorem dirOps_inv {w : DirWorld} (hw : Steady w) (ar : Str → Option Bool) (ops : List DirOp) {marks : List (Str × Str)} {st : DirState}
    (hi : DirInv w marks st) (ha : AbsentMarks w (ops.foldl marksAfter marks)) :
    ∃ st', runDirOps ar (ops.map (w, ·)) st = some st' ∧ DirInv w (ops.foldl marksAfter marks) st' := by
  induction ops generalizing marks st with
  | nil => exact ⟨st, rfl, hi⟩
  | cons o ops ih =>
    have ha1 : AbsentMarks w (marksAfter marks o) := by
      intro d b h
      exact ha d b ((mem_marks_foldl ops (marksAfter marks o) (d, b)).2 (Or.inl h))
    obtain ⟨st1, h1, h2⟩ := dirOp_inv hw ar hi o ha1
    obtain ⟨st2, h3, h4⟩ := ih h2 ha
    exact ⟨st2, by simp only [List.map_cons, runDirOps, h1, Option.bind_some, h3], h4⟩

theorem absent_of_spec {w : DirWorld} {ops : List DirOp} (h : MarksAbsent w ops) : AbsentMarks w (ops.foldl marksAfter []) := by
  intro d b hm
  rcases (mem_marks_foldl ..).1 hm with h' | ⟨n, h1, h2⟩
  · cases h'
  · exact h n h1 d b (inDir_iff.2 h2)

/-! ## Open directories -/

/-- The number of open streams. -/
def openStreams (st : DirState) : Nat := st.contents.countP (fun e => e.2.stream.isSome)

theorem countP_assocSet_new {α : Type} [DecidableEq α] (k : α) (c : DirContents) (l : List (α × DirContents)) (h : assocGet k l = none) :
    (assocSet k c l).countP (fun e => e.2.stream.isSome) = l.countP (fun e => e.2.stream.isSome) + (if c.stream.isSome then 1 else 0) := by
  induction l with
  | nil => simp [assocSet, List.countP_cons]
  | cons p l ih =>
    obtain ⟨a, b⟩ := p
    simp only [assocGet] at h
    split at h
    · cases h
    · rename_i hne
      simp only [assocSet, if_neg hne, List.countP_cons, ih h]
      omega

theorem countP_assocSet_old {α : Type} [DecidableEq α] (k : α) (c c0 : DirContents) (l : List (α × DirContents)) (h : assocGet k l = some c0) :
    (assocSet k c l).countP (fun e => e.2.stream.isSome) + (if c0.stream.isSome then 1 else 0) =
      l.countP (fun e => e.2.stream.isSome) + (if c.stream.isSome then 1 else 0) := by
  induction l with
  | nil => cases h
  | cons p l ih =>
    obtain ⟨a, b⟩ := p
    simp only [assocGet] at h
    split at h
    · rename_i hne
      cases h
      simp only [assocSet, if_pos hne, List.countP_cons]
      omega
    · rename_i hne
      simp only [assocSet, if_neg hne, List.countP_cons]
      have := ih h
      omega

theorem readDir_none_closed (files : List (Str × Bool)) (s : List Dirent) {r files' s'}
    (h : readDir none files s = some (r, files', s')) : s' = none := by
  induction s generalizing files with
  | nil => cases h; rfl
  | cons e s ih =>
    cases e with
    | error => cases h
    | entry n ino =>
      simp only [readDir] at h
      split at h
      · exact ih _ h
      · rw [if_neg (by simp)] at h; exact ih _ h

theorem contentsExists_streams (w : DirWorld) (c : DirContents) (file : Option Str) {r c' cl} (h : contentsExists w c file = some (r, c', cl)) :
    (if c'.stream.isSome then 1 else 0) + (if cl = true then 1 else 0) = (if c.stream.isSome then 1 else 0) := by
  unfold contentsExists at h
  split at h
  · cases h; simp
  · split at h
    · cases h; simp
    · split at h
      · cases h; simp
      · split at h
        · cases h; simp
        · split at h
          · cases h
          · rename_i hs _ _ _ _ _
            cases h
            rename_i s' _
            rw [hs]
            cases s' <;> simp

/-- What holds of the streams between calls. -/
structure StreamInv (st : DirState) : Prop where
  count : st.opened = openStreams st
  few : st.opened < maxOpenDirectories
  known : ∀ n id, assocGet n st.dirs = some (.known id) → ∃ c, assocGet id st.contents = some c
  private_ : ∀ n c, assocGet n st.dirs = some (.unknown (some c)) → c.stream = none

theorem streamInv_init : StreamInv .init :=
  ⟨rfl, by decide, (by intro n id h; cases h), (by intro n c h; cases h)⟩

theorem newContents_streams {w : DirWorld} {id : DevIno} {st st' : DirState} (h : newContents w id st = some st') (hn : assocGet id st.contents = none)
    (h1 : st.opened = openStreams st) (h2 : st.opened < maxOpenDirectories) :
    st'.opened = openStreams st' ∧ st'.opened < maxOpenDirectories ∧ st'.dirs = st.dirs ∧ ∃ c, st'.contents = assocSet id c st.contents := by
  unfold newContents at h
  split at h
  · cases h
    refine ⟨?_, h2, rfl, _, rfl⟩
    simp only [openStreams]
    rw [countP_assocSet_new id _ _ hn]
    simpa [openStreams] using h1
  · rename_i s hs
    simp only at h
    split at h
    · rename_i hmax
      split at h
      · cases h
      · rename_i r c cl hc
        cases h
        have h3 : cl = true ∧ c.stream = none := by
          simp only [contentsExists] at hc
          rw [if_neg (by simp)] at hc
          simp only [Option.bind_none] at hc
          split at hc
          · cases hc
          · rename_i r' f' s' hr
            cases hc
            rw [readDir_none_closed _ _ hr]
            simp
        obtain ⟨rfl, h4⟩ := h3
        refine ⟨?_, h2, rfl, _, rfl⟩
        simp only [openStreams, if_true]
        rw [countP_assocSet_new id _ _ hn, h4]
        simpa [openStreams] using h1
    · rename_i hmax
      cases h
      refine ⟨?_, ?_, rfl, _, rfl⟩
      · simp only [openStreams]
        rw [countP_assocSet_new id _ _ hn]
        simp [h1, openStreams]
      · simp only; omega

theorem findDirectory_streams {w : DirWorld} {n : Str} {st st' : DirState} {r : DirRef} (h : findDirectory w n st = some (r, st'))
    (hi : StreamInv st) : StreamInv st' ∧ assocGet n st'.dirs = some r := by
  unfold findDirectory at h
  split at h
  · rename_i r' hr; cases h; exact ⟨hi, hr⟩
  · split at h
    · cases h
      refine ⟨⟨hi.count, hi.few, ?_, ?_⟩, assocGet_set_self ..⟩
      · intro m id h
        rw [assocGet_set] at h
        split at h
        · cases h
        · exact hi.known m id h
      · intro m c h
        rw [assocGet_set] at h
        split at h
        · cases h
        · exact hi.private_ m c h
    · rename_i id hs
      simp only at h
      split at h
      · rename_i c hc
        cases h
        refine ⟨⟨hi.count, hi.few, ?_, ?_⟩, assocGet_set_self ..⟩
        · intro m id' h
          rw [assocGet_set] at h
          split at h
          · cases h; exact ⟨c, hc⟩
          · exact hi.known m id' h
        · intro m c h
          rw [assocGet_set] at h
          split at h
          · cases h
          · exact hi.private_ m c h
      · rename_i hc
        simp only [Option.map_eq_some_iff] at h
        obtain ⟨st2, h1, h2⟩ := h
        cases h2
        obtain ⟨g1, g2, g3, c, g4⟩ := newContents_streams h1 hc hi.count hi.few
        simp only at g3 g4
        refine ⟨⟨g1, g2, ?_, ?_⟩, by rw [g3]; exact assocGet_set_self ..⟩
        · intro m id' h
          rw [g3, assocGet_set] at h
          rw [g4, assocGet_set]
          split at h
          · cases h; exact ⟨c, by simp⟩
          · split
            · exact ⟨_, rfl⟩
            · exact hi.known m id' h
        · intro m c h
          rw [g3, assocGet_set] at h
          split at h
          · cases h
          · exact hi.private_ m c h

/-- Contents put back with one stream less, or as many. -/
theorem put_streams {st : DirState} (hi : StreamInv st) {n : Str} {r : DirRef} (hr : assocGet n st.dirs = some r) {c c' : DirContents}
    (hc : (st.get r).getD ⟨none, none⟩ = c) (cl : Bool)
    (hs : (if c'.stream.isSome then 1 else 0) + (if cl = true then 1 else 0) = (if c.stream.isSome then 1 else 0)) :
    StreamInv (if cl then { st.put n c' r with opened := (st.put n c' r).opened - 1 } else st.put n c' r) ∧
      (cl = true → 1 ≤ (st.put n c' r).opened) := by
  have hcount : openStreams (st.put n c' r) + (if cl = true then 1 else 0) = openStreams st := by
    cases r with
    | known id =>
      obtain ⟨c0, h0⟩ := hi.known n id hr
      simp only [DirState.get, h0, Option.getD_some] at hc
      subst hc
      have := countP_assocSet_old id c' c0 st.contents h0
      simp only [openStreams, DirState.put]
      omega
    | unknown c0 =>
      simp only [DirState.get] at hc
      have : c.stream = none := by
        cases c0 with
        | none => subst hc; rfl
        | some c1 => subst hc; exact hi.private_ n c1 hr
      rw [this] at hs
      simp only [openStreams, DirState.put]
      simp only [Option.isSome_none, Bool.false_eq_true, if_false] at hs
      omega
  have hop : (st.put n c' r).opened = st.opened := by cases r <;> rfl
  have hk : ∀ m id, assocGet m (st.put n c' r).dirs = some (.known id) → ∃ c, assocGet id (st.put n c' r).contents = some c := by
    intro m id h
    cases r with
    | known id' =>
      simp only [DirState.put, assocGet_set] at *
      split
      · exact ⟨_, rfl⟩
      · exact hi.known m id h
    | unknown c0 =>
      simp only [DirState.put, assocGet_set] at *
      split at h
      · cases h
      · exact hi.known m id h
  have hp : ∀ m c, assocGet m (st.put n c' r).dirs = some (.unknown (some c)) → c.stream = none := by
    intro m c1 h
    cases r with
    | known id' => exact hi.private_ m c1 h
    | unknown c0 =>
      simp only [DirState.put, assocGet_set] at h
      split at h
      · cases h
        simp only [DirState.get] at hc
        have : c.stream = none := by
          cases c0 with
          | none => subst hc; rfl
          | some c2 => subst hc; exact hi.private_ n c2 hr
        rw [this] at hs
        cases hc1 : c'.stream with
        | none => rfl
        | some s => rw [hc1] at hs; simp at hs
      · exact hi.private_ m c1 h
  have hcnt := hi.count
  have hfew := hi.few
  cases cl with
  | true =>
    simp only [if_true] at *
    refine ⟨⟨?_, ?_, hk, hp⟩, fun _ => by omega⟩
    · show (st.put n c' r).opened - 1 = openStreams (st.put n c' r)
      omega
    · show (st.put n c' r).opened - 1 < maxOpenDirectories
      omega
  | false =>
    simp only [Bool.false_eq_true, if_false] at *
    exact ⟨⟨by omega, by omega, hk, hp⟩, by simp⟩

theorem dirFileExists_streams {w : DirWorld} {n : Str} {f : Option Str} {st st' : DirState} {b : Bool} (h : dirFileExists w n f st = some (b, st'))
    (hi : StreamInv st) : StreamInv st' := by
  unfold dirFileExists at h
  split at h
  · cases h
  · rename_i r st1 hf
    obtain ⟨h1, h2⟩ := findDirectory_streams hf hi
    split at h
    · cases h; exact h1
    · rename_i c hc
      split at h
      · cases h
      · rename_i b' c' cl he
        cases h
        exact (put_streams h1 h2 (c := c) (by rw [hc]; rfl) cl (contentsExists_streams w c f he)).1

theorem globDir_streams {w : DirWorld} {n : Str} {st st' : DirState} {b : Option (List Str)} (h : globDir w n st = some (b, st'))
    (hi : StreamInv st) : StreamInv st' := by
  unfold globDir at h
  split at h
  · cases h
  · rename_i r st1 hf
    obtain ⟨h1, h2⟩ := findDirectory_streams hf hi
    split at h
    · cases h; exact h1
    · rename_i c hc
      split at h
      · cases h; exact h1
      · split at h
        · cases h
        · rename_i b' c' cl he
          cases h
          exact (put_streams h1 h2 (c := c) (by rw [hc]; rfl) cl (contentsExists_streams w c none he)).1

theorem dirOp_streams {w : DirWorld} {ar : Str → Option Bool} {st st' : DirState} {o : DirOp} (h : o.run w ar st = some st')
    (hi : StreamInv st) : StreamInv st' := by
  cases o with
  | exists_ n =>
    simp only [DirOp.run, fileExists] at h
    split at h
    · cases h; exact hi
    · simp only [Option.map_eq_some_iff] at h
      obtain ⟨⟨b, s⟩, h1, rfl⟩ := h
      exact dirFileExists_streams h1 hi
  | existsIn d n =>
    simp only [DirOp.run, Option.map_eq_some_iff] at h
    obtain ⟨⟨b, s⟩, h1, rfl⟩ := h
    exact dirFileExists_streams h1 hi
  | mark n =>
    simp only [DirOp.run, fileImpossible] at h
    split at h
    · cases h
    · rename_i r st1 hf
      obtain ⟨h1, h2⟩ := findDirectory_streams hf hi
      cases h
      have := (put_streams h1 h2 (c := (st1.get r).getD ⟨none, none⟩)
        (c' := { (st1.get r).getD ⟨none, none⟩ with
          files := some (assocSet (dirBase n).2 true (((st1.get r).getD ⟨none, none⟩).files.getD [])) }) rfl false (by simp)).1
      simpa using this
  | marked n =>
    simp only [DirOp.run, Option.map_eq_some_iff] at h
    obtain ⟨⟨b, s⟩, h1, rfl⟩ := h
    unfold fileImpossibleP at h1
    split at h1
    · cases h1
    · rename_i r st1 hf
      obtain ⟨g1, g2⟩ := findDirectory_streams hf hi
      split at h1
      · cases h1; exact g1
      · split at h1 <;> (cases h1; exact g1)
  | glob d =>
    simp only [DirOp.run, Option.map_eq_some_iff] at h
    obtain ⟨⟨b, s⟩, h1, rfl⟩ := h
    exact globDir_streams h1 hi

theorem runDirOps_append (ar : Str → Option Bool) (a b : List (DirWorld × DirOp)) (st : DirState) :
    runDirOps ar (a ++ b) st = (runDirOps ar a st).bind (runDirOps ar b) := by
  induction a generalizing st with
  | nil => rfl
  | cons p a ih =>
    obtain ⟨w, o⟩ := p
    simp only [List.cons_append, runDirOps]
    cases o.run w ar st with
    | none => rfl
    | some s => simp [ih]

theorem runDirOps_streams (ar : Str → Option Bool) (ops : List (DirWorld × DirOp)) {st st' : DirState} (h : runDirOps ar ops st = some st')
    (hi : StreamInv st) : StreamInv st' := by
  induction ops generalizing st with
  | nil => cases h; exact hi
  | cons p ops ih =>
    obtain ⟨w, o⟩ := p
    simp only [runDirOps, Option.bind_eq_some_iff] at h
    obtain ⟨s, h1, h2⟩ := h
    exact ih h2 (dirOp_streams h1 hi)

end Remake
