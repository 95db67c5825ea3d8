import Verif.Dir.Lemmas2

/-! # What holds of all contents, and how they evolve -/
set_option linter.unusedVariables false
set_option linter.unusedSimpArgs false
namespace Remake
open Spec

/-- Contents with one more mark. -/
def DirContents.mark (c : DirContents) (b : Str) : DirContents := { c with files := some (assocSet b true (c.files.getD [])) }

/-- The contents of a null pointer. -/
def nullContents : DirContents := ⟨none, none⟩

/-- All contents there are. -/
structure AllC (Q : DirContents → Prop) (st : DirState) : Prop where
  null : Q nullContents
  known : ∀ id c, assocGet id st.contents = some c → Q c
  unknown : ∀ n c, assocGet n st.dirs = some (.unknown (some c)) → Q c

/-- The contents of the directories change by `R`, and no directory is forgotten. -/
def Evolves (R : DirContents → DirContents → Prop) (st st' : DirState) : Prop :=
  ∀ d r, assocGet d st.dirs = some r → ∃ r', assocGet d st'.dirs = some r' ∧ R ((st.get r).getD nullContents) ((st'.get r').getD nullContents)

/-- Conditions on a property of contents and on a way they may change, for calls with marks of files with names in `M`. -/
structure Closed (M : Str → Prop) (Q : DirContents → Prop) (R : DirContents → DirContents → Prop) : Prop where
  start : ∀ s, Q ⟨some [], some s⟩
  read : ∀ w c f r c' cl, Q c → contentsExists w c f = some (r, c', cl) → Q c' ∧ R c c'
  mark : ∀ c b, M b → Q c → Q (c.mark b) ∧ R c (c.mark b)
  refl : ∀ c, R c c
  trans : ∀ a b c, R a b → R b c → R a c

theorem AllC.get {Q : DirContents → Prop} {st : DirState} (h : AllC Q st) {n : Str} {r : DirRef} (hr : assocGet n st.dirs = some r) :
    Q ((st.get r).getD nullContents) := by
  cases r with
  | known id =>
    simp only [DirState.get]
    cases hc : assocGet id st.contents with
    | none => exact h.null
    | some c => exact h.known id c hc
  | unknown c =>
    cases c with
    | none => exact h.null
    | some c => exact h.unknown n c hr

theorem Evolves.refl {M Q R} (hc : Closed M Q R) (st : DirState) : Evolves R st st := fun d r h => ⟨r, h, hc.refl _⟩

theorem Evolves.trans {M Q R} (hc : Closed M Q R) {a b c : DirState} (h1 : Evolves R a b) (h2 : Evolves R b c) : Evolves R a c := by
  intro d r h
  obtain ⟨r', g1, g2⟩ := h1 d r h
  obtain ⟨r'', g3, g4⟩ := h2 d r' g1
  exact ⟨r'', g3, hc.trans _ _ _ g2 g4⟩

/-- Every directory known by device and inode has contents. -/
def KnownIn (st : DirState) : Prop := ∀ n id, assocGet n st.dirs = some (.known id) → ∃ c, assocGet id st.contents = some c

theorem newContents_evolves {M Q R} (hc : Closed M Q R) {w : DirWorld} {id : DevIno} {st st' : DirState} (h : newContents w id st = some st')
    (h0 : Q nullContents) : st'.dirs = st.dirs ∧ ∃ c, st'.contents = assocSet id c st.contents ∧ Q c := by
  unfold newContents at h
  split at h
  · cases h; exact ⟨rfl, _, rfl, h0⟩
  · rename_i s hs
    simp only at h
    split at h
    · split at h
      · cases h
      · rename_i r c cl he
        cases h
        exact ⟨rfl, c, rfl, (hc.read _ _ _ _ _ _ (hc.start s) he).1⟩
    · cases h; exact ⟨rfl, _, rfl, hc.start s⟩

theorem findDirectory_evolves {M Q R} (hc : Closed M Q R) {w : DirWorld} {n : Str} {st st' : DirState} {r : DirRef}
    (h : findDirectory w n st = some (r, st')) (ha : AllC Q st) (hk : KnownIn st) :
    AllC Q st' ∧ KnownIn st' ∧ Evolves R st st' ∧ assocGet n st'.dirs = some r := by
  unfold findDirectory at h
  split at h
  · rename_i r' hr; cases h; exact ⟨ha, hk, Evolves.refl hc _, hr⟩
  · rename_i hn
    have hold : ∀ (v : DirRef) d r, assocGet d st.dirs = some r → assocGet d (assocSet n v st.dirs) = some r := by
      intro v d r hd
      rw [assocGet_set]
      split
      · rename_i e; subst e; rw [hn] at hd; cases hd
      · exact hd
    split at h
    · cases h
      refine ⟨⟨ha.null, ha.known, ?_⟩, ?_, ?_, assocGet_set_self ..⟩
      · intro m c h
        rw [assocGet_set] at h
        split at h
        · cases h
        · exact ha.unknown m c h
      · intro m id h
        rw [assocGet_set] at h
        split at h
        · cases h
        · exact hk m id h
      · intro d r hd
        exact ⟨r, hold _ d r hd, by cases r <;> exact hc.refl _⟩
    · rename_i id hs
      simp only at h
      split at h
      · rename_i c hcc
        cases h
        refine ⟨⟨ha.null, ha.known, ?_⟩, ?_, ?_, assocGet_set_self ..⟩
        · intro m c h
          rw [assocGet_set] at h
          split at h
          · cases h
          · exact ha.unknown m c h
        · intro m id h
          rw [assocGet_set] at h
          split at h
          · cases h; exact ⟨c, hcc⟩
          · exact hk m id h
        · intro d r hd
          exact ⟨r, hold _ d r hd, by cases r <;> exact hc.refl _⟩
      · rename_i hcc
        simp only [Option.map_eq_some_iff] at h
        obtain ⟨st2, h1, h2⟩ := h
        cases h2
        obtain ⟨g1, c, g2, g3⟩ := newContents_evolves hc h1 ha.null
        simp only at g1 g2
        refine ⟨⟨ha.null, ?_, ?_⟩, ?_, ?_, by rw [g1]; exact assocGet_set_self ..⟩
        · intro id' c' h
          rw [g2, assocGet_set] at h
          split at h
          · cases h; exact g3
          · exact ha.known id' c' h
        · intro m c h
          rw [g1, assocGet_set] at h
          split at h
          · cases h
          · exact ha.unknown m c h
        · intro m id' h
          rw [g1, assocGet_set] at h
          rw [g2, assocGet_set]
          split at h
          · cases h; exact ⟨c, by simp⟩
          · split
            · exact ⟨_, rfl⟩
            · exact hk m id' h
        · intro d r hd
          refine ⟨r, by rw [g1]; exact hold _ d r hd, ?_⟩
          cases r with
          | known id' =>
            obtain ⟨c1, hc1⟩ := hk d id' hd
            have : ¬ id' = id := by rintro rfl; rw [hcc] at hc1; cases hc1
            simp only [DirState.get, g2, assocGet_set, if_neg this]
            exact hc.refl _
          | unknown c1 => exact hc.refl _

/-- Contents put back. -/
theorem put_evolves {M Q R} (hc : Closed M Q R) {st : DirState} (ha : AllC Q st) (hk : KnownIn st) {n : Str} {r : DirRef}
    (hr : assocGet n st.dirs = some r) {c' : DirContents} (hq : Q c') (hR : R ((st.get r).getD nullContents) c') (k : Nat) :
    AllC Q { st.put n c' r with opened := k } ∧ KnownIn { st.put n c' r with opened := k } ∧ Evolves R st { st.put n c' r with opened := k } := by
  cases r with
  | known id =>
    refine ⟨⟨ha.null, ?_, ha.unknown⟩, ?_, ?_⟩
    · intro id' c h
      simp only [DirState.put, assocGet_set] at h
      split at h
      · cases h; exact hq
      · exact ha.known id' c h
    · intro m id' h
      simp only [DirState.put, assocGet_set]
      split
      · exact ⟨_, rfl⟩
      · exact hk m id' h
    · intro d r' hd
      refine ⟨r', hd, ?_⟩
      cases r' with
      | known id' =>
        simp only [DirState.get, DirState.put, assocGet_set]
        by_cases e : id' = id
        · subst e; rw [if_pos rfl]; exact hR
        · rw [if_neg e]; exact hc.refl _
      | unknown c1 => exact hc.refl _
  | unknown c0 =>
    refine ⟨⟨ha.null, ha.known, ?_⟩, ?_, ?_⟩
    · intro m c h
      simp only [DirState.put, assocGet_set] at h
      split at h
      · cases h; exact hq
      · exact ha.unknown m c h
    · intro m id' h
      simp only [DirState.put, assocGet_set] at h
      split at h
      · cases h
      · exact hk m id' h
    · intro d r' hd
      by_cases e : d = n
      · subst e
        rw [hr] at hd; cases hd
        exact ⟨.unknown (some c'), by simp [DirState.put, assocGet_set], hR⟩
      · refine ⟨r', by simp only [DirState.put, assocGet_set, if_neg e]; exact hd, ?_⟩
        cases r' <;> exact hc.refl _

theorem dirFileExists_evolves {M Q R} (hc : Closed M Q R) {w : DirWorld} {n : Str} {f : Option Str} {st st' : DirState} {b : Bool}
    (h : dirFileExists w n f st = some (b, st')) (ha : AllC Q st) (hk : KnownIn st) :
    AllC Q st' ∧ KnownIn st' ∧ Evolves R st st' := by
  unfold dirFileExists at h
  split at h
  · cases h
  · rename_i r st1 hf
    obtain ⟨h1, h2, h3, h4⟩ := findDirectory_evolves hc hf ha hk
    split at h
    · cases h; exact ⟨h1, h2, h3⟩
    · rename_i c hcc
      split at h
      · cases h
      · rename_i b' c' cl he
        cases h
        have hq := h1.get h4
        rw [hcc, Option.getD_some] at hq
        obtain ⟨g1, g2⟩ := hc.read _ _ _ _ _ _ hq he
        have e : ∃ k, (if cl = true then { st1.put n c' r with opened := (st1.put n c' r).opened - 1 } else st1.put n c' r) =
            { st1.put n c' r with opened := k } := by
          cases cl
          · exact ⟨(st1.put n c' r).opened, rfl⟩
          · exact ⟨_, rfl⟩
        obtain ⟨k, e⟩ := e
        rw [e]
        obtain ⟨k1, k2, k3⟩ := put_evolves hc h1 h2 h4 g1 (by rw [hcc]; exact g2) k
        exact ⟨k1, k2, h3.trans hc k3⟩

theorem dirOp_evolves {M Q R} (hc : Closed M Q R) {w : DirWorld} {ar : Str → Option Bool} {o : DirOp} {st st' : DirState}
    (h : o.run w ar st = some st') (hm : ∀ n, o = .mark n → M (dirBase n).2) (ha : AllC Q st) (hk : KnownIn st) :
    AllC Q st' ∧ KnownIn st' ∧ Evolves R st st' := by
  cases o with
  | exists_ n =>
    simp only [DirOp.run, fileExists] at h
    split at h
    · cases h; exact ⟨ha, hk, Evolves.refl hc _⟩
    · simp only [Option.map_eq_some_iff] at h
      obtain ⟨⟨b, s⟩, h1, rfl⟩ := h
      exact dirFileExists_evolves hc h1 ha hk
  | existsIn d n =>
    simp only [DirOp.run, Option.map_eq_some_iff] at h
    obtain ⟨⟨b, s⟩, h1, rfl⟩ := h
    exact dirFileExists_evolves hc h1 ha hk
  | mark n =>
    simp only [DirOp.run, fileImpossible] at h
    split at h
    · cases h
    · rename_i r st1 hf
      obtain ⟨h1, h2, h3, h4⟩ := findDirectory_evolves hc hf ha hk
      cases h
      obtain ⟨g1, g2⟩ := hc.mark _ _ (hm n rfl) (h1.get h4)
      obtain ⟨k1, k2, k3⟩ := put_evolves hc h1 h2 h4 g1 g2 (st1.put (dirBase n).1 (((st1.get r).getD nullContents).mark (dirBase n).2) r).opened
      exact ⟨k1, k2, h3.trans hc k3⟩
  | marked n =>
    simp only [DirOp.run, Option.map_eq_some_iff] at h
    obtain ⟨⟨b, s⟩, h1, rfl⟩ := h
    unfold fileImpossibleP at h1
    split at h1
    · cases h1
    · rename_i r st1 hf
      obtain ⟨g1, g2, g3, g4⟩ := findDirectory_evolves hc hf ha hk
      split at h1
      · cases h1; exact ⟨g1, g2, g3⟩
      · split at h1 <;> (cases h1; exact ⟨g1, g2, g3⟩)
  | glob n =>
    simp only [DirOp.run, Option.map_eq_some_iff] at h
    obtain ⟨⟨b, s⟩, h, rfl⟩ := h
    unfold globDir at h
    split at h
    · cases h
    · rename_i r st1 hf
      obtain ⟨h1, h2, h3, h4⟩ := findDirectory_evolves hc hf ha hk
      split at h
      · cases h; exact ⟨h1, h2, h3⟩
      · rename_i c hcc
        split at h
        · cases h; exact ⟨h1, h2, h3⟩
        · split at h
          · cases h
          · rename_i b' c' cl he
            cases h
            have hq := h1.get h4
            rw [hcc, Option.getD_some] at hq
            obtain ⟨g1, g2⟩ := hc.read _ _ _ _ _ _ hq he
            have e : ∃ k, (if cl = true then { st1.put n c' r with opened := (st1.put n c' r).opened - 1 } else st1.put n c' r) =
                { st1.put n c' r with opened := k } := by
              cases cl
              · exact ⟨(st1.put n c' r).opened, rfl⟩
              · exact ⟨_, rfl⟩
            obtain ⟨k, e⟩ := e
            simp only [e]
            obtain ⟨k1, k2, k3⟩ := put_evolves hc h1 h2 h4 g1 (by rw [hcc]; exact g2) k
            exact ⟨k1, k2, h3.trans hc k3⟩

theorem runDirOps_evolves {M Q R} (hc : Closed M Q R) (ar : Str → Option Bool) (ops : List (DirWorld × DirOp)) {st st' : DirState}
    (h : runDirOps ar ops st = some st') (hm : ∀ w n, (w, DirOp.mark n) ∈ ops → M (dirBase n).2) (ha : AllC Q st) (hk : KnownIn st) :
    AllC Q st' ∧ KnownIn st' ∧ Evolves R st st' := by
  induction ops generalizing st with
  | nil => cases h; exact ⟨ha, hk, Evolves.refl hc _⟩
  | cons p ops ih =>
    obtain ⟨w, o⟩ := p
    simp only [runDirOps, Option.bind_eq_some_iff] at h
    obtain ⟨s, h1, h2⟩ := h
    obtain ⟨g1, g2, g3⟩ := dirOp_evolves hc h1 (by rintro n rfl; exact hm w n (List.mem_cons_self ..)) ha hk
    obtain ⟨k1, k2, k3⟩ := ih h2 (fun w n hn => hm w n (List.mem_cons_of_mem _ hn)) g1 g2
    exact ⟨k1, k2, g3.trans hc k3⟩

theorem allC_init {Q : DirContents → Prop} (h : Q nullContents) : AllC Q .init := ⟨h, (by intro id c h; cases h), (by intro n c h; cases h)⟩

theorem knownIn_init : KnownIn .init := by intro n id h; cases h

/-! ## No name twice in a table -/

/-- No name twice. -/
def KeysOnce (c : DirContents) : Prop := ((c.files.getD []).map (·.1)).Nodup

theorem assocSet_keys {β : Type} (k : Str) (v : β) (l : List (Str × β)) (h : (l.map (·.1)).Nodup) : ((assocSet k v l).map (·.1)).Nodup := by
  have hsub : ∀ l : List (Str × β), ∀ x, x ∈ (assocSet k v l).map (·.1) → x = k ∨ x ∈ l.map (·.1) := by
    intro l
    induction l with
    | nil => intro x hx; simp [assocSet] at hx; exact Or.inl hx
    | cons p l ih =>
      obtain ⟨a, b⟩ := p
      intro x hx
      simp only [assocSet] at hx
      split at hx
      · rename_i e
        simp only [List.map_cons, List.mem_cons] at hx ⊢
        rcases hx with hx | hx
        · exact Or.inl hx
        · exact Or.inr (Or.inr hx)
      · simp only [List.map_cons, List.mem_cons] at hx ⊢
        rcases hx with hx | hx
        · exact Or.inr (Or.inl hx)
        · rcases ih x hx with h | h
          · exact Or.inl h
          · exact Or.inr (Or.inr h)
  induction l with
  | nil => simp [assocSet]
  | cons p l ih =>
    obtain ⟨a, b⟩ := p
    simp only [List.map_cons, List.nodup_cons] at h
    simp only [assocSet]
    split
    · rename_i e; subst e; simpa using h
    · rename_i e
      simp only [List.map_cons, List.nodup_cons]
      refine ⟨?_, ih h.2⟩
      intro hx
      rcases hsub l a hx with h' | h'
      · exact e h'
      · exact h.1 h'

theorem readDir_keys (f : Option Str) (files : List (Str × Bool)) (s : List Dirent) (h : (files.map (·.1)).Nodup) {r files' s'}
    (hr : readDir f files s = some (r, files', s')) : (files'.map (·.1)).Nodup := by
  induction s generalizing files with
  | nil => cases hr; exact h
  | cons e s ih =>
    cases e with
    | error => cases hr
    | entry n ino =>
      simp only [readDir] at hr
      split at hr
      · exact ih _ h hr
      · split at hr
        · cases hr; exact assocSet_keys _ _ _ h
        · exact ih _ (assocSet_keys _ _ _ h) hr

theorem keysOnce_closed : Closed (fun _ => True) KeysOnce (fun _ _ => True) := by
  refine ⟨by intro s; simp [KeysOnce], ?_, ?_, fun _ => trivial, fun _ _ _ _ _ => trivial⟩
  · intro w c f r c' cl hq h
    refine ⟨?_, trivial⟩
    unfold contentsExists at h
    split at h
    · cases h; exact hq
    · rename_i files hf
      split at h
      · cases h; exact hq
      · split at h
        · cases h; exact hq
        · split at h
          · cases h; exact hq
          · split at h
            · cases h
            · rename_i r' f' s' hr
              cases h
              simp only [KeysOnce, hf, Option.getD_some] at hq ⊢
              exact readDir_keys _ _ _ hq hr
  · intro c b _ hq
    exact ⟨assocSet_keys _ _ _ hq, trivial⟩

theorem mem_of_assocGet {β : Type} {k : Str} {v : β} {l : List (Str × β)} (h : assocGet k l = some v) : (k, v) ∈ l := by
  induction l with
  | nil => cases h
  | cons p l ih =>
    obtain ⟨a, b⟩ := p
    simp only [assocGet] at h
    split at h
    · rename_i e; cases h; subst e; simp
    · exact List.mem_cons_of_mem _ (ih h)

theorem assocGet_of_mem {β : Type} {k : Str} {v : β} {l : List (Str × β)} (hn : (l.map (·.1)).Nodup) (h : (k, v) ∈ l) :
    assocGet k l = some v := by
  induction l with
  | nil => cases h
  | cons p l ih =>
    obtain ⟨a, b⟩ := p
    simp only [List.map_cons, List.nodup_cons] at hn
    simp only [assocGet]
    rcases List.mem_cons.1 h with h | h
    · cases h; simp
    · rw [if_neg]
      · exact ih hn.2 h
      · rintro rfl
        exact hn.1 (List.mem_map.2 ⟨_, h, rfl⟩)

/-! ## Answers do not change -/

/-- The entry for a name. -/
def DirContents.entry (c : DirContents) (b : Str) : Option Bool := c.files.bind (assocGet b)

/-- The answer for `b` is settled as no. -/
def SettledNo (b : Str) (c : DirContents) : Prop := c.stream = none ∧ c.entry b ≠ some false

theorem readDir_keeps (f : Option Str) (files : List (Str × Bool)) (s : List Dirent) {r files' s'}
    (hr : readDir f files s = some (r, files', s')) (b : Str) :
    (assocGet b files = some false → assocGet b files' = some false) ∧ (assocGet b files ≠ some true → assocGet b files' ≠ some true) ∧
    (r = true → ∃ n, f = some n ∧ assocGet n files' = some false) ∧ (r = false → s' = none) ∧
    (r = false → f = some b → assocGet b files = none → assocGet b files' = none) := by
  induction s generalizing files with
  | nil => cases hr; simp
  | cons e s ih =>
    cases e with
    | error => cases hr
    | entry n ino =>
      simp only [readDir] at hr
      split at hr
      · exact ih _ hr
      · split at hr
        · rename_i hf
          cases hr
          refine ⟨?_, ?_, ?_, by simp, by simp⟩
          · intro h; rw [assocGet_set]; split
            · rfl
            · exact h
          · intro h; rw [assocGet_set]; split
            · simp
            · exact h
          · intro _; exact ⟨n, hf, assocGet_set_self ..⟩
        · rename_i hf
          obtain ⟨h1, h2, h3, h4, h5⟩ := ih _ hr
          refine ⟨?_, ?_, h3, h4, ?_⟩
          · intro h; apply h1; rw [assocGet_set]; split
            · rfl
            · exact h
          · intro h; apply h2; rw [assocGet_set]; split
            · simp
            · exact h
          · intro hr' hf' hg
            apply h5 hr' hf'
            rw [assocGet_set, if_neg]
            · exact hg
            · rintro rfl; exact hf hf'

/-- Contents without a mark on `b`. -/
def Unmarked (b : Str) (c : DirContents) : Prop := c.entry b ≠ some true ∧ (c.files = none → c.stream = none)

theorem settled_closed (b : Str) :
    Closed (fun b' => b' ≠ b) (Unmarked b)
      (fun c c' => (c.entry b = some false → c'.entry b = some false) ∧ (SettledNo b c → SettledNo b c')) := by
  refine ⟨?_, ?_, ?_, ?_, ?_⟩
  · intro s; exact ⟨by simp [DirContents.entry, assocGet], by intro h; cases h⟩
  · intro w c f r c' cl hq h
    unfold contentsExists at h
    split at h
    · cases h; exact ⟨hq, fun h => h, fun h => h⟩
    · rename_i files hf
      split at h
      · cases h; exact ⟨hq, fun h => h, fun h => h⟩
      · split at h
        · cases h; exact ⟨hq, fun h => h, fun h => h⟩
        · split at h
          · cases h; exact ⟨hq, fun h => h, fun h => h⟩
          · rename_i s hs
            split at h
            · cases h
            · rename_i r' f' s' hr
              cases h
              obtain ⟨h1, h2, _⟩ := readDir_keeps _ _ _ hr b
              simp only [Unmarked, DirContents.entry, hf, Option.bind_some] at hq ⊢
              refine ⟨⟨h2 hq.1, by intro h; cases h⟩, h1, ?_⟩
              intro h
              rw [h.1] at hs; cases hs
  · intro c b' hne hq
    have he : (c.mark b').entry b = c.entry b := by
      simp only [DirContents.mark, DirContents.entry, Option.bind_some, assocGet_set, if_neg (Ne.symm hne)]
      cases c.files <;> simp [assocGet]
    refine ⟨⟨by rw [he]; exact hq.1, by intro h; cases h⟩, by rw [he]; exact fun h => h, ?_⟩
    intro h
    exact ⟨h.1, by rw [he]; exact h.2⟩
  · intro c; exact ⟨fun h => h, fun h => h⟩
  · intro a b c h1 h2; exact ⟨fun h => h2.1 (h1.1 h), fun h => h2.2 (h1.2 h)⟩

/-- After an answer, it is settled. -/
theorem contentsExists_settles {w : DirWorld} {c c' : DirContents} {b : Str} {r cl : Bool} (hb : b ≠ []) (hq : Unmarked b c)
    (h : contentsExists w c (some b) = some (r, c', cl)) :
    (r = true → c'.entry b = some false) ∧ (r = false → SettledNo b c') := by
  unfold contentsExists at h
  split at h
  · rename_i hf
    cases h
    exact ⟨by simp, fun _ => ⟨hq.2 hf, by simp [DirContents.entry, hf]⟩⟩
  · rename_i files hf
    rw [if_neg (by simpa using hb)] at h
    simp only [Option.bind_some] at h
    split at h
    · rename_i imp hi
      cases h
      have he : c.entry b = some imp := by simp [DirContents.entry, hf, hi]
      cases imp with
      | true => exact absurd he hq.1
      | false => exact ⟨fun _ => he, by simp⟩
    · rename_i hi
      have he : c.entry b = none := by simp [DirContents.entry, hf, hi]
      split at h
      · rename_i hs
        cases h
        exact ⟨by simp, fun _ => ⟨hs, by simp [he]⟩⟩
      · split at h
        · cases h
        · rename_i r' f' s' hr
          cases h
          obtain ⟨h1, h2, h3, h4, h5⟩ := readDir_keeps _ _ _ hr b
          refine ⟨?_, ?_⟩
          · intro hr'
            obtain ⟨n, hn, hg⟩ := h3 hr'
            cases hn
            exact hg
          · intro hr'
            exact ⟨h4 hr', by simp [DirContents.entry, h5 hr' rfl hi]⟩

/-- A settled answer is given. -/
theorem contentsExists_settled {w : DirWorld} {c c' : DirContents} {b : Str} {r cl : Bool} (hb : b ≠ [])
    (h : contentsExists w c (some b) = some (r, c', cl)) :
    (c.entry b = some false → r = true) ∧ (SettledNo b c → r = false) := by
  unfold contentsExists at h
  split at h
  · rename_i hf
    cases h
    exact ⟨by simp [DirContents.entry, hf], fun _ => rfl⟩
  · rename_i files hf
    rw [if_neg (by simpa using hb)] at h
    simp only [Option.bind_some] at h
    split at h
    · rename_i imp hi
      cases h
      have he : c.entry b = some imp := by simp [DirContents.entry, hf, hi]
      simp only [he, SettledNo]
      cases imp <;> simp
    · rename_i hi
      have he : c.entry b = none := by simp [DirContents.entry, hf, hi]
      refine ⟨by simp [he], ?_⟩
      intro hs
      rw [hs.1] at h
      cases h; rfl

end Remake
