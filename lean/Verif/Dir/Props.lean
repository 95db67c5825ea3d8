import Verif.Dir.Lemmas3

/-!
# Properties of the cache of directories

C58, C83-C85.
-/
set_option linter.unusedVariables false
namespace Remake
open Spec

/-! ## C58 -/

/-- C58: in a file system that does not change, and after any queries, `file_exists_p` answers whether the directory has the file, or,
for a name that ends in a slash, whether the directory can be read. -/
theorem C58_exists {w : DirWorld} (hw : Steady w) (ar : Str → Option Bool) (ops : List DirOp) (hq : ∀ n, DirOp.mark n ∉ ops)
    (name d b : Str) (hn : InDir name d b) (har : ar name = none) :
    ∃ st r st', runDirOps ar (ops.map (w, ·)) .init = some st ∧ fileExists w ar name st = some (r, st') ∧
      (r = true ↔ if b = [] then Readable w d else Has w d b) := by
  have ha : MarksAbsent w ops := fun n h => absurd h (hq n)
  obtain ⟨st, h1, h2⟩ := dirOps_inv hw ar ops (dirInv_init w) (absent_of_spec ha)
  obtain ⟨r, st', h3, h4, h5, h6⟩ := dirFileExists_inv hw h2 (absent_of_spec ha) d (some b)
  refine ⟨st, r, st', h1, ?_, ?_⟩
  · simp only [fileExists, har, inDir_iff.1 hn]
    exact h3
  · by_cases hb : b = []
    · subst hb
      rw [if_pos rfl, h6 rfl]
      constructor
      · rintro (h | ⟨b, x, _, h⟩)
        · exact h
        · rcases (mem_marks_foldl ..).1 h with h | ⟨n, h, _⟩
          · cases h
          · exact absurd h (hq n)
      · exact Or.inl
    · rw [if_neg hb]
      exact h5 b rfl hb

/-- A file system with the directories `.` and `src/.`, which is the same as `src`. -/
def sampleWorld : DirWorld where
  stat n := if n = ['.'] then some (1, 2) else if n = "src".toList ∨ n = "src/.".toList then some (1, 7) else none
  opendir id := if id = (1, 2) then some [.entry ['.'] 2, .entry "Makefile".toList 3, .entry "old".toList 0, .entry "src".toList 7]
    else if id = (1, 7) then some [.entry "a.c".toList 8, .entry "b.c".toList 9] else none
  resume s := s

theorem sampleWorld_steady : Steady sampleWorld := by
  refine ⟨fun _ => rfl, ?_⟩
  intro id es h
  simp only [sampleWorld] at h
  split at h
  · cases h; decide
  · split at h
    · cases h; decide
    · cases h

example : Steady sampleWorld ∧ InDir "src/b.c".toList "src".toList "b.c".toList ∧ Has sampleWorld "src".toList "b.c".toList :=
  ⟨sampleWorld_steady, ⟨by decide, Or.inr (Or.inr ⟨by decide, rfl⟩)⟩,
    ⟨[.entry "a.c".toList 8, .entry "b.c".toList 9], ⟨(1, 7), by decide, by decide⟩, 9, by decide, by decide⟩⟩

example : (fileExists sampleWorld (fun _ => none) "src/b.c".toList .init).map (·.1) = some true ∧
    (fileExists sampleWorld (fun _ => none) "old".toList .init).map (·.1) = some false := by decide +kernel

/-- C58 with marks: files are marked as impossible only if they do not exist; then names of files are answered as before. -/
theorem C58_marked_partial {w : DirWorld} (hw : Steady w) (ar : Str → Option Bool) (ops : List DirOp) (hq : MarksAbsent w ops)
    (name d b : Str) (hn : InDir name d b) (har : ar name = none) (hb : b ≠ []) :
    ∃ st r st', runDirOps ar (ops.map (w, ·)) .init = some st ∧ fileExists w ar name st = some (r, st') ∧ (r = true ↔ Has w d b) := by
  obtain ⟨st, h1, h2⟩ := dirOps_inv hw ar ops (dirInv_init w) (absent_of_spec hq)
  obtain ⟨r, st', h3, h4, h5, h6⟩ := dirFileExists_inv hw h2 (absent_of_spec hq) d (some b)
  refine ⟨st, r, st', h1, ?_, h5 b rfl hb⟩
  simp only [fileExists, har, inDir_iff.1 hn]
  exact h3

example : MarksAbsent sampleWorld [.mark "src/c.c".toList] := by
  intro n h d b hi
  simp only [List.mem_cons, DirOp.mark.injEq, List.not_mem_nil, or_false] at h
  subst h
  have := inDir_unique hi (show InDir "src/c.c".toList "src".toList "c.c".toList from ⟨by decide, Or.inr (Or.inr ⟨by decide, rfl⟩)⟩)
  obtain ⟨rfl, rfl⟩ := this
  rintro ⟨es, ⟨id, h1, h2⟩, ino, h3, h4⟩
  have : id = (1, 7) := by
    have h5 : sampleWorld.stat "src".toList = some (1, 7) := by decide
    rw [h5] at h1; cases h1; rfl
  subst this
  have h6 : sampleWorld.opendir (1, 7) = some [.entry "a.c".toList 8, .entry "b.c".toList 9] := by decide
  rw [h6] at h2; cases h2
  simp at h4

/-- C58 fails for a name that ends in a slash after a file has been marked in a directory that is not there: it is said to exist
from then on. -/
theorem C58_slash :
    let no : Str → Option Bool := fun _ => none
    (fileExists sampleWorld no "none/".toList .init).map (·.1) = some false ∧
    ((fileImpossible sampleWorld "none/x".toList .init).bind (fun st => fileExists sampleWorld no "none/".toList st)).map (·.1) = some true := by
  decide +kernel

/-- C58 fails for an existing file that is marked before its entry is read: it depends on the reading whether it exists. -/
theorem C58_marked_exists :
    let no : Str → Option Bool := fun _ => none
    let marked := fileImpossible sampleWorld "src/b.c".toList .init
    (marked.bind (fun st => fileExists sampleWorld no "src/b.c".toList st)).map (·.1) = some false ∧
    ((marked.bind (fun st => (fileExists sampleWorld no "src/x.c".toList st).map (·.2))).bind
      (fun st => fileExists sampleWorld no "src/b.c".toList st)).map (·.1) = some true := by
  decide +kernel

/-- C58: expanding wildcards sees each file of the directory once. -/
theorem C58_glob {w : DirWorld} (hw : Steady w) (ar : Str → Option Bool) (ops : List DirOp) (hq : MarksAbsent w ops) (d : Str) :
    ∃ st r st', runDirOps ar (ops.map (w, ·)) .init = some st ∧ globDir w d st = some (r, st') ∧
      (Readable w d → ∃ l, r = some l) ∧ ∀ l, r = some l → l.Nodup ∧ ∀ b, b ∈ l ↔ Has w d b := by
  obtain ⟨st, h1, h2⟩ := dirOps_inv hw ar ops (dirInv_init w) (absent_of_spec hq)
  obtain ⟨r, st', h3, h4, h5, h6⟩ := globDir_inv hw h2 (absent_of_spec hq) d
  refine ⟨st, r, st', h1, h3, fun h => h5.2 (Or.inl h), ?_⟩
  intro l hl
  have hrun : runDirOps ar ((ops ++ [DirOp.glob d]).map (w, ·)) .init = some st' := by
    rw [List.map_append, runDirOps_append, h1]
    simp [runDirOps, DirOp.run, h3]
  obtain ⟨hk, _, _⟩ := runDirOps_evolves keysOnce_closed ar _ hrun (by intro _ _ _; trivial) (allC_init (by simp [KeysOnce, nullContents]))
    knownIn_init
  obtain ⟨c, r', g1, g2, g3, g4⟩ := h6 l hl
  have hn := hk.get g1
  rw [g2, Option.getD_some] at hn
  refine ⟨?_, ?_⟩
  · rw [g3]
    exact List.Nodup.sublist (List.filter_sublist.map _) hn
  · intro b
    rw [← g4 b, g3]
    simp only [List.mem_map, List.mem_filter, Bool.not_eq_true']
    constructor
    · rintro ⟨⟨y, z⟩, ⟨q1, q2⟩, rfl⟩
      simp only at q2; subst q2; exact assocGet_of_mem hn q1
    · intro h; exact ⟨_, ⟨mem_of_assocGet h, rfl⟩, rfl⟩

example : (globDir sampleWorld "src/.".toList .init).map (·.1) = some (some ["a.c".toList, "b.c".toList]) := by decide +kernel

/-! ## C83 -/

/-- C83: `file_impossible_p` answers yes exactly for files that have been marked, under any name for their directory. -/
theorem C83_impossible_partial {w : DirWorld} (hw : Steady w) (ar : Str → Option Bool) (ops : List DirOp) (hq : MarksAbsent w ops)
    (name d b : Str) (hn : InDir name d b) :
    ∃ st r st', runDirOps ar (ops.map (w, ·)) .init = some st ∧ fileImpossibleP w name st = some (r, st') ∧
      (r = true ↔ ∃ m e, DirOp.mark m ∈ ops ∧ InDir m e b ∧ SameDir w d e) := by
  obtain ⟨st, h1, h2⟩ := dirOps_inv hw ar ops (dirInv_init w) (absent_of_spec hq)
  obtain ⟨r, st', h3, h4, h5⟩ := fileImpossibleP_inv hw h2 name
  refine ⟨st, r, st', h1, h3, ?_⟩
  rw [h5, inDir_iff.1 hn]
  constructor
  · rintro ⟨e, he, hm⟩
    rcases (mem_marks_foldl ..).1 hm with h | ⟨m, h, hb⟩
    · cases h
    · exact ⟨m, e, h, inDir_iff.2 hb, he⟩
  · rintro ⟨m, e, h, hb, he⟩
    exact ⟨e, he, (mem_marks_foldl ..).2 (Or.inr ⟨m, h, inDir_iff.1 hb⟩)⟩

example : (((fileImpossible sampleWorld "src/c.c".toList .init).bind (fileImpossibleP sampleWorld "src/./c.c".toList))).map (·.1) = some true ∧
    SameDir sampleWorld "src/.".toList "src".toList := ⟨by decide +kernel, Or.inr ⟨(1, 7), by decide, by decide⟩⟩

/-- C83 fails for a file that exists: its mark is lost when its entry is read. -/
theorem C83_forgotten :
    let marked := fileImpossible sampleWorld "src/b.c".toList .init
    (marked.bind (fileImpossibleP sampleWorld "src/b.c".toList)).map (·.1) = some true ∧
    ((marked.bind (fun st => (fileExists sampleWorld (fun _ => none) "src/x.c".toList st).map (·.2))).bind
      (fileImpossibleP sampleWorld "src/b.c".toList)).map (·.1) = some false := by
  decide +kernel

/-! ## C84 -/

/-- C84: after any history of calls, with any changes of the file system between them, the number of open directories is less than the
limit, and the counter is that number (so that it never passes below zero). -/
theorem C84_open (ar : Str → Option Bool) (ops : List (DirWorld × DirOp)) (st : DirState) (h : runDirOps ar ops .init = some st) :
    st.contents.countP (fun e => e.2.stream.isSome) < maxOpenDirectories ∧ st.opened = st.contents.countP (fun e => e.2.stream.isSome) := by
  have := runDirOps_streams ar ops h streamInv_init
  exact ⟨by rw [show st.contents.countP _ = openStreams st from rfl, ← this.count]; exact this.few, this.count⟩

/-- A file system with any number of directories. -/
def manyDirs : DirWorld := ⟨fun n => some (1, n.length), fun _ => some [.entry ['x'] 5, .entry ['y'] 6], fun s => s⟩

example : (runDirOps (fun _ => none) ((List.range 12).map fun k => (manyDirs, .existsIn (List.replicate k 'a') ['x'])) .init).map (·.opened)
    = some 9 := by decide +kernel

/-! ## C85 -/

/-- C85: the answer for a file stays the same for good, whatever happens to the file system, if no file of its name is marked. -/
theorem C85_constant (ar : Str → Option Bool) (before after : List (DirWorld × DirOp)) (name d b : Str) (hn : InDir name d b) (hb : b ≠ [])
    (hm : ∀ w m e, (w, DirOp.mark m) ∈ before ++ after → ¬ InDir m e b)
    (w w' : DirWorld) (st st1 st2 st3 : DirState) (r r' : Bool)
    (h0 : runDirOps ar before .init = some st) (h1 : fileExists w ar name st = some (r, st1))
    (h2 : runDirOps ar after st1 = some st2) (h3 : fileExists w' ar name st2 = some (r', st3)) : r' = r := by
  have hm' : ∀ w m, (w, DirOp.mark m) ∈ before ++ after → (dirBase m).2 ≠ b := by
    intro w m h e
    exact hm w m (dirBase m).1 h (by rw [← e]; exact inDir_dirBase m)
  have hc := settled_closed b
  unfold fileExists at h1 h3
  cases har : ar name with
  | some a => simp only [har] at h1 h3; cases h1; cases h3; rfl
  | none =>
    simp only [har, inDir_iff.1 hn] at h1 h3
    obtain ⟨a1, k1, _⟩ := runDirOps_evolves hc ar before h0 (fun w m h => hm' w m (List.mem_append_left _ h))
      (allC_init ⟨by simp [nullContents, DirContents.entry], fun _ => rfl⟩) knownIn_init
    obtain ⟨a2, k2, _⟩ := dirFileExists_evolves hc h1 a1 k1
    obtain ⟨a3, k3, e3⟩ := runDirOps_evolves hc ar after h2 (fun w m h => hm' w m (List.mem_append_right _ h)) a2 k2
    -- the first answer is settled
    have hset : ∃ ref, assocGet d st1.dirs = some ref ∧ (r = true → ((st1.get ref).getD nullContents).entry b = some false) ∧
        (r = false → SettledNo b ((st1.get ref).getD nullContents)) := by
      unfold dirFileExists at h1
      split at h1
      · cases h1
      · rename_i ref s hf
        obtain ⟨g1, g2, g3, g4⟩ := findDirectory_evolves hc hf a1 k1
        split at h1
        · rename_i hg
          cases h1
          exact ⟨ref, g4, by simp, fun _ => by rw [hg]; exact ⟨rfl, by simp [nullContents, DirContents.entry]⟩⟩
        · rename_i c hg
          split at h1
          · cases h1
          · rename_i x c' cl he
            cases h1
            have hq := g1.get g4
            rw [hg, Option.getD_some] at hq
            obtain ⟨s1, s2⟩ := contentsExists_settles hb hq he
            cases ref with
            | known id =>
              refine ⟨.known id, by split <;> exact g4, ?_⟩
              have : ∀ st' : DirState, st'.contents = assocSet id c' s.contents → (st'.get (.known id)).getD nullContents = c' := by
                intro st' h; simp [DirState.get, h, assocGet_set]
              rw [this _ (by split <;> rfl)]
              exact ⟨s1, s2⟩
            | unknown c0 =>
              refine ⟨.unknown (some c'), by split <;> simp [DirState.put, assocGet_set], ?_⟩
              exact ⟨s1, s2⟩
    obtain ⟨ref, q1, q2, q3⟩ := hset
    obtain ⟨ref', q4, q5, q6⟩ := e3 d ref q1
    -- and is given again
    unfold dirFileExists at h3
    split at h3
    · cases h3
    · rename_i ref2 s hf
      have hs : ref2 = ref' ∧ s = st2 := by
        unfold findDirectory at hf
        rw [q4] at hf
        cases hf; exact ⟨rfl, rfl⟩
      obtain ⟨rfl, rfl⟩ := hs
      split at h3
      · rename_i hg
        cases h3
        rw [hg] at q5
        cases hr : r with
        | true => have := q5 (q2 hr); simp [nullContents, DirContents.entry] at this
        | false => rfl
      · rename_i c hg
        rw [hg, Option.getD_some] at q5 q6
        split at h3
        · cases h3
        · rename_i x c' cl he
          cases h3
          obtain ⟨s1, s2⟩ := contentsExists_settled hb he
          cases hr : r with
          | true => exact s1 (q5 (q2 hr))
          | false => exact s2 (q6 (q3 hr))

/-- A file created after its directory has been read is not seen. -/
example :
    let later : DirWorld := { sampleWorld with opendir := fun _ => some [.entry "n.c".toList 4], resume := fun _ => [.entry "n.c".toList 4] }
    ((fileExists sampleWorld (fun _ => none) "src/n.c".toList .init).bind
      fun p => fileExists later (fun _ => none) "src/n.c".toList p.2).map (·.1) = some false := by decide +kernel

end Remake
