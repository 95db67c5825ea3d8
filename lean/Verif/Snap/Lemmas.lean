import Verif.Snap.Spec
import Verif.Text.Props
/-! Lemmas about second expansion (C107). -/
set_option linter.unusedVariables false
set_option linter.unusedSimpArgs false
namespace Remake
open Spec

theorem lookupName_mem {w : Str} {c : Char} (h : c ∈ lookupName w) (h1 : c ≠ '.') (h2 : c ≠ '/') :
    c ∈ w := by
  obtain ⟨d, r, hw, -, -, -, hn⟩ := lookupName_stripped w
  rw [hn] at h
  split at h
  · simp at h; rcases h with h | h <;> contradiction
  · rw [hw]; exact List.mem_append_right _ h

/-- What the growth of a table by names looks like. -/
def Grown (db db' : SDb) (A : List Str) : Prop :=
  (∀ m, db'.files m = if db.files m = [] ∧ m ∈ A then [{}] else db.files m) ∧
  ∃ B, db'.names = db.names ++ B ∧ (∀ m, m ∈ B ↔ (db.files m = [] ∧ m ∈ A)) ∧ B.Nodup

theorem grown_refl (db : SDb) : Grown db db [] :=
  ⟨by simp, [], by simp, by simp, List.nodup_nil⟩

theorem grown_trans {a b c : SDb} {A B : List Str} (h1 : Grown a b A) (h2 : Grown b c B) :
    Grown a c (A ++ B) := by
  obtain ⟨h1, C, e1, m1, n1⟩ := h1
  obtain ⟨h2, D, e2, m2, n2⟩ := h2
  have hf : ∀ m, b.files m = [] ↔ (a.files m = [] ∧ m ∉ A) := by
    intro m
    rw [h1]
    split
    · rename_i h; simp [h]
    · rename_i h
      constructor
      · intro h'; exact ⟨h', fun h2 => h ⟨h', h2⟩⟩
      · exact fun h' => h'.1
  refine ⟨?_, C ++ D, by rw [e2, e1, List.append_assoc], ?_, ?_⟩
  · intro m
    rw [h2]
    simp only [hf, List.mem_append]
    by_cases ha : a.files m = []
    · by_cases hA : m ∈ A
      · simp [ha, hA, h1]
      · by_cases hB : m ∈ B <;> simp [ha, hA, hB, h1]
    · simp [ha, h1]
  · intro m
    simp only [List.mem_append, m1, m2, hf]
    by_cases hA : m ∈ A <;> simp [hA]
  · rw [List.nodup_append]
    refine ⟨n1, n2, ?_⟩
    intro x hx y hy e
    subst e
    exact ((hf x).1 ((m2 x).1 hy).1).2 ((m1 x).1 hx).2

theorem enter_normal {db : SDb} {n : Str} (h : lookupName n = n) :
    (db.enter n).2 = n ∧ Grown db (db.enter n).1 [n] := by
  unfold SDb.enter
  rw [h]
  by_cases e : db.files n = []
  · simp only [e, ne_eq, not_true_eq_false, if_false]
    refine ⟨trivial, ?_, [n], rfl, ?_, by simp⟩
    · intro m
      by_cases hm : m = n
      · subst hm; simp [e]
      · simp [hm]
    · intro m
      simp only [List.mem_singleton]
      exact ⟨fun h => ⟨by rw [h]; exact e, h⟩, fun h => h.2⟩
  · simp only [ne_eq, e, not_false_eq_true, if_true]
    refine ⟨trivial, ?_, [], by simp, ?_, List.nodup_nil⟩
    · intro m
      split
      · rename_i h
        simp only [List.mem_singleton] at h
        exact absurd (h.2 ▸ h.1) e
      · rfl
    · intro m
      simp only [List.mem_singleton, List.not_mem_nil, false_iff]
      exact fun h => e (h.2 ▸ h.1)

theorem enterAll_normal : ∀ (ps : List PreReq) (db : SDb), (∀ p ∈ ps, lookupName p.name = p.name) →
    (db.enterAll ps).2 = ps ∧ Grown db (db.enterAll ps).1 (ps.map (·.name)) := by
  intro ps
  induction ps with
  | nil => intro db _; exact ⟨rfl, grown_refl db⟩
  | cons p ps ih =>
    intro db h
    obtain ⟨e1, g1⟩ := enter_normal (db := db) (h p (by simp))
    obtain ⟨e2, g2⟩ := ih (db.enter p.name).1 fun q hq => h q (by simp [hq])
    refine ⟨?_, ?_⟩
    · show ({ p with name := (db.enter p.name).2 } :: _) = _
      rw [e1, e2]
    · have := grown_trans g1 g2
      simpa [SDb.enterAll] using this

theorem prereqText_split (env : FsEnv) {t : Str} {ps : List (Str × Bool)} (h : PrereqText t ps) :
    splitPrereqs env t = some (ps.map fun p => ⟨lookupName p.1, p.2⟩) := by
  cases h with
  | normal h1 h2 =>
    obtain ⟨f, hf, e⟩ := C33_normal_partial env h1 h2
    rw [e]
    simp only [List.map_map, Function.comp_def, stripped_unique (hf _)]
  | both h1 h2 h3 h4 =>
    obtain ⟨f, hf, e⟩ := C33_split_partial env h1 h2 h3 h4
    rw [e]
    simp only [List.map_map, List.map_append, Function.comp_def, stripped_unique (hf _)]

theorem unquoteGo_found_mem {nm pre post : Str} {c : Char} (h : findPercent nm = .found pre c post) :
    '%' ∈ nm := by
  apply Decidable.byContradiction
  intro hn
  have := (ReadsAs_iff (by decide)).1 (ReadsAs.none hn)
  have e : findCharUnquote '%' nm = .found pre c post := h
  rw [e] at this
  cases this

theorem stemPrereqs_plain (s : Str) (ps : List PreReq) (h : ∀ p ∈ ps, '%' ∉ p.name) :
    stemPrereqs s ps = ps := by
  unfold stemPrereqs
  induction ps with
  | nil => rfl
  | cons p ps ih =>
    have : stemName s p.name = some p.name := by
      unfold stemName
      cases hf : findPercent p.name with
      | none _ => rfl
      | found a b c => exact absurd (unquoteGo_found_mem hf) (h p (by simp))
    rw [List.filterMap_cons, this]
    simp only [Option.map_some]
    rw [ih fun q hq => h q (by simp [hq])]

theorem lineText_second {d : SDep} {t : Str} (h : LineText d t) : t = secondText d := by
  unfold secondText
  rcases h with ⟨h1, h2⟩ | ⟨h1, h2⟩
  · rw [if_pos h1]; exact (C08_subst _ _ _ (by decide) _).1 h2
  · rw [h1]; simpa using h2

/-- The loop does what the specification says. -/
theorem expandRest_second (env : FsEnv) {g : Str → Str} (hg : ∀ w, Stripped w (g w))
    {ex : SFile → Str → Str} {f : SFile} {done ds r : List SDep} (h : Second g ex f done ds r) :
    ∀ db, ∃ db' A, expandRest env ex f done ds db = some (db', r) ∧ Grown db db' A ∧
      (∀ d ∈ done, d ∈ r) ∧
      (∀ a ∈ A, ∃ d ∈ r, d.name = a ∧ d.pending = false) ∧
      (∀ d ∈ r, d ∈ done ∨ (d ∈ ds ∧ d.pending = false) ∨ (d.name ∈ A ∧ d.pending = false)) := by
  induction h with
  | nil =>
    intro db
    exact ⟨db, [], rfl, grown_refl db, fun d h => h, by simp, fun d h => .inl h⟩
  | @plain done ds r d hd _ ih =>
    intro db
    obtain ⟨db', A, h1, h2, h3, h4, h5⟩ := ih db
    refine ⟨db', A, ?_, h2, ?_, h4, ?_⟩
    · rw [expandRest, if_pos hd]; exact h1
    · exact fun d hd => h3 d (by simp [hd])
    · intro x hx
      rcases h5 x hx with h | h | h
      · simp only [List.mem_append, List.mem_singleton] at h
        rcases h with h | h
        · exact .inl h
        · subst h; exact .inr (.inl ⟨by simp, hd⟩)
      · exact .inr (.inl ⟨by simp [h.1], h.2⟩)
      · exact .inr (.inr h)
  | @line done ds r d t ps hd hl hp hs _ ih =>
    intro db
    have ht := lineText_second hl
    subst ht
    have hG : g = lookupName := funext fun w => stripped_unique (hg w)
    subst hG
    let qs : List PreReq := ps.map fun p => ⟨lookupName p.1, p.2⟩
    have hq : lineNames d.stem qs = qs := by
      unfold lineNames
      cases hst : d.stem with
      | none => rfl
      | some s =>
        apply stemPrereqs_plain
        intro p hp
        obtain ⟨q, hq, rfl⟩ := List.mem_map.1 hp
        rcases hs with hs | hs
        · rw [hst] at hs; cases hs
        · exact fun hm => hs q hq (lookupName_mem hm (by decide) (by decide))
    obtain ⟨e1, g1⟩ := enterAll_normal qs db (by
      intro p hp
      obtain ⟨q, hq, rfl⟩ := List.mem_map.1 hp
      exact lookupName_idem _)
    obtain ⟨db', A, h1, h2, h3, h4, h5⟩ := ih (db.enterAll qs).1
    have hmem : ∀ d ∈ done, d ∈ r := fun x hx => h3 x (by simp [hx])
    refine ⟨db', qs.map (·.name) ++ A, ?_, grown_trans g1 h2, hmem, ?_, ?_⟩
    · rw [expandRest, if_neg (by simp [hd])]
      simp only [prereqText_split env hp]
      have : lineNames d.stem (ps.map fun p => (⟨lookupName p.1, p.2⟩ : PreReq)) = qs := hq
      rw [this, e1]
      rw [← h1]
      simp only [qs, List.map_map, Function.comp_def]
    · intro a ha
      rcases List.mem_append.1 ha with ha | ha
      · obtain ⟨q, hq, rfl⟩ := List.mem_map.1 ha
        obtain ⟨p, hp', rfl⟩ := List.mem_map.1 hq
        refine ⟨{ name := lookupName p.1, orderOnly := p.2, stem := d.stem }, ?_, rfl, rfl⟩
        apply h3
        exact List.mem_append_right _ (List.mem_map.2 ⟨p, hp', rfl⟩)
      · exact h4 a ha
    · intro x hx
      rcases h5 x hx with h | h | h
      · rcases List.mem_append.1 h with h | h
        · exact .inl h
        · obtain ⟨p, hp', rfl⟩ := List.mem_map.1 h
          refine .inr (.inr ⟨?_, rfl⟩)
          apply List.mem_append_left
          exact List.mem_map.2 ⟨⟨lookupName p.1, p.2⟩, List.mem_map.2 ⟨p, hp', rfl⟩, rfl⟩
      · exact .inr (.inl ⟨by simp [h.1], h.2⟩)
      · exact .inr (.inr ⟨List.mem_append_right _ h.1, h.2⟩)

/-- The records when the first `k` are expanded. -/
def upTo (R : Nat → List SDep) (fs : List SFile) (k : Nat) : List SFile :=
  fs.mapIdx fun j f =>
    if (decide (j < k) && waits f) || (j == 0 && (fs.take k).any waits) then
      (if j < k then { f with deps := R j } else f).withVars
    else if j < k then { f with deps := R j } else f

theorem withVars_eq (f : SFile) : f.withVars = { f with vars := some (f.vars.getD none) } := by
  unfold SFile.withVars
  cases h : f.vars <;> simp [h]

theorem withVars_twice (f : SFile) : f.withVars.withVars = f.withVars := by
  simp [withVars_eq]

theorem withVars_deps (f : SFile) (ds : List SDep) :
    { f with deps := ds }.withVars = { f.withVars with deps := ds } := by
  simp [withVars_eq]

theorem upTo_zero (R : Nat → List SDep) (fs : List SFile) : upTo R fs 0 = fs := by
  unfold upTo
  apply List.ext_getElem?
  intro i
  simp

theorem upTo_all (R : Nat → List SDep) (fs : List SFile) {k : Nat} (hk : fs.length ≤ k) :
    upTo R fs k = secondRecords R fs := by
  unfold upTo secondRecords
  apply List.ext_getElem?
  intro i
  rw [List.getElem?_mapIdx, List.getElem?_mapIdx]
  cases h : fs[i]? with
  | none => rfl
  | some f =>
    have hi : i < k := by
      have := (List.getElem?_eq_some_iff.1 h).1
      omega
    simp only [Option.map_some, hi, decide_true, Bool.true_and, if_true, List.take_of_length_le hk]
    generalize (waits f || (i == 0 && fs.any waits)) = b
    cases b <;> simp [withVars_eq]

theorem upTo_length (R : Nat → List SDep) (fs : List SFile) (k : Nat) :
    (upTo R fs k).length = fs.length := by
  simp [upTo]

theorem upTo_at (R : Nat → List SDep) (fs : List SFile) (k : Nat) : (upTo R fs k)[k]? = fs[k]? := by
  unfold upTo
  rw [List.getElem?_mapIdx]
  cases h : fs[k]? with
  | none => rfl
  | some f =>
    cases k <;> simp

theorem upTo_succ (R : Nat → List SDep) (fs : List SFile) {k : Nat} {f : SFile}
    (h : fs[k]? = some f) :
    (if f.deps.any (·.pending) then
        (((upTo R fs k).modify k fun f => { f with deps := R k }).modify k SFile.withVars).modify 0
          SFile.withVars
      else (upTo R fs k).modify k fun f => { f with deps := R k }) = upTo R fs (k + 1) := by
  have hlt := (List.getElem?_eq_some_iff.1 h).1
  have htake : (fs.take (k + 1)).any waits = ((fs.take k).any waits || waits f) := by
    rw [List.take_add_one, h]
    simp
  apply List.ext_getElem?
  intro i
  have hR : ∀ k, (upTo R fs k)[i]? = (fs[i]?).map fun f =>
      if (decide (i < k) && waits f) || (i == 0 && (fs.take k).any waits) then
        (if i < k then { f with deps := R i } else f).withVars
      else if i < k then { f with deps := R i } else f := by
    intro k; unfold upTo; rw [List.getElem?_mapIdx]
  rw [hR (k + 1), htake]
  have hw : f.deps.any (·.pending) = waits f := rfl
  rw [hw]
  cases hf : waits f
  · simp only [Bool.false_eq_true, if_false, List.getElem?_modify, hR k]
    cases hi : fs[i]? with
    | none => simp
    | some x =>
      simp only [Option.map_some, Option.map_map]
      by_cases hik : k = i
      · subst hik
        rw [h] at hi; cases hi
        cases k with
        | zero => simp [hf]
        | succ k => simp [hf]
      · have hlt' : i < k + 1 ↔ i < k := by omega
        simp only [hlt', hf, Bool.or_false]
        simp [hik]
  · simp only [if_true, List.getElem?_modify, hR k]
    cases hi : fs[i]? with
    | none => simp
    | some x =>
      simp only [Option.map_some, Option.map_map]
      by_cases hik : k = i
      · subst hik
        rw [h] at hi; cases hi
        cases k with
        | zero => simp [hf, withVars_eq]
        | succ k => simp [hf, withVars_eq]
      · have hlt' : i < k + 1 ↔ i < k := by omega
        simp only [hlt', Bool.or_true, Bool.and_true]
        cases i with
        | zero =>
          have : 0 < k := by omega
          simp only [this, decide_true, Bool.true_and, hik]
          cases waits x <;> cases (fs.take k).any waits <;> simp [withVars_eq]
        | succ i => simp [hik]

/-- The state of the table `db` when `P n` records of each name `n` of `db0` are expanded. -/
structure Expanding (db0 db : SDb) (R : Str → Nat → List SDep) (P : Str → Nat) : Prop where
  old : ∀ m, db0.files m ≠ [] → db.files m = upTo (R m) (db0.files m) (P m)
  new : ∀ m, db0.files m = [] → db.files m = [] ∨ db.files m = [{}]
  named : ∀ m, db0.files m = [] → (db.files m ≠ [] ↔
    ∃ n j d, j < P n ∧ j < (db0.files n).length ∧ d ∈ R n j ∧ d.name = m)
  listed : ∀ m, m ∈ db.names ↔ db.files m ≠ []
  once : db.names.Nodup

theorem setAt_same (db : SDb) (n : Str) (i : Nat) (g : SFile → SFile) :
    (db.setAt n i g).files n = (db.files n).modify i g := by simp [SDb.setAt]

theorem setAt_other (db : SDb) {n m : Str} (i : Nat) (g : SFile → SFile) (h : m ≠ n) :
    (db.setAt n i g).files m = db.files m := by simp [SDb.setAt, h]

theorem upTo_ne_nil {R : Nat → List SDep} {fs : List SFile} {k : Nat} (h : fs ≠ []) :
    upTo R fs k ≠ [] := by
  intro e
  have := upTo_length R fs k
  rw [e] at this
  exact h (List.length_eq_zero_iff.1 this.symm)

theorem secondFile_step {env : FsEnv} {g : Str → Str} (hg : ∀ w, Stripped w (g w))
    {ex : List SFile → Str → SFile → Str → Str} {db0 db : SDb} {R : Str → Nat → List SDep}
    {P : Str → Nat} (hdb : ReadTable db0) (hI : Expanding db0 db R P) {n : Str} {f : SFile}
    (hf : (db0.files n)[P n]? = some f)
    (hS : Second g (ex (db.files dotSuffixesName) n) f [] f.deps (R n (P n))) :
    ∃ db', secondFile env ex db n (P n) = some db' ∧
      Expanding db0 db' R fun m => if m = n then P n + 1 else P m := by
  have hn0 : db0.files n ≠ [] := by intro e; rw [e] at hf; simp at hf
  have hfs := hI.old n hn0
  have hlt := (List.getElem?_eq_some_iff.1 hf).1
  have hget : (db.files n)[P n]? = some f := by rw [hfs, upTo_at, hf]
  obtain ⟨db1, A, h1, ⟨h2, B, h2n, h2b, h2d⟩, -, h4, h5⟩ := expandRest_second env hg hS db
  have hn1 : db1.files n = db.files n := by
    rw [h2, if_neg]
    rintro ⟨e, -⟩
    rw [hfs] at e
    exact upTo_ne_nil hn0 e
  have hres : ∃ db', secondFile env ex db n (P n) = some db' ∧
      (db'.files n = upTo (R n) (db0.files n) (P n + 1)) ∧ (∀ m, m ≠ n → db'.files m = db1.files m) ∧
      db'.names = db1.names := by
    unfold secondFile
    rw [hget]
    simp only [h1]
    have := upTo_succ (R n) (db0.files n) hf
    split
    · rename_i hp
      rw [if_pos hp] at this
      refine ⟨_, rfl, ?_, ?_, rfl⟩
      · simp only [setAt_same, hn1, hfs]; exact this
      · intro m hm; simp only [setAt_other _ _ _ hm]
    · rename_i hp
      rw [if_neg hp] at this
      refine ⟨_, rfl, ?_, ?_, rfl⟩
      · simp only [setAt_same, hn1, hfs]; exact this
      · intro m hm; simp only [setAt_other _ _ _ hm]
  obtain ⟨db', e1, e2, e3, e4⟩ := hres
  have hne : ∀ m, db'.files m ≠ [] ↔ db1.files m ≠ [] := by
    intro m
    by_cases hm : m = n
    · subst hm
      rw [e2, hn1, hfs]
      exact ⟨fun _ => upTo_ne_nil hn0, fun _ => upTo_ne_nil hn0⟩
    · rw [e3 m hm]
  have hne1 : ∀ m, db1.files m ≠ [] ↔ db.files m ≠ [] ∨ m ∈ A := by
    intro m
    rw [h2]
    by_cases ha : db.files m = [] <;> by_cases hb : m ∈ A <;> simp [ha, hb]
  refine ⟨db', e1, ?_, ?_, ?_, ?_, ?_⟩
  · intro m hm
    by_cases e : m = n
    · subst e; simp only [if_true]; exact e2
    · simp only [e, if_false]
      rw [e3 m e, h2, if_neg, hI.old m hm]
      rintro ⟨e, -⟩
      rw [hI.old m hm] at e
      exact upTo_ne_nil hm e
  · intro m hm
    have e : m ≠ n := by rintro rfl; exact hn0 hm
    rw [e3 m e, h2]
    split
    · exact .inr rfl
    · exact hI.new m hm
  · intro m hm
    rw [hne, hne1, hI.named m hm]
    constructor
    · rintro (⟨n', j, d, a1, a2, a3, a4⟩ | ha)
      · refine ⟨n', j, d, ?_, a2, a3, a4⟩
        split
        · rename_i e; subst e; omega
        · exact a1
      · obtain ⟨d, d1, d2, -⟩ := h4 m ha
        exact ⟨n, P n, d, by simp, hlt, d1, d2⟩
    · rintro ⟨n', j, d, a1, a2, a3, a4⟩
      split at a1
      · rename_i e; subst e
        by_cases hj : j < P n'
        · exact .inl ⟨n', j, d, hj, a2, a3, a4⟩
        · have : j = P n' := by omega
          subst this
          right
          rcases h5 d a3 with h | h | h
          · cases h
          · exfalso
            exact hdb.closed n' f (List.mem_of_getElem? hf) d h.1 h.2 (a4 ▸ hm)
          · exact a4 ▸ h.1
      · exact .inl ⟨n', j, d, a1, a2, a3, a4⟩
  · intro m
    rw [e4, hne, hne1, h2n, List.mem_append, hI.listed, h2b]
    by_cases ha : db.files m = [] <;> simp [ha]
  · rw [e4, h2n, List.nodup_append]
    refine ⟨hI.once, h2d, ?_⟩
    intro x hx y hy e
    subst e
    exact (hI.listed x).1 hx ((h2b x).1 hy).1

/-- The counts with `k` for `n`. -/
def countTo (P : Str → Nat) (n : Str) (k : Nat) : Str → Nat := fun m => if m = n then k else P m

theorem expandRecords_run {env : FsEnv} {g : Str → Str} (hg : ∀ w, Stripped w (g w))
    {ex : List SFile → Str → SFile → Str → Str} {db0 : SDb} {R : Str → Nat → List SDep}
    {P : Str → Nat} (hdb : ReadTable db0) {n : Str}
    (hS : ∀ j f db, (db0.files n)[j]? = some f → Expanding db0 db R (countTo P n j) →
      Second g (ex (db.files dotSuffixesName) n) f [] f.deps (R n j)) :
    ∀ (l k : Nat) (db : SDb), k + l = (db0.files n).length → Expanding db0 db R (countTo P n k) →
      ∃ db', expandRecords env ex n (List.range' k l) db = some db' ∧
        Expanding db0 db' R (countTo P n (k + l)) := by
  intro l
  induction l with
  | zero => intro k db _ h; exact ⟨db, rfl, h⟩
  | succ l ih =>
    intro k db hk h
    have hlt : k < (db0.files n).length := by omega
    have hget : (db0.files n)[k]? = some (db0.files n)[k] := by simp [hlt]
    have hc : countTo P n k n = k := by simp [countTo]
    obtain ⟨db1, e1, h1⟩ := secondFile_step (env := env) hg (n := n) (f := (db0.files n)[k]) hdb h
      (by rw [hc]; exact hget) (by rw [hc]; exact hS k _ db hget h)
    have hP : (fun m => if m = n then countTo P n k n + 1 else countTo P n k m) =
        countTo P n (k + 1) := by
      funext m
      rw [hc]
      simp only [countTo]
      split <;> rfl
    rw [hP] at h1
    rw [hc] at e1
    obtain ⟨db2, e2, h2⟩ := ih (k + 1) db1 (by omega) h1
    refine ⟨db2, ?_, ?_⟩
    · rw [List.range'_succ, expandRecords, e1]
      exact e2
    · have : k + (l + 1) = k + 1 + l := by omega
      rw [this]; exact h2

theorem expandName_run {env : FsEnv} {g : Str → Str} (hg : ∀ w, Stripped w (g w))
    {ex : List SFile → Str → SFile → Str → Str} {db0 db : SDb} {R : Str → Nat → List SDep}
    {P : Str → Nat} (hdb : ReadTable db0) {n : Str} (hn : db0.files n ≠ []) (hP : P n = 0)
    (hI : Expanding db0 db R P)
    (hS : ∀ j f db, (db0.files n)[j]? = some f → Expanding db0 db R (countTo P n j) →
      Second g (ex (db.files dotSuffixesName) n) f [] f.deps (R n j)) :
    ∃ db', expandName env ex n db = some db' ∧
      Expanding db0 db' R (countTo P n (db0.files n).length) := by
  have e0 : countTo P n 0 = P := by
    funext m
    simp only [countTo]
    split
    · rename_i e; rw [e, hP]
    · rfl
  obtain ⟨db', e, h⟩ := expandRecords_run (env := env) hg hdb hS (db0.files n).length 0 db (by omega)
    (by rw [e0]; exact hI)
  refine ⟨db', ?_, by rwa [Nat.zero_add] at h⟩
  unfold expandName
  rw [hI.old n hn, upTo_length, List.range_eq_range']
  exact e

/-- The counts when the names of a list are done. -/
def countAll (db0 : SDb) (ns : List Str) : Str → Nat :=
  fun m => if m ∈ ns then (db0.files m).length else 0

theorem expandNames_run {env : FsEnv} {g : Str → Str} (hg : ∀ w, Stripped w (g w))
    {ex : List SFile → Str → SFile → Str → Str} {db0 : SDb} {R : Str → Nat → List SDep}
    (hdb : ReadTable db0) (hsuf : db0.files dotSuffixesName ≠ [])
    (hS : ∀ n, n ≠ dotSuffixesName → ∀ j f, (db0.files n)[j]? = some f →
      Second g (ex (secondRecords (R dotSuffixesName) (db0.files dotSuffixesName)) n) f [] f.deps
        (R n j)) :
    ∀ (ns don : List Str) (db : SDb), (don ++ ns).Nodup → (∀ n ∈ ns, db0.files n ≠ []) →
      Expanding db0 db R (countAll db0 (dotSuffixesName :: don)) →
      ∃ db', expandNames env ex ns db = some db' ∧
        Expanding db0 db' R (countAll db0 (dotSuffixesName :: (don ++ ns))) := by
  intro ns
  induction ns with
  | nil => intro don db _ _ h; exact ⟨db, rfl, by simpa using h⟩
  | cons n ns ih =>
    intro don db hnd hmem hI
    have hnd' : (don ++ [n] ++ ns).Nodup := by simpa using hnd
    have hmem' : ∀ m ∈ ns, db0.files m ≠ [] := fun m hm => hmem m (by simp [hm])
    rw [expandNames]
    by_cases e : n = dotSuffixesName
    · rw [if_pos e]
      have hc : countAll db0 (dotSuffixesName :: don) = countAll db0 (dotSuffixesName :: (don ++ [n])) := by
        funext m
        simp only [countAll, List.mem_cons, List.mem_append, e, List.not_mem_nil, or_false]
        by_cases h : m = dotSuffixesName <;> simp [h]
      rw [hc] at hI
      obtain ⟨db', e1, h1⟩ := ih (don ++ [n]) db hnd' hmem' hI
      exact ⟨db', e1, by simpa using h1⟩
    · rw [if_neg e]
      have hnd2 : n ∉ don := by
        intro h
        exact (List.nodup_append.1 hnd).2.2 n h n (by simp) rfl
      have hP0 : countAll db0 (dotSuffixesName :: don) n = 0 := by
        simp [countAll, e, hnd2]
      obtain ⟨db1, e1, h1⟩ := expandName_run (env := env) (ex := ex) hg hdb (hmem n (by simp)) hP0 hI
        (by
          intro j f db2 hj h2
          have := h2.old dotSuffixesName hsuf
          rw [this]
          have hcnt : countTo (countAll db0 (dotSuffixesName :: don)) n j dotSuffixesName =
              (db0.files dotSuffixesName).length := by
            have : dotSuffixesName ≠ n := fun h => e h.symm
            simp [countTo, this, countAll]
          rw [hcnt, upTo_all _ _ (Nat.le_refl _)]
          exact hS n e j f hj)
      have hc : countTo (countAll db0 (dotSuffixesName :: don)) n (db0.files n).length =
          countAll db0 (dotSuffixesName :: (don ++ [n])) := by
        funext m
        simp only [countAll, countTo, List.mem_cons, List.mem_append, List.not_mem_nil, or_false]
        by_cases h : m = n
        · subst h; simp
        · simp [h]
      rw [hc] at h1
      obtain ⟨db', e2, h2⟩ := ih (don ++ [n]) db1 hnd' hmem' h1
      refine ⟨db', ?_, by simpa using h2⟩
      rw [e1]; exact e2

/-- Second expansion of the whole table. -/
theorem secondExpand_run {env : FsEnv} {g : Str → Str} (hg : ∀ w, Stripped w (g w))
    {ex : List SFile → Str → SFile → Str → Str} {db0 : SDb} {R : Str → Nat → List SDep}
    (hdb : ReadTable db0) {fs : SFile} (hsuf : db0.files dotSuffixesName = [fs])
    (hs0 : Second g (ex [fs] dotSuffixesName) fs [] fs.deps (R dotSuffixesName 0))
    (hS : ∀ n, n ≠ dotSuffixesName → ∀ j f, (db0.files n)[j]? = some f →
      Second g (ex (secondRecords (R dotSuffixesName) [fs]) n) f [] f.deps (R n j)) :
    ∃ db', secondExpand env ex db0 = some db' ∧
      Expanding db0 db' R fun n => (db0.files n).length := by
  have hne : db0.files dotSuffixesName ≠ [] := by rw [hsuf]; simp
  have hI0 : Expanding db0 db0 R fun _ => 0 := by
    refine ⟨?_, ?_, ?_, hdb.listed, hdb.once⟩
    · intro m _; rw [upTo_zero]
    · intro m h; exact .inl h
    · intro m h; simp [h]
  obtain ⟨db1, e1, h1⟩ := expandName_run (env := env) (ex := ex) hg hdb hne rfl hI0
    (by
      intro j f db hj hI
      have hj0 : j = 0 := by
        have := (List.getElem?_eq_some_iff.1 hj).1
        rw [hsuf] at this
        simp at this; omega
      subst hj0
      rw [hsuf] at hj
      simp at hj
      subst hj
      rw [hI.old dotSuffixesName hne]
      have : countTo (fun _ => 0) dotSuffixesName 0 dotSuffixesName = 0 := by simp [countTo]
      rw [this, upTo_zero, hsuf]
      exact hs0)
  have hc : countTo (fun _ => 0) dotSuffixesName (db0.files dotSuffixesName).length =
      countAll db0 [dotSuffixesName] := by
    funext m
    simp only [countTo, countAll, List.mem_singleton]
    split
    · rename_i e; rw [e]
    · rfl
  rw [hc] at h1
  obtain ⟨db2, e2, h2⟩ := expandNames_run (env := env) (ex := ex) hg hdb hne
    (by rw [hsuf]; exact hS) db0.names [] db1 (by simpa using hdb.once)
    (fun n hn => (hdb.listed n).1 hn) h1
  refine ⟨db2, ?_, ?_⟩
  · unfold secondExpand
    rw [e1]; exact e2
  · have : countAll db0 (dotSuffixesName :: ([] ++ db0.names)) = fun n => (db0.files n).length := by
      funext m
      simp only [countAll, List.nil_append, List.mem_cons]
      split
      · rfl
      · rename_i h
        have : m ∉ db0.names := fun h' => h (.inr h')
        rw [hdb.listed] at this
        simp at this
        rw [this]; rfl
    rw [this] at h2
    exact h2

end Remake
