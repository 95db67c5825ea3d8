import Verif.Snap.SpecialProps
/-! C109: extra prerequisites. -/
set_option linter.unusedVariables false
set_option linter.unusedSimpArgs false
namespace Remake
open Spec

theorem grown_ne {db db' : SDb} {A : List Str} (h : Grown db db' A) (m : Str) :
    db'.files m ≠ [] ↔ db.files m ≠ [] ∨ m ∈ A := by
  rw [h.1]
  by_cases ha : db.files m = [] <;> by_cases hb : m ∈ A <;> simp [ha, hb]

theorem grown_old {db db' : SDb} {A : List Str} (h : Grown db db' A) {m : Str}
    (hm : db.files m ≠ []) : db'.files m = db.files m := by
  rw [h.1, if_neg]; exact fun e => hm e.1

theorem extraPrereqs_text (env : FsEnv) {t : Str} {ps : List (Str × Bool)} (h : PrereqText t ps)
    (db : SDb) : ∃ db', extraPrereqs env (some t) db = some (db', extraDeps lookupName ps) ∧
      Grown db db' (ps.map fun p => lookupName p.1) := by
  unfold extraPrereqs
  simp only [prereqText_split env h]
  obtain ⟨e, hg⟩ := enterAll_normal (ps.map fun p => (⟨lookupName p.1, p.2⟩ : PreReq)) db (by
    intro p hp
    obtain ⟨q, hq, rfl⟩ := List.mem_map.1 hp
    exact lookupName_idem _)
  rw [List.map_map] at hg
  refine ⟨_, ?_, hg⟩
  rw [e]
  simp only [extraDeps, List.map_map, Function.comp_def]

/-- What a file's first record becomes. -/
def withExtra (all : Bool) (ds : List SDep) (f : SFile) : SFile :=
  { f with intermediate := all || f.intermediate, deps := f.deps ++ ds }

theorem snapFile_extra (env : FsEnv) {all : Bool} {glob : List SDep} {db : SDb} {n : Str} {f : SFile}
    {ds : List SDep} (hf : (db.files n)[0]? = some f) (hE : Extra lookupName glob n f ds)
    (hglob : ∀ d ∈ glob, db.files d.name ≠ []) :
    ∃ (db' : SDb) (A : List Str), snapFile env all glob db n = some db' ∧
      db'.files n = (db.files n).modify 0 (withExtra all ds) ∧
      (∀ m, m ≠ n → db'.files m = if db.files m = [] ∧ m ∈ A then [{}] else db.files m) ∧
      ∀ d ∈ ds, db'.files d.name ≠ [] := by
  have hn : db.files n ≠ [] := by intro e; rw [e] at hf; simp at hf
  have key : ∀ (db1 : SDb) (A : List Str) (es : List SDep), Grown db db1 A →
      (match f.vars with
        | some v => extraPrereqs env v db
        | none => some (db, if f.isTarget then glob else [])) = some (db1, es) →
      (if es.any (·.name == n) then [] else es) = ds → (∀ d ∈ ds, db1.files d.name ≠ []) →
      ∃ (db' : SDb) (A : List Str), snapFile env all glob db n = some db' ∧
        db'.files n = (db.files n).modify 0 (withExtra all ds) ∧
        (∀ m, m ≠ n → db'.files m = if db.files m = [] ∧ m ∈ A then [{}] else db.files m) ∧
        ∀ d ∈ ds, db'.files d.name ≠ [] := by
    intro db1 A es hg h1 h2 h3
    have hfun : (fun f : SFile => { f with
        intermediate := all || f.intermediate,
        deps := if es.any (·.name == n) then f.deps else f.deps ++ es }) = withExtra all ds := by
      funext f
      unfold withExtra
      rw [← h2]
      split <;> simp
    refine ⟨db1.setAt n 0 (withExtra all ds), A, ?_, ?_, ?_, ?_⟩
    · unfold snapFile
      rw [hf]
      simp only
      have e1 : (match f.vars with
          | some v => extraPrereqs env v db
          | none => some (db, if f.isTarget then glob else [])) = some (db1, es) := h1
      rw [← hfun]
      cases hv : f.vars with
      | none =>
        rw [hv] at e1
        simp only [Option.some.injEq, Prod.mk.injEq] at e1
        obtain ⟨rfl, rfl⟩ := e1
        rfl
      | some v => rw [hv] at e1; simp only at e1 ⊢; rw [e1]
    · rw [setAt_same, grown_old hg hn]
    · intro m hm; rw [setAt_other _ _ _ hm, hg.1]
    · intro d hd
      by_cases e : d.name = n
      · rw [e, setAt_same, grown_old hg hn]
        intro e0
        have := congrArg List.length e0
        rw [List.length_modify] at this
        exact hn (List.length_eq_zero_iff.1 this)
      · rw [setAt_other _ _ _ e]; exact h3 d hd
  cases hE with
  | @own t ps hv ht hs =>
    obtain ⟨db1, e1, g1⟩ := extraPrereqs_text env ht db
    refine key db1 _ (extraDeps lookupName ps) g1 (by rw [hv]; exact e1) ?_ ?_
    · rw [if_neg]
      simp only [List.any_eq_true, not_exists, not_and, beq_iff_eq]
      intro d hd
      obtain ⟨p, hp, rfl⟩ := List.mem_map.1 hd
      exact hs p hp
    · intro d hd
      rw [grown_ne g1]
      obtain ⟨p, hp, rfl⟩ := List.mem_map.1 hd
      exact .inr (List.mem_map.2 ⟨p, hp, rfl⟩)
  | @ownSelf t ps p hv ht hp hs =>
    obtain ⟨db1, e1, g1⟩ := extraPrereqs_text env ht db
    refine key db1 _ (extraDeps lookupName ps) g1 (by rw [hv]; exact e1) ?_ (by simp)
    rw [if_pos]
    simp only [List.any_eq_true, beq_iff_eq]
    exact ⟨_, List.mem_map.2 ⟨p, hp, rfl⟩, hs⟩
  | ownNone hv =>
    exact key db [] [] (grown_refl db) (by rw [hv]; rfl) (by simp) (by simp)
  | global hv ht hs =>
    refine key db [] glob (grown_refl db) (by rw [hv]; simp [ht]) ?_ hglob
    rw [if_neg]
    simp only [List.any_eq_true, not_exists, not_and, beq_iff_eq]
    exact hs
  | @globalSelf d hv ht hd hs =>
    refine key db [] glob (grown_refl db) (by rw [hv]; simp [ht]) ?_ (by simp)
    rw [if_pos]
    simp only [List.any_eq_true, beq_iff_eq]
    exact ⟨d, hd, hs⟩
  | notTarget hv ht =>
    exact key db [] [] (grown_refl db) (by rw [hv]; simp [ht]) (by simp) (by simp)

theorem modify_ne_nil {α : Type} {l : List α} {i : Nat} {f : α → α} : l.modify i f ≠ [] ↔ l ≠ [] := by
  constructor
  · intro h e; subst e; simp at h
  · intro h e
    have := congrArg List.length e
    rw [List.length_modify] at this
    exact h (List.length_eq_zero_iff.1 this)

theorem snapFiles_extra (env : FsEnv) {all : Bool} {glob : List SDep} {db0 : SDb}
    {H : Str → List SDep}
    (hH : ∀ n f, (db0.files n)[0]? = some f → Extra lookupName glob n f (H n))
    (hglob : ∀ d ∈ glob, db0.files d.name ≠ []) :
    ∀ (ns don : List Str) (db : SDb), (don ++ ns).Nodup → (∀ n ∈ ns, db0.files n ≠ []) →
      (∀ m, db0.files m ≠ [] → db.files m =
        if m ∈ don then (db0.files m).modify 0 (withExtra all (H m)) else db0.files m) →
      (∀ m, db0.files m = [] → db.files m = [] ∨ db.files m = [{}]) →
      (∀ n ∈ don, ∀ d ∈ H n, db.files d.name ≠ []) →
      ∃ db', snapFiles env all glob ns db = some db' ∧
        (∀ m, db0.files m ≠ [] → db'.files m =
          if m ∈ don ++ ns then (db0.files m).modify 0 (withExtra all (H m)) else db0.files m) ∧
        (∀ m, db0.files m = [] → db'.files m = [] ∨ db'.files m = [{}]) ∧
        (∀ n ∈ don ++ ns, ∀ d ∈ H n, db'.files d.name ≠ []) := by
  intro ns
  induction ns with
  | nil => intro don db _ _ h1 h2 h3; exact ⟨db, rfl, by simpa using h1, h2, by simpa using h3⟩
  | cons n ns ih =>
    intro don db hnd hmem h1 h2 h3
    have hn : db0.files n ≠ [] := hmem n (by simp)
    have hnd2 : n ∉ don := by
      intro h
      exact (List.nodup_append.1 hnd).2.2 n h n (by simp) rfl
    have hfs : db.files n = db0.files n := by rw [h1 n hn, if_neg hnd2]
    have hold : ∀ m, db0.files m ≠ [] → db.files m ≠ [] := by
      intro m hm
      rw [h1 m hm]
      split
      · exact modify_ne_nil.2 hm
      · exact hm
    obtain ⟨f, hf⟩ : ∃ f, (db0.files n)[0]? = some f := by
      cases hx : db0.files n with
      | nil => exact absurd hx hn
      | cons f fs => exact ⟨f, rfl⟩
    obtain ⟨db1, A, e1, a1, a2, a3⟩ := snapFile_extra env (all := all) (glob := glob) (db := db)
      (n := n) (f := f) (by rw [hfs]; exact hf) (hH n f hf) fun d hd => hold _ (hglob d hd)
    have hne1 : ∀ m, db.files m ≠ [] → db1.files m ≠ [] := by
      intro m hm
      by_cases e : m = n
      · subst e; rw [a1]; exact modify_ne_nil.2 hm
      · rw [a2 m e, if_neg (fun h => hm h.1)]; exact hm
    obtain ⟨db', e2, b1, b2, b3⟩ := ih (don ++ [n]) db1 (by simpa using hnd)
      (fun m hm => hmem m (by simp [hm]))
      (by
        intro m hm
        by_cases e : m = n
        · subst e; simp only [List.mem_append, List.mem_singleton, or_true, if_true]; rw [a1, hfs]
        · rw [a2 m e, if_neg (fun h => hold m hm h.1), h1 m hm]
          simp [e])
      (by
        intro m hm
        have e : m ≠ n := by rintro rfl; exact hn hm
        rw [a2 m e]
        split
        · exact .inr rfl
        · exact h2 m hm)
      (by
        intro x hx d hd
        rcases List.mem_append.1 hx with hx | hx
        · exact hne1 _ (h3 x hx d hd)
        · rw [List.mem_singleton] at hx; subst hx; exact a3 d hd)
    refine ⟨db', ?_, by simpa using b1, b2, by simpa using b3⟩
    rw [snapFiles, e1]; exact e2

/-- C109 (partial): the first record of each file gets its extra prerequisites after all others,
marked so that automatic variables leave them out; the files they name are in the table; nothing
else changes (but that `.SECONDARY` may make all files intermediate).  Missing: the second and
further records of double-colon targets, and targets with variables of their own, which get none of
the global ones; one that names the target itself makes it lose them all; see `C109_lost`. -/
theorem C109_extra_partial (env : FsEnv) (ex : List SFile → Str → SFile → Str → Str) {db : SDb}
    (hdb : ReadTable db) (fl : SnapFlags) {g : Str → Str} (hg : ∀ w, Stripped w (g w))
    {extra : Option Str} {ps : List (Str × Bool)}
    (hextra : (extra = none ∧ ps = []) ∨ ∃ t, extra = some t ∧ PrereqText t ps)
    {H : Str → List SDep}
    (hH : ∀ n f, ((specialTargets db fl).1.files n)[0]? = some f →
      Extra g (extraDeps g ps) n f (H n)) :
    ∃ db', snapDeps env ex false extra db fl = some (db', (specialTargets db fl).2) ∧
      (∀ n, db.files n ≠ [] → db'.files n = ((specialTargets db fl).1.files n).modify 0 fun f =>
        { f with
          intermediate := (specialTargets db fl).2.allSecondary || f.intermediate,
          deps := f.deps ++ H n }) ∧
      (∀ n, db.files n ≠ [] → ∀ d ∈ H n, db'.files d.name ≠ []) := by
  have hG : g = lookupName := funext fun w => stripped_unique (hg w)
  subst hG
  have hne : ∀ m, (specialTargets db fl).1.files m ≠ [] ↔ db.files m ≠ [] := by
    intro m
    rw [specialTargets_eq]
    simp [SDb.mapAll]
  have hnames : (specialTargets db fl).1.names = db.names := by rw [specialTargets_eq]; rfl
  have hx : ∃ db1 A, extraPrereqs env extra (specialTargets db fl).1 =
      some (db1, extraDeps lookupName ps) ∧ Grown (specialTargets db fl).1 db1 A ∧
      (∀ d ∈ extraDeps lookupName ps, d.name ∈ A) ∧ ∀ a ∈ A, lookupName a = a := by
    rcases hextra with ⟨h1, h2⟩ | ⟨t, h1, h2⟩
    · subst h1 h2
      exact ⟨_, [], rfl, grown_refl _, by simp [extraDeps], by simp⟩
    · subst h1
      obtain ⟨db1, e, h⟩ := extraPrereqs_text env h2 (specialTargets db fl).1
      refine ⟨db1, _, e, h, ?_, ?_⟩
      · intro d hd
        obtain ⟨p, hp, rfl⟩ := List.mem_map.1 hd
        exact List.mem_map.2 ⟨p, hp, rfl⟩
      · intro a ha
        obtain ⟨p, hp, rfl⟩ := List.mem_map.1 ha
        exact lookupName_idem _
  obtain ⟨db1, A, e1, g1, h1, -⟩ := hx
  let H' : Str → List SDep := fun n => if (specialTargets db fl).1.files n = [] then [] else H n
  have hH' : ∀ n f, (db1.files n)[0]? = some f →
      Extra lookupName (extraDeps lookupName ps) n f (H' n) := by
    intro n f hf
    by_cases h0 : (specialTargets db fl).1.files n = []
    · simp only [H', h0, if_true]
      rw [g1.1] at hf
      split at hf
      · simp only [List.getElem?_cons_zero, Option.some.injEq] at hf
        subst hf
        exact .notTarget rfl rfl
      · rw [h0] at hf; simp at hf
    · simp only [H', h0, if_false]
      rw [grown_old g1 h0] at hf
      exact hH n f hf
  have hlist : ∀ n ∈ db1.names, db1.files n ≠ [] := by
    obtain ⟨B, hB, hB2, -⟩ := g1.2
    intro n hn
    rw [hB, hnames, List.mem_append] at hn
    rw [grown_ne g1]
    rcases hn with hn | hn
    · exact .inl ((hne n).2 ((hdb.listed n).1 hn))
    · exact .inr ((hB2 n).1 hn).2
  have hnod : db1.names.Nodup := by
    obtain ⟨-, B, hB, hB2, hB3⟩ := g1
    rw [hB, hnames, List.nodup_append]
    refine ⟨hdb.once, hB3, ?_⟩
    intro x hx y hy e
    subst e
    exact (hne x).2 ((hdb.listed x).1 hx) ((hB2 x).1 hy).1
  obtain ⟨db', e2, b1, -, b3⟩ := snapFiles_extra env (all := (specialTargets db fl).2.allSecondary)
    (glob := extraDeps lookupName ps) (db0 := db1) (H := H') hH'
    (fun d hd => (grown_ne g1 _).2 (.inr (h1 d hd))) db1.names [] db1 (by simpa using hnod) hlist
    (by simp) (by intro m hm; exact .inl hm) (by simp)
  have hmem : ∀ n, db.files n ≠ [] → n ∈ db1.names := by
    intro n hn
    obtain ⟨-, B, hB, -⟩ := g1
    rw [hB, hnames]
    exact List.mem_append_left _ ((hdb.listed n).2 hn)
  have hHn : ∀ n, db.files n ≠ [] → H' n = H n := by
    intro n hn
    simp only [H', if_neg ((hne n).2 hn)]
  refine ⟨db', ?_, ?_, ?_⟩
  · unfold snapDeps
    simp only [Bool.false_eq_true, if_false, e1, e2, Option.map_some]
  · intro n hn
    have h0 := (hne n).2 hn
    rw [b1 n ((grown_ne g1 n).2 (.inl h0)), if_pos (by simpa using hmem n hn), grown_old g1 h0,
      hHn n hn]
    rfl
  · intro n hn d hd
    exact b3 n (by simpa using hmem n hn) d (by rw [hHn n hn]; exact hd)

/-- C109: with second expansion all this is done to the table that results from it. -/
theorem C109_after_second (env : FsEnv) (ex : List SFile → Str → SFile → Str → Str) (db db1 : SDb)
    (fl : SnapFlags) (extra : Option Str) (h : secondExpand env ex db = some db1) :
    snapDeps env ex true extra db fl = snapDeps env ex false extra db1 fl := by
  unfold snapDeps
  simp only [if_true, h, Bool.false_eq_true, if_false]

/-- C109 fails: with `.EXTRA_PREREQS = e f`, the target `all`, which has a variable of its own, gets
none of them, nor does the second rule of the double-colon target `b`, and `e` does not get `f`. -/
theorem C109_lost (env : FsEnv) (ex : List SFile → Str → SFile → Str → Str) :
    let db : SDb := ⟨["all".toList, "b".toList, "e".toList], fun m =>
      if m = "all".toList then [{ isTarget := true, vars := some none }]
      else if m = "b".toList then [{ isTarget := true }, { isTarget := true }]
      else if m = "e".toList then [{ isTarget := true }] else []⟩
    ReadTable db ∧
    ∃ db' fl, snapDeps env ex false (some "e f".toList) db {} = some (db', fl) ∧
      (db'.files "all".toList).map (fun f => f.deps.map (·.name)) = [[]] ∧
      (db'.files "b".toList).map (fun f => f.deps.map (·.name)) =
        [["e".toList, "f".toList], []] ∧
      (db'.files "e".toList).map (fun f => f.deps.map (·.name)) = [[]] := by
  intro db
  have l1 : lookupName "e".toList = "e".toList := by decide +kernel
  have l2 : lookupName "f".toList = "f".toList := by decide +kernel
  have ha : db.files "all".toList = [{ isTarget := true, vars := some none }] := by decide +kernel
  have hb : db.files "b".toList = [{ isTarget := true }, { isTarget := true }] := by decide +kernel
  have he : db.files "e".toList = [{ isTarget := true }] := by decide +kernel
  have hother : ∀ m, m ≠ "all".toList → m ≠ "b".toList → m ≠ "e".toList → db.files m = [] := by
    intro m h1 h2 h3
    show (if _ then _ else _) = _
    rw [if_neg h1, if_neg h2, if_neg h3]
  have hdep : ∀ n, ∀ f ∈ db.files n, f.deps = [] := by
    intro n f hf
    by_cases h1 : n = "all".toList
    · subst h1; rw [ha, List.mem_singleton] at hf; rw [hf]
    · by_cases h2 : n = "b".toList
      · subst h2; rw [hb] at hf; simp only [List.mem_cons, List.not_mem_nil, or_false, or_self] at hf; rw [hf]
      · by_cases h3 : n = "e".toList
        · subst h3; rw [he, List.mem_singleton] at hf; rw [hf]
        · rw [hother n h1 h2 h3] at hf; cases hf
  have hT : ReadTable db := by
    refine ⟨?_, by decide +kernel, ?_⟩
    · intro m
      by_cases h1 : m = "all".toList
      · subst h1; rw [ha]; exact ⟨fun _ => List.cons_ne_nil _ _, fun _ => List.mem_cons_self⟩
      · by_cases h2 : m = "b".toList
        · subst h2; rw [hb]
          exact ⟨fun _ => List.cons_ne_nil _ _, fun _ => List.mem_cons_of_mem _ List.mem_cons_self⟩
        · by_cases h3 : m = "e".toList
          · subst h3; rw [he]
            exact ⟨fun _ => List.cons_ne_nil _ _,
              fun _ => List.mem_cons_of_mem _ (List.mem_cons_of_mem _ List.mem_cons_self)⟩
          · rw [hother m h1 h2 h3]
            simp only [db, List.mem_cons, h1, h2, h3, List.not_mem_nil, or_false, false_iff]
            exact fun h => h rfl
    · intro n f hf d hd
      rw [hdep n f hf] at hd; cases hd
  refine ⟨hT, ?_⟩
  have hreq : ∀ s m, ¬ RequiredBy db s m := by
    rintro s m ⟨f, hf, d, hd, -⟩
    rw [hdep s f hf] at hd; cases hd
  have hmark : ∀ m, (specialTargets db {}).1.files m = db.files m := by
    intro m
    rw [specialTargets_eq]
    simp only [SDb.mapAll]
    have : ∀ f, marked db m f = f := by
      intro f
      have hn : ∀ s m, namedBy (db.files s) m = false := by
        intro s m
        rw [← Bool.not_eq_true, namedBy_iff]; exact hreq s m
      have hi : db.files ".IGNORE".toList = [] := by decide +kernel
      have hs : db.files ".SILENT".toList = [] := by decide +kernel
      unfold marked
      simp only [hn, Bool.or_false, firstNamed, hi, hs, List.getElem?_nil]
    have e : marked db m = id := funext this
    rw [e, List.map_id]
  have hL : PrereqText "e f".toList [("e".toList, false), ("f".toList, false)] :=
    .normal (ns := ["e".toList, "f".toList])
      (.cons (sp := []) (t := "e".toList) (rest := "f".toList) (b := ' ') (by intro c hc; cases hc)
        ⟨'e', [], by decide, by decide⟩
        (.char (k := 0) (c := 'e') (t := []) (w := []) (by decide) (by decide) .nil) (by decide)
        (.last (sp := []) (by intro c hc; cases hc) ⟨'f', [], by decide, by decide⟩
          (.char (k := 0) (c := 'f') (t := []) (w := []) (by decide) (by decide) .nil)))
      (by intro w hw; simp only [List.mem_cons, List.not_mem_nil, or_false] at hw
          rcases hw with rfl | rfl <;> unfold PlainWord <;> decide)
  let glob : List SDep := [{ name := "e".toList, hidden := true }, { name := "f".toList, hidden := true }]
  have hglob : extraDeps lookupName [("e".toList, false), ("f".toList, false)] = glob := by
    simp only [extraDeps, List.map_cons, List.map_nil, l1, l2, glob]
  obtain ⟨db', e, h, -⟩ := C109_extra_partial env ex hT {} lookupName_stripped
    (extra := some "e f".toList) (.inr ⟨_, rfl, hL⟩)
    (H := fun n => if n = "b".toList then glob else []) (by
      intro n f hf
      rw [hglob]
      rw [hmark] at hf
      by_cases h1 : n = "all".toList
      · subst h1
        rw [ha] at hf
        simp only [List.getElem?_cons_zero, Option.some.injEq] at hf
        rw [if_neg (by decide)]
        exact .ownNone (by rw [← hf])
      · by_cases h2 : n = "b".toList
        · subst h2
          rw [hb] at hf
          simp only [List.getElem?_cons_zero, Option.some.injEq] at hf
          rw [if_pos rfl]
          refine .global (by rw [← hf]) (by rw [← hf]) ?_
          intro d hd
          simp only [glob, List.mem_cons, List.not_mem_nil, or_false] at hd
          rcases hd with hd | hd <;> rw [hd] <;> decide
        · by_cases h3 : n = "e".toList
          · subst h3
            rw [he] at hf
            simp only [List.getElem?_cons_zero, Option.some.injEq] at hf
            rw [if_neg h2]
            exact .globalSelf (d := { name := "e".toList, hidden := true }) (by rw [← hf])
              (by rw [← hf]) List.mem_cons_self rfl
          · rw [hother n h1 h2 h3] at hf; simp at hf)
  refine ⟨db', _, e, ?_, ?_, ?_⟩
  · rw [h _ (by rw [ha]; exact List.cons_ne_nil _ _), hmark, ha, if_neg (by decide)]
    rfl
  · rw [h _ (by rw [hb]; exact List.cons_ne_nil _ _), hmark, hb, if_pos rfl]
    rfl
  · rw [h _ (by rw [he]; exact List.cons_ne_nil _ _), hmark, he, if_neg (by decide)]
    rfl

end Remake
