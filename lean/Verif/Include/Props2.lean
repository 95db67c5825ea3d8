import Verif.Include.Props
set_option linter.unusedVariables false
set_option linter.unusedSimpArgs false
/-! C120, continued: the names of an include line, the end of a rule, examples. -/
namespace Remake
open Spec

variable {σ : Type} {I : IncEnv σ}

/-! ## Names -/

theorem parseSeq_noar {env : FsEnv} {p cs : Str} {c : Char} (h : nextToken p = c :: cs)
    {w rest : Str} (hw : seqWord isBlank (c :: cs) = (w, rest)) :
    parseSeqGo env { noar := true } none (fun _ => false) none p =
      consNames (elementNames env { noar := true } none (seqName w))
        (parseSeqGo env { noar := true } none (fun _ => false) none rest) := by
  have hfm : findMap { noar := true } (fun _ => false) = isBlank := by
    funext c; simp [findMap]
  rw [parseSeq_word (flags := { noar := true }) h rfl (w := w) (rest := rest) (by rw [hfm]; exact hw)]
  simp [groupOpen, groupElement, seqName_ne_nil]

theorem elementNames_noWild {env : FsEnv} {w : Str} (h : NoWild w) :
    elementNames env { noar := true } none (seqName w) = some [lookupName w] := by
  obtain ⟨h2, h3, h4, h5⟩ := h
  have g2 : '~' ∉ seqName w := mem_seqName (by decide) h2
  have g3 : '?' ∉ seqName w := mem_seqName (by decide) h3
  have g4 : '*' ∉ seqName w := mem_seqName (by decide) h4
  have g5 : '[' ∉ seqName w := mem_seqName (by decide) h5
  rw [← seqName_eq_lookup]
  generalize seqName w = n at *
  have g6 : n.head? ≠ some '~' := fun h => g2 (List.mem_of_mem_head? h)
  have g8 : n.any (fun c => c == '?' || c == '*' || c == '[') = false := by
    rw [List.any_eq_false]
    intro x hx
    have h1 : x ≠ '?' := by rintro rfl; exact g3 hx
    have h2 : x ≠ '*' := by rintro rfl; exact g4 hx
    have h3 : x ≠ '[' := by rintro rfl; exact g5 hx
    simp [h1, h2, h3]
  unfold elementNames
  simp only [g6, g8, if_false, Bool.false_eq_true, Bool.not_false, Bool.and_self, if_true,
    Option.getD_none, List.map_cons, List.map_nil, List.nil_append]

theorem parse_noar {env : FsEnv} {ws : List Str} {text : Str} (h : Listing isBlank true ws text) :
    (∀ w ∈ ws, NoWild w) → ∀ sp, Spaces sp →
      parseSeqGo env { noar := true } none (fun _ => false) none (sp ++ text) = some (ws.map lookupName, []) := by
  have hb : isBlank '\\' = false := by decide
  have hstart : ∀ {e : Bool} {sp t w rest : Str}, Spaces sp → Begins t → Quoted isBlank e t w → Follows isBlank e rest →
      NoWild w → parseSeqGo env { noar := true } none (fun _ => false) none (sp ++ t ++ rest) =
      consNames (some [lookupName w]) (parseSeqGo env { noar := true } none (fun _ => false) none rest) := by
    intro e sp t w rest hsp ht hq hf hw
    obtain ⟨c, cs, rfl, hc⟩ := ht
    rw [parseSeq_noar (c := c) (cs := cs ++ rest) (w := w) (rest := rest) ?_ ?_, elementNames_noWild hw]
    · rw [List.append_assoc, nextToken_spaces hsp, List.cons_append, nextToken_begin hc]
    · rw [← List.cons_append]
      exact seqWord_quoted hb hq hf
  have hend : ∀ sp, Spaces sp → parseSeqGo env { noar := true } none (fun _ => false) none sp = some ([], []) := by
    intro sp hsp
    exact parseSeq_end (by
      have := nextToken_spaces hsp (rest := [])
      rw [List.append_nil] at this
      rw [this]; rfl)
  have hjoin : ∀ {a b : Str}, Spaces a → Spaces b → Spaces (a ++ b) := by
    intro a b ha hb c hc
    rcases List.mem_append.1 hc with hc | hc
    · exact ha c hc
    · exact hb c hc
  induction h with
  | @nil sp1 h1 =>
    intro _ sp hsp
    exact hend _ (hjoin hsp h1)
  | @last sp1 t w h1 h2 h3 =>
    intro hw sp hsp
    have : sp ++ (sp1 ++ t) = (sp ++ sp1) ++ t ++ [] := by simp
    rw [this, hstart (hjoin hsp h1) h2 h3 (.inr ⟨rfl, rfl⟩) (hw w (by simp)), hend [] (by intro c hc; cases hc)]
    rfl
  | @cons sp1 t w r b ws h1 h2 h3 h4 hl ih =>
    intro hw sp hsp
    have : sp ++ (sp1 ++ t ++ b :: r) = (sp ++ sp1) ++ t ++ (b :: r) := by simp
    rw [this, hstart (hjoin hsp h1) h2 h3 (.inl ⟨rfl, b, _, rfl, h4⟩) (hw w (by simp))]
    have h5 := ih (fun x hx => hw x (by simp [hx])) [b] (by
      intro c hc; simp at hc; subst hc; simp [isSpace, h4])
    rw [List.singleton_append] at h5
    rw [h5]; rfl

/-- **C120** The names of an include line are the words of its expansion, blanks between them, in their order; a name may have
parentheses.  Leading `./` are dropped. -/
theorem C120_names_partial {s e : σ} {t x : Str} {ws : List Str} (hx : I.base.expand s t = (e, x))
    (h : Listing isBlank true ws x) (hw : ∀ w ∈ ws, NoWild w) :
    ∃ f : Str → Str, (∀ w, Stripped w (f w)) ∧ Names I s t e (ws.map f) := by
  refine ⟨lookupName, lookupName_stripped, ?_⟩
  by_cases hne : x = []
  · subst hne
    have : ws = [] := by
      generalize hy : ([] : Str) = y at h
      cases h with
      | nil _ => rfl
      | last h1 h2 h3 =>
        obtain ⟨c, cs, rfl, _⟩ := h2
        simp at hy
      | cons h1 h2 h3 h4 h5 => simp at hy
    subst this
    exact .none hx
  · exact .some hx hne (by
      have := parse_noar (env := I.base.fs) h hw [] (by intro c hc; cases hc)
      rw [List.nil_append] at this
      exact this)

/-! ## Recipes do not go over the end of a file -/

theorem failed_loop {E : RdEnv σ} (s : RdState σ) (conds : List CondLevel) (ig inDef : Bool) (ls : List Str) (s1 : RdState σ)
    (h : s.failed.isSome) (he : evalLoop (readerEnv E) s conds ig inDef ls = .done s1) : s1.failed.isSome := by
  have key : ∀ (s : RdState σ) (f : RdState σ → RdState σ), s.failed.isSome → (unlessFailed s f).failed.isSome := by
    intro s f h1; unfold unlessFailed; rw [if_pos h1]; exact h1
  refine evalLoop_keeps (P := fun s => s.failed.isSome = true) ?_ ?_ ?_ ?_ ?_ s conds ig inDef ls s1 h he
  · intro s t hs; exact hs
  · intro s l hs; exact key _ _ hs
  · intro s l hs; exact key _ _ hs
  · intro s l b hs; exact key _ _ hs
  · intro s l p hs; exact key _ _ hs

/-- **C120** Recipe lines after an include line do not belong to the last rule of the included file: make stops. -/
theorem C120_recipe (hs : StablePrefix I.base) {n : Nat} {s0 s e s' : σ} {pre post : List Str} {l w x k : Str}
    {names : List Str} (hp : readMakefile (incEnv I (n + 1)) (some s0) pre = .done (some s))
    (hb : pre = [] → skipBom (l :: k :: post) = l :: k :: post) (hb' : skipBom (k :: post) = k :: post)
    (hl : IncludeLine I.base.posix l w x) (hr : ¬ IsRecipeLine (I.base.cmdPrefix s) l) (hn : Names I s x e names)
    (hm : FilesMean I n w e names s') (hk : IsRecipeLine (I.base.cmdPrefix s') k)
    (hk1 : parseVarAssignment (evalText I.base.posix k) = none) (hk2 : evalText I.base.posix k ≠ [])
    (hk3 : ¬ Reserved (firstWord (evalText I.base.posix k))) (hk4 : firstWord (evalText I.base.posix k) ∉ directiveWords)
    (r : Option σ) :
    readMakefile (incEnv I (n + 1)) (some s0) (pre ++ l :: k :: post) ≠ .done r := by
  rw [C120_include hs hp hb hb' hl hr hn hm, readMakefile_finish, hb']
  have hkn : k ≠ [] := isRecipeLine_ne hk
  rw [loop_other (E := incEnv I (n + 1)) hkn hk1 hk2 hk3 (live (some s') none [] false) (by simp [readerEnv, live]) rfl]
  have e1 : (otherLine (incEnv I (n + 1)) (live (some s') none [] false) k (evalText (incEnv I (n + 1)).posix k)).failed.isSome := by
    have hk4' : tokenPrefix (evalText (incEnv I (n + 1)).posix k) ∉ directiveWords := hk4
    have hk' : k.head? = some ((incEnv I (n + 1)).cmdPrefix (live (some s') none [] false).env) := hk
    unfold otherLine
    rw [if_neg hk4', if_pos hk']; rfl
  intro h
  unfold finish at h
  split at h
  · rename_i t he
    have := failed_loop _ _ _ _ _ _ e1 he
    rw [if_pos this] at h
    cases h
  · cases h
  · cases h

/-! ## The name of the file -/

/-- The file that the makefile is entered as (read.c 395-400), in the table of files of `Verif/Files/Model.lean`. -/
def enterMakefile (db : FileDb) (name : Str) : FileDb :=
  if (lookupFile db name).isSome then db else enterFile db name

/-- **C120** A makefile found through a directory of the search path written with a leading `./` is entered under that name,
which nothing else finds: a later rule for `inc/x` does not remake it. -/
theorem C120_dot :
    openIncluded (fun p => if p = "./inc/x".toList then some [[]] else none) ["./inc".toList] "x".toList =
        ("./inc/x".toList, some [[]]) ∧
      ((enterMakefile (fun _ => none) "./inc/x".toList) "./inc/x".toList).isSome ∧
      lookupFile (enterMakefile (fun _ => none) "./inc/x".toList) "./inc/x".toList = none ∧
      lookupFile (enterMakefile (fun _ => none) "./inc/x".toList) "inc/x".toList = none := by
  refine ⟨by decide, ?_, ?_, ?_⟩
  · simp [enterMakefile, lookupFile, lookupName, stripLookup, dropSlashes, enterFile, FileDb.set]
  · simp [enterMakefile, lookupFile, lookupName, stripLookup, dropSlashes, enterFile, FileDb.set]
  · simp [enterMakefile, lookupFile, lookupName, stripLookup, dropSlashes, enterFile, FileDb.set]

/-! ## Examples -/

/-- The make of the examples for C87, with a file `f`, a file `g` that opens a conditional, and a file `me` that includes itself;
the names read are kept as rules with the recipe `read`. -/
def exInc : IncEnv RdLog where
  base := exRd "t u".toList
  content _ p :=
    if p = "d/f".toList then some ["a: b".toList, "\techo 1".toList]
    else if p = "g".toList then some ["ifdef X".toList]
    else if p = "me".toList then some ["include me".toList, "a: b".toList]
    else none
  dirs := ["c".toList, "d".toList]
  note s _ _ _ := s
  listed s n := s ++ [([n], none, "read".toList)]

theorem exInc_stable : StablePrefix exInc.base := exRd_stable _

theorem exInc_expand (s : RdLog) {t : Str} (h : '$' ∉ t) : exInc.base.expand s t = (s, t) := exRd_literal _ s t h

theorem ex_line {n : Str} {l : Str} (h : l ≠ [] := by decide)
    (h1 : parseVarAssignment (evalText false l) = none := by decide +kernel)
    (h2 : evalText false l ≠ [] := by decide +kernel)
    (h3 : firstWord (evalText false l) = "include".toList := by decide +kernel)
    (h4 : afterWord (evalText false l) = n := by decide +kernel) :
    IncludeLine exInc.base.posix l "include".toList n :=
  ⟨h, h1, h2, h3, h4, .inl rfl⟩

theorem ex_name {n : Str} (s : RdLog) (h1 : '$' ∉ n := by decide) (h2 : n ≠ [] := by decide)
    (h3 : parseFileSeq exInc.base.fs { noar := true } none (fun _ => false) n = some ([n], []) := by decide +kernel) :
    Names exInc s n s [n] :=
  .some (exInc_expand s h1) h2 h3

theorem ex_empty (n : Nat) (s : RdLog) : readMakefile (incEnv exInc n) (some s) [] = .done (some s) := by
  rw [readMakefile_finish]; simp only [skipBom]; rw [evalLoop.eq_def]; rfl

theorem ex_f (s : RdLog) : StandsFor (exInc.content s) exInc.dirs "f".toList "d/f".toList ["a: b".toList, "\techo 1".toList] :=
  ⟨rfl, .inr ⟨rfl, by decide, ["c".toList], "d".toList, [], rfl, rfl, by
    intro x hx; simp at hx; subst hx; rfl⟩⟩

/-- The file `f` can be read. -/
theorem ex_read_f :
    readMakefile (incEnv exInc 0) (some (atStart exInc [] "include".toList "d/f".toList))
      ["a: b".toList, "\techo 1".toList] =
      .done (some [(["d/f".toList], none, "read".toList), (["a".toList], some "b".toList, "echo 1\n".toList)]) := by
  refine C87_makefile_partial (E := incEnv exInc 0) (incEnv_stable exInc_stable 0) (lead := [])
    (zs := [{ head := "a: b".toList, trail := ["\techo 1".toList] }]) (by decide) (by intro l hl; cases hl) ?_
  refine .cons (o' := true) (fun h => by cases h) (.rule (e := some [(["d/f".toList], none, "read".toList)])
    (w := exWait ["a".toList] "b".toList) (cmd := none)
    ⟨⟨by decide, by show parseVarAssignment (evalText false _) = none; decide +kernel,
      fun _ => by show evalText false _ ≠ [] ∧ ¬ Reserved (firstWord (evalText false _)); decide +kernel⟩,
      by show firstWord (evalText false _) ∉ _; decide +kernel, by show _ ≠ some '\t'; decide, rfl, by decide +kernel⟩
    (by intro l hl; left; simp at hl; subst hl; rfl)) .nil

/-- The hypotheses of `C120_textual` are met. -/
example : readMakefile (incEnv exInc 1) (some []) ["include f".toList, "c: d".toList] =
    readMakefile (incEnv exInc 1) (some [(["d/f".toList], none, "read".toList)])
      ["a: b".toList, "\techo 1".toList, "c: d".toList] :=
  C120_textual exInc_stable (pre := []) (n := 0) (ex_empty 1 []) (fun _ => by decide) (by decide) (by decide)
    (ex_line (n := "f".toList)) (by show _ ≠ some '\t'; decide) (ex_name []) (ex_f []) ex_read_f
    (.inr ⟨[], "c: d".toList, [], rfl, (by intro l hl; cases hl), (by show _ ≠ some '\t'; decide),
      (by show evalText false _ ≠ []; decide +kernel),
      (by show ¬ Reserved (firstWord (evalText false _)); decide +kernel)⟩)

/-- A name that no file has: reading goes on. -/
example (post : List Str) (h : skipBom post = post) :
    readMakefile (incEnv exInc 1) (some []) ("include nowhere".toList :: post) = readMakefile (incEnv exInc 1) (some []) post :=
  C120_include exInc_stable (pre := []) (n := 0) (ex_empty 1 []) (fun _ => rfl) h
    (ex_line (n := "nowhere".toList)) (by show _ ≠ some '\t'; decide) (ex_name [])
    (.missing (s' := []) ⟨by decide, .inr (by decide)⟩ .nil)

/-- A conditional that the included file opens is not closed by the makefile that includes it. -/
example (r : RdLog) : readMakefile (incEnv exInc 1) (some []) ["include g".toList, "endif".toList] ≠ .done (some r) :=
  C120_stop exInc_stable (pre := []) (n := 0) (ex_empty 1 []) (fun _ => by decide)
    (ex_line (n := "g".toList)) (by show _ ≠ some '\t'; decide) (ex_name []) (by
      intro s' hm
      have e : openIncluded (exInc.content []) exInc.dirs "g".toList = ("g".toList, some ["ifdef X".toList]) := by decide
      cases hm with
      | missing h1 _ => rw [open_missing h1] at e; cases e
      | found h1 h2 _ =>
        rw [open_found h1] at e
        cases e
        have e2 : (match readMakefile (incEnv exInc 0) (some (atStart exInc [] "include".toList "g".toList))
            ["ifdef X".toList] with | .fatal => true | _ => false) = true := by decide +kernel
        rw [h2] at e2; cases e2) r

/-- A recipe line after the include line. -/
example (r : Option RdLog) : readMakefile (incEnv exInc 1) (some []) ["include f".toList, "\techo 2".toList] ≠ .done r :=
  C120_recipe exInc_stable (pre := []) (n := 0) (ex_empty 1 []) (fun _ => by decide) (by decide)
    (ex_line (n := "f".toList)) (by show _ ≠ some '\t'; decide) (ex_name []) (.found (ex_f []) ex_read_f .nil)
    (by show _ = some '\t'; decide) (by show parseVarAssignment (evalText false _) = none; decide +kernel)
    (by show evalText false _ ≠ []; decide +kernel) (by show ¬ Reserved (firstWord (evalText false _)); decide +kernel)
    (by show firstWord (evalText false _) ∉ _; decide +kernel) r

/-- A file that includes itself. -/
example (n : Nat) (s r : RdLog) : readMakefile (incEnv exInc n) (some s) ["include me".toList, "a: b".toList] ≠ .done (some r) :=
  C120_self exInc_stable (by decide) (ex_line (n := "me".toList)) (fun s => by show _ ≠ some '\t'; decide)
    (fun s => ⟨s, ex_name s⟩) (path := "me".toList) (fun s => ⟨rfl, .inl rfl⟩) n s r

/-- Two names, one of them with parentheses. -/
example : ∃ f : Str → Str, (∀ w, Stripped w (f w)) ∧
    Names exInc [] "./f a(b)".toList [] (["./f".toList, "a(b)".toList].map f) := by
  refine C120_names_partial (exInc_expand [] (by decide)) ?_ (by
    unfold NoWild; decide)
  have h2 : Listing isBlank true ["a(b)".toList] ([] ++ "a(b)".toList) :=
    .last (by intro c h; cases h) ⟨_, _, rfl, by decide⟩ (quoted_plain (by decide))
  exact Listing.cons (sp := []) (t := "./f".toList) (b := ' ') (by intro c h; cases h) ⟨_, _, rfl, by decide⟩
    (quoted_plain (by decide)) rfl h2

end Remake
