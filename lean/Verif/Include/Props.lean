import Verif.Include.Spec
import Verif.Include.Lemmas
import Verif.Files.Props
set_option linter.unusedVariables false
set_option linter.unusedSimpArgs false
/-! C120: included makefiles are read where they are included. -/
namespace Remake
open Spec

variable {σ : Type}

/-! ## The search -/

theorem find_first {dirs : List Str} {p : Str → Bool} {d : Str} (h : dirs.find? p = some d) :
    p d = true ∧ ∃ before after, dirs = before ++ d :: after ∧ ∀ x ∈ before, p x = false := by
  induction dirs with
  | nil => cases h
  | cons x xs ih =>
    by_cases hp : p x = true
    · rw [List.find?_cons_of_pos hp] at h
      cases h
      exact ⟨hp, [], xs, rfl, by intro x hx; cases hx⟩
    · rw [List.find?_cons_of_neg hp] at h
      obtain ⟨h1, b, a, rfl, h2⟩ := ih h
      refine ⟨h1, x :: b, a, rfl, ?_⟩
      intro y hy
      rcases List.mem_cons.1 hy with rfl | hy
      · simpa using hp
      · exact h2 y hy

theorem find_split {p : Str → Bool} {d : Str} {before after : List Str} (h1 : ∀ x ∈ before, p x = false) (h2 : p d = true) :
    (before ++ d :: after).find? p = some d := by
  induction before with
  | nil => rw [List.nil_append, List.find?_cons_of_pos h2]
  | cons x xs ih =>
    rw [List.cons_append, List.find?_cons_of_neg (by rw [h1 x (by simp)]; decide)]
    exact ih fun y hy => h1 y (by simp [hy])

theorem inDir_eq (d name : Str) : inDir d name = d ++ "/".toList ++ name := by
  simp [inDir]

theorem open_found {c : Str → Option (List Str)} {dirs : List Str} {name path : Str} {ls : List Str}
    (h : StandsFor c dirs name path ls) : openIncluded c dirs name = (path, some ls) := by
  obtain ⟨h1, rfl | ⟨h2, h3, before, d, after, rfl, rfl, h4⟩⟩ := h
  · unfold openIncluded; rw [h1]
  · unfold openIncluded
    rw [h2, if_neg h3]
    rw [← inDir_eq] at h1
    have : (before ++ d :: after).find? (fun d => (c (inDir d name)).isSome) = some d :=
      find_split (fun x hx => by rw [inDir_eq, h4 x hx]; rfl) (by rw [h1]; rfl)
    simp only [this, h1, ← inDir_eq]

theorem open_missing {c : Str → Option (List Str)} {dirs : List Str} {name : Str}
    (h : StandsForNone c dirs name) : openIncluded c dirs name = (name, none) := by
  obtain ⟨h1, h2⟩ := h
  unfold openIncluded
  rw [h1]
  by_cases h3 : name.head? = some '/'
  · simp only [if_pos h3]
  · simp only [if_neg h3]
    have h2' := h2.resolve_left h3
    have : dirs.find? (fun d => (c (inDir d name)).isSome) = none := by
      rw [List.find?_eq_none]
      intro d hd
      rw [inDir_eq, h2' d hd]; decide
    rw [this]

theorem open_cases (c : Str → Option (List Str)) (dirs : List Str) (name : Str) :
    (∃ path ls, StandsFor c dirs name path ls) ∨ StandsForNone c dirs name := by
  cases h : c name with
  | some ls => exact .inl ⟨name, ls, h, .inl rfl⟩
  | none =>
    by_cases h3 : name.head? = some '/'
    · exact .inr ⟨h, .inl h3⟩
    · cases hd : dirs.find? (fun d => (c (inDir d name)).isSome) with
      | none =>
        right
        refine ⟨h, .inr ?_⟩
        intro d hm
        have := List.find?_eq_none.1 hd d hm
        rw [← inDir_eq]
        cases hc : c (inDir d name) with
        | none => rfl
        | some ls => rw [hc] at this; exact absurd rfl this
      | some d =>
        left
        obtain ⟨h1, before, after, h2, h4⟩ := find_first hd
        cases hc : c (inDir d name) with
        | none => rw [hc] at h1; cases h1
        | some ls =>
          refine ⟨inDir d name, ls, hc, .inr ⟨h, h3, before, d, after, h2, inDir_eq d name, ?_⟩⟩
          intro x hx
          have := h4 x hx
          rw [← inDir_eq]
          cases hc : c (inDir x name) with
          | none => rfl
          | some ls => rw [hc] at this; cases this

/-- **C120** An included name stands for the file of that name, if it can be opened; else, unless it is absolute, for the first
that can be opened in the directories of the search path. -/
theorem C120_search (c : Str → Option (List Str)) (dirs : List Str) (name path : Str) (ls : List Str) :
    (openIncluded c dirs name = (path, some ls) ↔ StandsFor c dirs name path ls) ∧
      ((openIncluded c dirs name).2 = none ↔ StandsForNone c dirs name) := by
  rcases open_cases c dirs name with ⟨path', ls', h⟩ | h
  · have e := open_found h
    have hn : ¬ StandsForNone c dirs name := by
      intro h'; rw [open_missing h'] at e; cases e
    refine ⟨⟨fun h' => ?_, open_found⟩, ⟨fun h' => ?_, fun h' => absurd h' hn⟩⟩
    · rw [e] at h'; cases h'; exact h
    · rw [e] at h'; cases h'
  · have e := open_missing h
    refine ⟨⟨fun h' => ?_, open_found⟩, ⟨fun _ => h, fun _ => by rw [e]⟩⟩
    rw [e] at h'; cases h'

/-- A file that is found in the second directory. -/
example : StandsFor (fun p => if p = "b/x".toList then some [[]] else none) ["a".toList, "b".toList] "x".toList
    "b/x".toList [[]] :=
  ⟨rfl, .inr ⟨rfl, by decide, ["a".toList], "b".toList, [], rfl, rfl, by decide⟩⟩
example : StandsForNone (fun p => if p = "b/x".toList then some [[]] else none) ["a".toList, "b".toList] "/x".toList :=
  ⟨rfl, .inl rfl⟩

/-! ## One text after another -/

/-- The end of `eval`. -/
def finish (E : RdEnv σ) : EvalRes (RdState σ) → ReadRes σ
  | .done s => if s.failed.isSome then .fatal else .done (flush E s).env
  | .fatal => .fatal
  | .undef => .undef

theorem readMakefile_finish (E : RdEnv σ) (s : σ) (ls : List Str) :
    readMakefile E s ls = finish E (evalLoop (readerEnv E) (live s none [] false) [] false false (skipBom ls)) := by
  unfold readMakefile finish evalLines live
  rfl

theorem read_done {E : RdEnv σ} {s s' : σ} {ls : List Str} (h : readMakefile E s ls = .done s') :
    ∃ t, evalLoop (readerEnv E) (live s none [] false) [] false false (skipBom ls) = .done t ∧ t.failed = none ∧
      flush E t = live s' none [] false := by
  rw [readMakefile_finish] at h
  unfold finish at h
  split at h
  · rename_i t he
    refine ⟨t, he, ?_⟩
    cases hf : t.failed with
    | some x => rw [hf] at h; cases h
    | none =>
      rw [hf] at h
      simp only [Option.isSome_none, Bool.false_eq_true, if_false, ReadRes.done.injEq] at h
      refine ⟨rfl, ?_⟩
      rw [← h]
      simp only [flush, live, hf]
  · cases h
  · cases h

theorem skipBom_append {a b : List Str} (h : a ≠ []) : skipBom (a ++ b) = skipBom a ++ b := by
  cases a with
  | nil => exact absurd rfl h
  | cons x xs => rfl

theorem flush_flush (E : RdEnv σ) (t : RdState σ) : flush E (flush E t) = flush E t := rfl

theorem flush_failed (E : RdEnv σ) (t : RdState σ) : (flush E t).failed = t.failed := rfl

theorem flush_prefix {E : RdEnv σ} (hs : StablePrefix E) (t : RdState σ) :
    E.cmdPrefix (flush E t).env = E.cmdPrefix t.env := by
  unfold flush
  simp only
  split
  · rfl
  · exact hs _ _ _

theorem recipe_flush (E : RdEnv σ) (t : RdState σ) (l : Str) : (readerEnv E).recipe (flush E t) l = false := by
  simp [readerEnv, flush]

theorem recipe_not {E : RdEnv σ} {t : RdState σ} {l : Str} (h : ¬ IsRecipeLine (E.cmdPrefix t.env) l) :
    (readerEnv E).recipe t l = false := by
  have h' : ¬ l.head? = some (E.cmdPrefix t.env) := h
  simp [readerEnv, h']

theorem loop_lead {E : RdEnv σ} {t : RdState σ} {lead : List Str} (h : ∀ l ∈ lead, NoText E.posix l ∧
    ¬ IsRecipeLine (E.cmdPrefix t.env) l) (rest : List Str) :
    evalLoop (readerEnv E) t [] false false (lead ++ rest) = evalLoop (readerEnv E) t [] false false rest := by
  induction lead with
  | nil => rfl
  | cons l lead ih =>
    rw [List.cons_append, loop_noText (h l (by simp)).1 _ (recipe_not (h l (by simp)).2)]
    exact ih fun x hx => h x (by simp [hx])

theorem otherLine_flush {E : RdEnv σ} (hs : StablePrefix E) {t : RdState σ} {l p : Str}
    (h : ¬ IsRecipeLine (E.cmdPrefix t.env) l) : otherLine E t l p = otherLine E (flush E t) l p := by
  unfold otherLine
  rw [flush_flush, flush_prefix hs]
  split
  · rfl
  · have h' : ¬ l.head? = some (E.cmdPrefix t.env) := h
    rw [if_neg h', if_neg h']

/-- A rule is ended by the next line that is no recipe line. -/
theorem loop_afresh {E : RdEnv σ} (hs : StablePrefix E) {t : RdState σ} (hf : t.failed = none) {post : List Str}
    (h : StartsAfresh E.posix (E.cmdPrefix t.env) post) :
    finish E (evalLoop (readerEnv E) t [] false false post) =
      finish E (evalLoop (readerEnv E) (flush E t) [] false false post) := by
  have hff : (flush E t).failed = none := hf
  rcases h with h | ⟨lead, l, rest, rfl, h1, h2, h3, h4⟩
  · have e1 := loop_lead h []
    have e2 := loop_lead (t := flush E t) (lead := post) (by rw [flush_prefix hs]; exact h) []
    rw [List.append_nil] at e1 e2
    rw [e1, e2, evalLoop.eq_def, evalLoop.eq_def]
    simp only [if_true, finish, hf, hff, flush_flush]
  · have hl : l ≠ [] := by
      rintro rfl
      apply h3
      cases E.posix <;> decide +kernel
    rw [loop_lead h1, loop_lead (t := flush E t) (by rw [flush_prefix hs]; exact h1)]
    have r1 := recipe_not h2
    have r2 := recipe_flush E t l
    cases ha : parseVarAssignment (evalText E.posix l) with
    | none => rw [loop_other hl ha h3 h4 t r1 hf, loop_other hl ha h3 h4 _ r2 hff, otherLine_flush hs h2]
    | some q =>
      obtain ⟨m, q⟩ := q
      cases hm : m.defineV with
      | false => rw [loop_assign hl ha hm t r1 hf, loop_assign hl ha hm _ r2 hff, flush_flush]
      | true =>
        cases hd : takeDefine E.posix (E.cmdPrefix t.env) 1 rest with
        | some b =>
          obtain ⟨body, r⟩ := b
          rw [loop_define hl ha hm t r1 hf hd, loop_define hl ha hm _ r2 hff (by rw [flush_prefix hs]; exact hd), flush_flush]
        | none =>
          have ha' : (readerEnv E).assign (evalText (readerEnv E).posix l) = some true := by
            simp only [readerEnv, ha, Option.map_some, hm]
          have key : ∀ t', E.cmdPrefix t'.env = E.cmdPrefix t.env → (readerEnv E).recipe t' l = false →
              evalLoop (readerEnv E) t' [] false false (l :: rest) = .fatal := by
            intro t' hp' hr'
            have hd' : takeDefine (readerEnv E).posix ((readerEnv E).cmdPrefix t') 1 rest = none := by
              have : takeDefine E.posix (E.cmdPrefix t'.env) 1 rest = none := by rw [hp']; exact hd
              exact this
            rw [evalLoop.eq_def]
            simp only [if_neg hl, hr', ha', Bool.false_eq_true, if_false, if_true]
            split
            · rfl
            · rename_i h; rw [hd'] at h; cases h
          rw [key t rfl r1, key _ (flush_prefix hs t) r2]

/-- **C120** If a text can be read to its end, and what comes after it does not start with a recipe line or a conditional, then
reading both is reading the one and then the other. -/
theorem C120_split {E : RdEnv σ} (hs : StablePrefix E) {s s' : σ} {ls post : List Str} (hne : ls ≠ [])
    (hread : readMakefile E s ls = .done s') (hpost : StartsAfresh E.posix (E.cmdPrefix s') post)
    (hb : skipBom post = post) : readMakefile E s (ls ++ post) = readMakefile E s' post := by
  obtain ⟨t, e, hf, hfl⟩ := read_done hread
  have hp : E.cmdPrefix t.env = E.cmdPrefix s' := by
    rw [← flush_prefix hs, hfl]; rfl
  rw [readMakefile_finish, readMakefile_finish, skipBom_append hne, hb,
    evalLoop_append _ _ _ _ _ _ _ t (show false = anyIgnoring [] from rfl) (by simp) e, ← hfl]
  exact loop_afresh hs hf (by rw [hp]; exact hpost)

/-! ## Include lines -/

variable {I : IncEnv σ}

theorem incEnv_stable (hs : StablePrefix I.base) (n : Nat) : StablePrefix (incEnv I n) := by
  intro s w c
  cases s with
  | none => rfl
  | some s => exact hs s w c

theorem lenient_eq {w : Str} (h : w = "include".toList ∨ w = "-include".toList ∨ w = "sinclude".toList) :
    (w.head? != some 'i') = Lenient w := by
  rcases h with rfl | rfl | rfl <;> decide

theorem includeNames_eq {s e : σ} {x : Str} {names : List Str} (h : Names I s x e names) :
    includeNames I.base s x = (e, some names) := by
  unfold includeNames
  cases h with
  | none h => simp only [h, if_true]
  | some h hx hp => simp only [h, if_neg hx, hp, Option.map_some]

theorem includeFiles_done {n : Nat} {w : Str} {s s' : σ} {names : List Str} (h : FilesMean I n w s names s') :
    includeFiles (evalSlots I (n + 1) (Lenient w)) s names = some s' := by
  induction h with
  | nil => rfl
  | @missing s s' name names h1 h2 ih =>
    have : evalSlots I (n + 1) (Lenient w) s name = some (I.note s name (Lenient w) false) := by
      simp only [evalSlots, evalIncluded, open_missing h1]
    simp only [includeFiles, this, ih]
  | @found s s1 s' name path ls names h1 h2 h3 ih =>
    have : evalSlots I (n + 1) (Lenient w) s name = some s1 := by
      simp only [evalSlots, evalIncluded, open_found h1]
      unfold evalFile
      unfold atStart incEnv at h2
      rw [h2]
    simp only [includeFiles, this, ih]

theorem includeFiles_means {n : Nat} {w : Str} {names : List Str} : ∀ {s s' : σ},
    includeFiles (evalSlots I (n + 1) (Lenient w)) s names = some s' → FilesMean I n w s names s' := by
  induction names with
  | nil => intro s s' h; cases h; exact .nil
  | cons name names ih =>
    intro s s' h
    unfold includeFiles at h
    cases he : evalSlots I (n + 1) (Lenient w) s name with
    | none => rw [he] at h; cases h
    | some s1 =>
      rw [he] at h
      simp only [evalSlots, evalIncluded] at he
      rcases open_cases (I.content s) I.dirs name with ⟨path, ls, ho⟩ | ho
      · rw [open_found ho] at he
        refine .found ho ?_ (ih h)
        simp only [evalFile] at he
        unfold atStart incEnv
        split at he
        · rename_i hd
          rw [hd, he]
        · cases he
        · cases he
      · rw [open_missing ho] at he
        simp only [Option.some.injEq] at he
        rw [← he] at h
        exact .missing ho (ih h)

/-- The step of an include line. -/
theorem loop_include {n : Nat} {l w x : Str} (hl : IncludeLine I.base.posix l w x) {t : RdState (Option σ)} {s e : σ}
    {names : List Str} (hf : t.failed = none) (hr : (readerEnv (incEnv I n)).recipe t l = false)
    (hfl : flush (incEnv I n) t = live (some s) none [] false) (hn : Names I s x e names) (post : List Str) :
    evalLoop (readerEnv (incEnv I n)) t [] false false (l :: post) =
      evalLoop (readerEnv (incEnv I n)) (live (includeFiles (evalSlots I n (Lenient w)) e names) none [] false)
        [] false false post := by
  obtain ⟨h1, h2, h3, h4, h5, h6⟩ := hl
  have h4' : tokenPrefix (evalText I.base.posix l) = w := h4
  have h5' : nextToken (endOfToken (evalText I.base.posix l)) = x := h5
  have hw : w ∈ includeWords := by
    rcases h6 with rfl | rfl | rfl <;> decide
  have hd : w ∈ directiveWords := by
    rcases h6 with rfl | rfl | rfl <;> decide
  have hres : ¬ Reserved (firstWord (evalText I.base.posix l)) := by
    rw [h4]
    rcases h6 with rfl | rfl | rfl <;> decide
  rw [loop_other (E := incEnv I n) h1 h2 h3 hres t hr hf, otherLine_directive (by
    show tokenPrefix (evalText I.base.posix l) ∈ _
    rw [h4']; exact hd), hfl]
  congr 1
  show RdState.mk ((incEnv I n).directive (some s) (tokenPrefix (evalText I.base.posix l))
    (nextToken (endOfToken (evalText I.base.posix l)))) none [] false none = _
  rw [h4', h5']
  unfold live
  congr 1
  show incDirective I (evalSlots I n) s w x = _
  unfold incDirective
  rw [if_pos hw]
  simp only [includeNames_eq hn, lenient_eq h6]

theorem stopped_finish (n : Nat) (post : List Str) (r : σ) :
    finish (incEnv I n) (evalLoop (readerEnv (incEnv I n)) (live none none [] false) [] false false post) ≠ .done (some r) := by
  intro h
  unfold finish at h
  split at h
  · rename_i t he
    have hst : Stopped t := stopped_loop (I := I) (ev := evalSlots I n) (live none none [] false) _ _ _ _ t
      (show (live (none : Option σ) none [] false).env = none from rfl) he
    have h2 : (flush (incEnv I n) t).env = none := stopped_flush (I := I) (ev := evalSlots I n) hst
    rw [h2] at h
    split at h <;> cases h
  · cases h
  · cases h

/-- The part of `readMakefile` up to an include line. -/
theorem read_to_include (hs : StablePrefix I.base) {n : Nat} {s0 s e : σ} {pre post : List Str} {l w x : Str} {names : List Str}
    (hp : readMakefile (incEnv I n) (some s0) pre = .done (some s)) (hb : pre = [] → skipBom (l :: post) = l :: post)
    (hl : IncludeLine I.base.posix l w x) (hr : ¬ IsRecipeLine (I.base.cmdPrefix s) l) (hn : Names I s x e names) :
    readMakefile (incEnv I n) (some s0) (pre ++ l :: post) =
      finish (incEnv I n) (evalLoop (readerEnv (incEnv I n))
        (live (includeFiles (evalSlots I n (Lenient w)) e names) none [] false) [] false false post) := by
  obtain ⟨t, e1, hf, hfl⟩ := read_done hp
  have hpre : (incEnv I n).cmdPrefix t.env = I.base.cmdPrefix s := by
    rw [← flush_prefix (incEnv_stable hs n), hfl]; rfl
  have hr' : (readerEnv (incEnv I n)).recipe t l = false := recipe_not (by rw [hpre]; exact hr)
  have hsplit : skipBom (pre ++ l :: post) = skipBom pre ++ l :: post := by
    by_cases hpn : pre = []
    · subst hpn; exact hb rfl
    · exact skipBom_append hpn
  rw [readMakefile_finish, hsplit, evalLoop_append _ _ _ _ _ _ _ t (show false = anyIgnoring [] from rfl) (by simp) e1, loop_include hl hf hr' hfl hn]

/-- **C120** An `include` line reads the files it names, and then reading goes on after it in the state they lead to, with no
rule open. -/
theorem C120_include (hs : StablePrefix I.base) {n : Nat} {s0 s e s' : σ} {pre post : List Str} {l w x : Str}
    {names : List Str} (hp : readMakefile (incEnv I (n + 1)) (some s0) pre = .done (some s))
    (hb : pre = [] → skipBom (l :: post) = l :: post) (hb' : skipBom post = post)
    (hl : IncludeLine I.base.posix l w x) (hr : ¬ IsRecipeLine (I.base.cmdPrefix s) l) (hn : Names I s x e names)
    (hm : FilesMean I n w e names s') :
    readMakefile (incEnv I (n + 1)) (some s0) (pre ++ l :: post) = readMakefile (incEnv I (n + 1)) (some s') post := by
  rw [read_to_include hs hp hb hl hr hn, includeFiles_done hm, readMakefile_finish, hb']

/-- **C120** If one of the files cannot be read to its end — an error in it, a conditional that it does not close, too many
files open — make stops; no text after the line changes that. -/
theorem C120_stop (hs : StablePrefix I.base) {n : Nat} {s0 s e : σ} {pre post : List Str} {l w x : Str}
    {names : List Str} (hp : readMakefile (incEnv I (n + 1)) (some s0) pre = .done (some s))
    (hb : pre = [] → skipBom (l :: post) = l :: post)
    (hl : IncludeLine I.base.posix l w x) (hr : ¬ IsRecipeLine (I.base.cmdPrefix s) l) (hn : Names I s x e names)
    (hm : ∀ s', ¬ FilesMean I n w e names s') (r : σ) :
    readMakefile (incEnv I (n + 1)) (some s0) (pre ++ l :: post) ≠ .done (some r) := by
  rw [read_to_include hs hp hb hl hr hn]
  cases hi : includeFiles (evalSlots I (n + 1) (Lenient w)) e names with
  | some s' => exact absurd (includeFiles_means hi) (hm s')
  | none =>
    intro h
    exact stopped_finish (n + 1) post r h

/-- **C120** A makefile that includes another is read as if the lines of that other stood in its place, up to the note of its
name: if the included file can be read to its end and the line after the include line neither is a recipe line nor a
conditional. -/
theorem C120_textual (hs : StablePrefix I.base) {n : Nat} {s0 s e s2 : σ} {pre ls post : List Str} {l w x name path : Str}
    (hp : readMakefile (incEnv I (n + 1)) (some s0) pre = .done (some s))
    (hb : pre = [] → skipBom (l :: post) = l :: post) (hb' : skipBom post = post) (hne : ls ≠ [])
    (hl : IncludeLine I.base.posix l w x) (hr : ¬ IsRecipeLine (I.base.cmdPrefix s) l) (hn : Names I s x e [name])
    (ho : StandsFor (I.content e) I.dirs name path ls)
    (hread : readMakefile (incEnv I n) (some (atStart I e w path)) ls = .done (some s2))
    (hpost : StartsAfresh I.base.posix (I.base.cmdPrefix s2) post) :
    readMakefile (incEnv I (n + 1)) (some s0) (pre ++ l :: post) =
      readMakefile (incEnv I (n + 1)) (some (atStart I e w path)) (ls ++ post) := by
  rw [C120_include hs hp hb hb' hl hr hn (.found ho hread .nil)]
  exact (C120_split (incEnv_stable hs (n + 1)) hne (incEnv_mono hread) hpost hb').symm

/-- **C120** A makefile that can be read when `n` files can be opened is read in the same way when more can. -/
theorem C120_slots {n m : Nat} (h : n ≤ m) {s s' : σ} {ls : List Str}
    (hr : readMakefile (incEnv I n) (some s) ls = .done (some s')) :
    readMakefile (incEnv I m) (some s) ls = .done (some s') := by
  induction h with
  | refl => exact hr
  | step _ ih => exact incEnv_mono ih

/-- **C120** A makefile whose first line includes it never gets read, however many files can be opened: make stops, instead of
going on for ever. -/
theorem C120_self (hs : StablePrefix I.base) {l w x name path : Str} {rest : List Str} (hb : skipBom (l :: rest) = l :: rest)
    (hl : IncludeLine I.base.posix l w x) (hr : ∀ s, ¬ IsRecipeLine (I.base.cmdPrefix s) l)
    (hn : ∀ s, ∃ e, Names I s x e [name]) (ho : ∀ s, StandsFor (I.content s) I.dirs name path (l :: rest)) (n : Nat) :
    ∀ s r, readMakefile (incEnv I n) (some s) (l :: rest) ≠ .done (some r) := by
  have h0 : ∀ n s, readMakefile (incEnv I n) (some s) [] = .done (some s) := by
    intro n s; rw [readMakefile_finish]; simp only [skipBom]; rw [evalLoop.eq_def]; rfl
  induction n with
  | zero =>
    intro s r h
    obtain ⟨e, hn⟩ := hn s
    rw [← List.nil_append (l :: rest), read_to_include hs (h0 0 s) (fun _ => hb) hl (hr s) hn] at h
    exact stopped_finish 0 rest r h
  | succ n ih =>
    intro s r
    obtain ⟨e, hn⟩ := hn s
    have := C120_stop hs (pre := []) (post := rest) (n := n) (h0 (n + 1) s) (fun _ => hb) hl (hr s) hn (by
      intro s' hm
      cases hm with
      | missing h1 _ =>
        have e1 := open_found (ho e)
        rw [open_missing h1] at e1; cases e1
      | found h1 h2 _ =>
        have e1 := open_found (ho e)
        rw [open_found h1] at e1
        cases e1
        exact ih _ _ h2) r
    exact this

end Remake
