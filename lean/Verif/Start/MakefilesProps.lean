import Verif.Start.Makefiles
import Verif.Base.Lemmas
/-!
# C99: which makefiles are read
-/
set_option linter.unusedVariables false
set_option linter.unusedSimpArgs false
namespace Remake

namespace Spec

variable {σ : Type}

/-- The file a name means: a tilde at its start is expanded if this is asked for and can be done. -/
def MeansFile (W : MkWorld σ) (s : σ) (fl : MkFlags) (name f : Str) : Prop :=
  (fl.noTilde = false ∧ name.head? = some '~' ∧ W.tilde s name = some f) ∨
  ((fl.noTilde = true ∨ name.head? ≠ some '~' ∨ W.tilde s name = none) ∧ f = name)

/-- The file a name leads to: itself, or the file of that name in the first directory of the search path that has it; the latter only
for included makefiles with a relative name. -/
inductive Locates (W : MkWorld σ) (s : σ) (fl : MkFlags) (name : Str) : Str → Bool → Prop
  | itself {f : Str} : MeansFile W s fl name f → W.opens s f = true → Locates W s fl name f true
  | path {f d : Str} {pre post : List Str} : MeansFile W s fl name f → W.opens s f = false → fl.included = true → f.head? ≠ some '/' →
      W.dirs = pre ++ d :: post → (∀ x ∈ pre, W.opens s (x ++ '/' :: f) = false) → W.opens s (d ++ '/' :: f) = true →
      Locates W s fl name (d ++ '/' :: f) true
  | missing {f : Str} : MeansFile W s fl name f → W.opens s f = false →
      (fl.included = true → f.head? ≠ some '/' → ∀ d ∈ W.dirs, W.opens s (d ++ '/' :: f) = false) → Locates W s fl name f false

/-- The entry for a makefile. -/
def EntryFor (W : MkWorld σ) (s : σ) (fl : MkFlags) (name : Str) (d : MkDep) : Prop :=
  ∃ f b, Locates W s fl name f b ∧ d = ⟨(W.known s f).getD f, fl, b⟩

/-- A makefile that another one includes, where the default goal may come from as for that one. -/
def IsKid (fl : MkFlags) (e : MkDep) : Prop := e.flags.included = true ∧ e.flags.noTilde = true ∧ e.flags.noDefault = fl.noDefault

/-- The makefiles `ns` are read in this order, each followed by those it includes; each is looked for in the state that those before it leave. -/
inductive ReadsInOrder (W : MkWorld σ) (fl : MkFlags) : σ → List Str → List MkDep → σ → Prop
  | nil {s : σ} : ReadsInOrder W fl s [] [] s
  | missing {s s' : σ} {n : Str} {ns : List Str} {d : MkDep} {log : List MkDep} : EntryFor W s fl n d → d.found = false →
      ReadsInOrder W fl s ns log s' → ReadsInOrder W fl s (n :: ns) (d :: log) s'
  | read {s s1 s' : σ} {n : Str} {ns : List Str} {d : MkDep} {kids log : List MkDep} : EntryFor W s fl n d → d.found = true →
      (∀ e ∈ kids, IsKid fl e) → ReadsInOrder W fl s1 ns log s' → ReadsInOrder W fl s (n :: ns) (d :: (kids ++ log)) s'

/-- The state keeps the list `l` over the script (which does not assign to the list itself); after included files it keeps what is then listed. -/
inductive KeepsList (L : σ → List Str) : List Str → Script σ → Prop
  | done {l : List Str} {s : σ} : L s = l → KeepsList L l (.done s)
  | fatal {l : List Str} : KeepsList L l .fatal
  | incl {l : List Str} {s : σ} {names : List Str} {b : Bool} {k : σ → Script σ} : L s = l → (∀ s', KeepsList L (L s') (k s')) →
      KeepsList L l (.incl s names b k)

/-- The names of those that were read. -/
def namesRead (log : List MkDep) : List Str := (log.filter (·.found)).map (·.name)

/-- No default makefile here. -/
def NoneHere (W : MkWorld σ) (s : σ) : Prop :=
  W.here s "GNUmakefile".toList = false ∧ W.here s "makefile".toList = false ∧ W.here s "Makefile".toList = false

/-- The default makefile here. -/
def DefaultHere (W : MkWorld σ) (s : σ) (n : Str) : Prop :=
  W.here s n = true ∧ (n = "GNUmakefile".toList ∨
    (n = "makefile".toList ∧ W.here s "GNUmakefile".toList = false) ∨
    (n = "Makefile".toList ∧ W.here s "GNUmakefile".toList = false ∧ W.here s "makefile".toList = false))

/-- The way up through directories that have no default makefile that can be read. -/
inductive Climbs (W : MkWorld σ) : σ → List MkDep → σ → Prop
  | here {s : σ} : Climbs W s [] s
  | up {s s1 s2 : σ} {c : Str} {log : List MkDep} : W.cwd s = some c → c ≠ ['/'] → NoneHere W s → W.up s = some s1 → Climbs W s1 log s2 →
      Climbs W s log s2
  | unreadable {s s1 s2 : σ} {c n : Str} {d : MkDep} {log : List MkDep} : W.cwd s = some c → c ≠ ['/'] → DefaultHere W s n →
      EntryFor W s {} n d → d.found = false → W.up s = some s1 → Climbs W s1 log s2 → Climbs W s (d :: log) s2

/-- There is no way further up. -/
def Stays (W : MkWorld σ) (parent : Bool) (s : σ) : Prop := parent = false ∨ W.cwd s = some ['/'] ∨ W.up s = none

/-- The default names, to be remade if there is a way. -/
def defaultDeps : List MkDep :=
  [⟨"GNUmakefile".toList, { dontcare := true }, false⟩, ⟨"makefile".toList, { dontcare := true }, false⟩, ⟨"Makefile".toList, { dontcare := true }, false⟩]

/-- The default makefile that is read, or what happens else; the entries of makefiles seen, and those added after all others. -/
inductive DefaultRead (W : MkWorld σ) (parent : Bool) (s : σ) : List MkDep → List MkDep → σ → Prop
  | read {s1 s2 : σ} {c n : Str} {log log' : List MkDep} {d : MkDep} : (parent = false → s1 = s ∧ log = []) → Climbs W s log s1 → W.cwd s1 = some c → DefaultHere W s1 n →
      ReadsInOrder W {} s1 [n] (d :: log') s2 → d.found = true → DefaultRead W parent s (log ++ d :: log') [] s2
  | none {s1 : σ} {log : List MkDep} : (parent = false → s1 = s ∧ log = []) → Climbs W s log s1 →
      (W.cwd s1 = none ∨ (NoneHere W s1 ∧ Stays W parent s1)) → DefaultRead W parent s log [] s1
  | unreadable {s1 : σ} {n c : Str} {log : List MkDep} {d : MkDep} : (parent = false → s1 = s ∧ log = []) → Climbs W s log s1 → W.cwd s1 = some c →
      DefaultHere W s1 n → EntryFor W s1 {} n d → d.found = false → Stays W parent s1 → DefaultRead W parent s (log ++ [d]) defaultDeps s1

end Spec
open Spec

variable {σ : Type} {W : MkWorld σ}

theorem means_file (s : σ) (fl : MkFlags) (name f : Str) :
    (if !fl.noTilde && name.head? == some '~' then (W.tilde s name).getD name else name) = f ↔ MeansFile W s fl name f := by
  unfold MeansFile
  cases hn : fl.noTilde <;> simp only [Bool.not_true, Bool.not_false, Bool.false_and, Bool.true_and, Bool.false_eq_true, if_false, if_true,
    true_and, false_and, true_or, false_or, reduceCtorEq, beq_iff_eq]
  · by_cases hh : name.head? = some '~'
    · simp only [hh, if_true, true_and, ne_eq, not_true, false_or]
      cases W.tilde s name <;> simp [eq_comm]
    · simp [hh, eq_comm]
  · exact eq_comm

/-- **C99** Where a makefile is looked for. -/
theorem C99_search (W : MkWorld σ) (s : σ) (fl : MkFlags) (name f : Str) (b : Bool) :
    findMakefile W s fl name = (f, b) ↔ Locates W s fl name f b := by
  have hex : Locates W s fl name (findMakefile W s fl name).1 (findMakefile W s fl name).2 := by
    unfold findMakefile
    have hm := (means_file (W := W) s fl name _).mp rfl
    generalize (if !fl.noTilde && name.head? == some '~' then (W.tilde s name).getD name else name) = g at hm
    simp only
    split
    · rename_i h
      exact .itself hm h
    · rename_i h
      have h : W.opens s g = false := by simpa using h
      split
      · rename_i h2
        simp only [Bool.and_eq_true, bne_iff_ne, ne_eq] at h2
        split
        · rename_i d hd
          rw [List.find?_eq_some_iff_append] at hd
          obtain ⟨h3, pre, post, h4, h5⟩ := hd
          exact .path hm h h2.1 h2.2 h4 (fun x hx => by simpa using h5 x hx) h3
        · rename_i hd
          rw [List.find?_eq_none] at hd
          exact .missing hm h fun _ _ d hd' => by simpa using hd d hd'
      · rename_i h2
        refine .missing hm h fun h3 h4 => ?_
        exfalso
        apply h2
        simp [h3, h4]
  constructor
  · intro h
    rw [h] at hex
    exact hex
  · have huniq : ∀ f' b', Locates W s fl name f' b' → findMakefile W s fl name = (f', b') := by
      intro f' b' h
      unfold findMakefile
      cases h with
      | itself hm ho =>
        rw [(means_file (W := W) s fl name _).mpr hm]
        simp [ho]
      | path hm ho hi hr hd hpre ho' =>
        rename_i g d pre post
        rw [(means_file (W := W) s fl name _).mpr hm]
        have : W.dirs.find? (fun d => W.opens s (d ++ '/' :: g)) = some d := by
          rw [List.find?_eq_some_iff_append]
          exact ⟨ho', pre, post, hd, fun x hx => by simp [hpre x hx]⟩
        simp [ho, hi, hr, this]
      | missing hm ho hd =>
        rw [(means_file (W := W) s fl name _).mpr hm]
        simp only [ho, Bool.false_eq_true, if_false]
        split
        · rename_i h2
          simp only [Bool.and_eq_true, bne_iff_ne, ne_eq] at h2
          have : W.dirs.find? (fun d => W.opens s (d ++ '/' :: f')) = none := by
            rw [List.find?_eq_none]
            intro x hx
            simp [hd h2.1 h2.2 x hx]
          rw [this]
        · rfl
    exact huniq f b

/-- `L` reads a list off the state that grows by `note` only. -/
def ListOf (W : MkWorld σ) (L : σ → List Str) : Prop :=
  (∀ s n, L (W.note s n) = L s ++ [n]) ∧ ∀ s n b, KeepsList L (L s) (W.script s n b)

/-- What reading one makefile does. -/
def OneRead (W : MkWorld σ) (L : σ → List Str) (fl : MkFlags) (name : Str) (st st' : σ × List MkDep) : Prop :=
  ∃ d kids, EntryFor W st.1 fl name d ∧ (∀ e ∈ kids, IsKid fl e) ∧ (d.found = false → kids = [] ∧ st'.1 = st.1) ∧
    st'.2 = (d :: kids).reverse ++ st.2 ∧ (ListOf W L → L st'.1 = L st.1 ++ namesRead (d :: kids))

theorem namesRead_append (a b : List MkDep) : namesRead (a ++ b) = namesRead a ++ namesRead b := by simp [namesRead]

theorem evalAll_log {L : σ → List Str} {fl : MkFlags} {P : MkDep → Prop} {ev : Str → σ × List MkDep → Option (σ × List MkDep)}
    (hP : ∀ d kids, d.flags = fl → (∀ e ∈ kids, IsKid fl e) → ∀ e ∈ d :: kids, P e)
    (h : ∀ n st st', ev n st = some st' → OneRead W L fl n st st') :
    ∀ ns st st', evalAll ev ns st = some st' → ∃ log, (∀ e ∈ log, P e) ∧ ReadsInOrder W fl st.1 ns log st'.1 ∧ st'.2 = log.reverse ++ st.2 ∧
      (ListOf W L → L st'.1 = L st.1 ++ namesRead log) := by
  intro ns
  induction ns with
  | nil =>
    intro st st' he
    cases he
    exact ⟨[], by simp, .nil, by simp, by simp [namesRead]⟩
  | cons n ns ih =>
    intro st st' he
    simp only [evalAll, Option.bind_eq_some_iff] at he
    obtain ⟨st1, h1, h2⟩ := he
    obtain ⟨d, kids, a1, a2, a3, a4, a5⟩ := h n st st1 h1
    obtain ⟨log, b0, b1, b2, b3⟩ := ih st1 st' h2
    refine ⟨d :: (kids ++ log), ?_, ?_, ?_, ?_⟩
    · intro e he
      rw [← List.cons_append, List.mem_append] at he
      rcases he with he | he
      · obtain ⟨f, b, _, hd⟩ := a1
        exact hP d kids (by rw [hd]) a2 e he
      · exact b0 e he
    · cases hf : d.found with
      | false =>
        obtain ⟨rfl, h5⟩ := a3 hf
        rw [h5] at b1
        exact .missing a1 hf b1
      | true => exact .read a1 hf a2 b1
    · rw [b2, a4]; simp
    · intro hW
      rw [b3 hW, a5 hW, List.append_assoc, ← namesRead_append]
      rfl

theorem runScript_log {L : σ → List Str} {nd : Bool} {ev : MkFlags → Str → σ × List MkDep → Option (σ × List MkDep)}
    (h : ∀ fl n st st', ev fl n st = some st' → OneRead W L fl n st st') :
    ∀ (sc : Script σ) ch st', runScript ev nd sc ch = some st' →
      ∃ log, (∀ e ∈ log, IsKid { noDefault := nd } e) ∧ st'.2 = log.reverse ++ ch ∧
        (ListOf W L → ∀ l, KeepsList L l sc → L st'.1 = l ++ namesRead log) := by
  intro sc
  induction sc with
  | done s =>
    intro ch st' he
    cases he
    refine ⟨[], by simp, by simp, fun _ l hl => ?_⟩
    cases hl with
    | done hl => simp [hl, namesRead]
  | fatal => intro ch st' he; cases he
  | incl s names b k ih =>
    intro ch st' he
    simp only [runScript] at he
    split at he
    · cases he
    · rename_i st1 h1
      obtain ⟨log1, a0, a1, a2, a3⟩ := evalAll_log (P := IsKid { noDefault := nd }) (W := W) (L := L) (by
        intro d kids hd hkids e he
        rcases List.mem_cons.mp he with rfl | he
        · unfold IsKid; rw [hd]; simp
        · obtain ⟨x, y, z⟩ := hkids e he
          exact ⟨x, y, z⟩) (h _) _ _ _ h1
      obtain ⟨log2, b0, b1, b2⟩ := ih st1.1 _ _ he
      refine ⟨log1 ++ log2, ?_, ?_, ?_⟩
      · intro e he
        rcases List.mem_append.mp he with he | he
        · exact a0 e he
        · exact b0 e he
      · rw [b1, a2]; simp
      · intro hW l hl
        cases hl with
        | incl hl hk =>
          rw [b2 hW _ (hk st1.1), a3 hW, hl, namesRead_append, List.append_assoc]

theorem evalMakefile_log {L : σ → List Str} : ∀ fds fl n st st', evalMakefile W fds fl n st = some st' → OneRead W L fl n st st' := by
  intro fds
  induction fds with
  | zero => intro fl n st st' h; cases h
  | succ fds ih =>
    intro fl n ⟨s, ch⟩ st' h
    simp only [evalMakefile] at h
    have hloc := (C99_search W s fl n (findMakefile W s fl n).1 (findMakefile W s fl n).2).mp rfl
    generalize findMakefile W s fl n = r at hloc h
    obtain ⟨f, b⟩ := r
    simp only at h hloc
    cases b with
    | false =>
      simp only [Bool.false_eq_true, if_false, Option.some.injEq] at h
      subst h
      exact ⟨_, [], ⟨f, false, hloc, rfl⟩, by simp, by simp, by simp, by simp [namesRead]⟩
    | true =>
      simp only [if_true] at h
      obtain ⟨log, a1, a2, a3⟩ := runScript_log (W := W) (L := L) ih _ _ _ h
      refine ⟨⟨(W.known s f).getD f, fl, true⟩, log, ⟨f, true, hloc, rfl⟩, ?_, by simp, ?_, ?_⟩
      · intro e he
        exact a1 e he
      · rw [a2]; simp
      · intro hW
        rw [a3 hW _ (hW.2 _ _ _), hW.1]; simp [namesRead]

/-- **C99** `MAKEFILE_LIST` has the makefiles read, in the order in which their reading began, if they do not assign to it. -/
theorem C99_list {L : σ → List Str} (hL : ListOf W L)
    {fds : Nat} {fl : MkFlags} {n : Str} {s s' : σ} {ch ch' : List MkDep} (h : evalMakefile W fds fl n (s, ch) = some (s', ch')) :
    ∃ log, ch' = log.reverse ++ ch ∧ L s' = L s ++ namesRead log := by
  obtain ⟨d, kids, _, _, _, a4, a5⟩ := evalMakefile_log (L := L) _ _ _ _ _ h
  exact ⟨_, a4, a5 hL⟩

theorem evalAll_order {fds : Nat} {fl : MkFlags} {ns : List Str} {st st' : σ × List MkDep}
    (h : evalAll (evalMakefile W fds fl) ns st = some st') : ∃ log, ReadsInOrder W fl st.1 ns log st'.1 ∧ st'.2 = log.reverse ++ st.2 := by
  obtain ⟨log, _, h1, h2, _⟩ := evalAll_log (W := W) (L := fun _ => []) (P := fun _ => True) (by simp) (evalMakefile_log fds fl) _ _ _ h
  exact ⟨log, h1, h2⟩

/-- **C99** With makefiles given by options: the words of `MAKEFILES` are read first, and the default goal does not come from them or from what
they include; then the makefiles given, in order; no default makefile is looked for. -/
theorem C99_given {fds : Nat} {parent : Bool} {vars fs : List Str} {s s' : σ} {ch' : List MkDep} (hfs : fs ≠ [])
    (h : readAllMakefiles W fds parent vars fs s = some (s', ch')) :
    ∃ s1 log1 log2, ReadsInOrder W { noDefault := true, included := true, dontcare := true } s vars log1 s1 ∧
      ReadsInOrder W {} s1 fs log2 s' ∧ ch' = (log1 ++ log2).reverse := by
  unfold readAllMakefiles at h
  split at h
  · cases h
  · rename_i st1 h1
    split at h
    · cases h
    · rename_i st2 h2
      rw [if_neg hfs, Option.some.injEq] at h
      subst h
      obtain ⟨log1, a1, a2⟩ := evalAll_order h1
      obtain ⟨log2, b1, b2⟩ := evalAll_order h2
      exact ⟨st1.1, log1, log2, a1, b1, by simp only at b2 a2; rw [b2, a2]; simp⟩

theorem default_find (s : σ) :
    (∀ n, defaultMakefiles.find? (W.here s) = some n → DefaultHere W s n) ∧ (defaultMakefiles.find? (W.here s) = none → NoneHere W s) := by
  unfold defaultMakefiles DefaultHere NoneHere
  generalize "GNUmakefile".toList = a
  generalize "makefile".toList = b
  generalize "Makefile".toList = c
  cases ha : W.here s a <;> cases hb : W.here s b <;> cases hc : W.here s c <;> simp [List.find?, ha, hb, hc]
  all_goals try (rintro n rfl; simp [ha, hb, hc])

/-- The result of the search. -/
def SearchDone (W : MkWorld σ) (parent : Bool) (st : σ × List MkDep) (r : MkSearch) (st' : σ × List MkDep) : Prop :=
  ∃ log s1, (parent = false → s1 = st.1 ∧ log = []) ∧ Climbs W st.1 log s1 ∧
    match r with
    | .read => ∃ c n d log', W.cwd s1 = some c ∧ DefaultHere W s1 n ∧ ReadsInOrder W {} s1 [n] (d :: log') st'.1 ∧ d.found = true ∧
        st'.2 = (log ++ d :: log').reverse ++ st.2
    | .notFound => (W.cwd s1 = none ∨ (NoneHere W s1 ∧ Stays W parent s1)) ∧ st'.1 = s1 ∧ st'.2 = log.reverse ++ st.2
    | .unreadable => ∃ c n d, W.cwd s1 = some c ∧ DefaultHere W s1 n ∧ EntryFor W s1 {} n d ∧ d.found = false ∧ Stays W parent s1 ∧ st'.1 = s1 ∧
        st'.2 = (log ++ [d]).reverse ++ st.2

theorem search_step {parent : Bool} {s s1 : σ} {ch ch1 : List MkDep} {r : MkSearch} {st' : σ × List MkDep} {pre : List MkDep}
    (hp : parent = true) (hc : ch1 = pre.reverse ++ ch) (hcl : ∀ log s2, Climbs W s1 log s2 → Climbs W s (pre ++ log) s2)
    (h : SearchDone W parent (s1, ch1) r st') : SearchDone W parent (s, ch) r st' := by
  obtain ⟨log, s2, _, h2, h3⟩ := h
  refine ⟨pre ++ log, s2, by simp [hp], hcl _ _ h2, ?_⟩
  subst hc
  cases r with
  | read =>
    obtain ⟨c, n, d, log', a1, a2, a3, a4, a5⟩ := h3
    exact ⟨c, n, d, log', a1, a2, a3, a4, by rw [a5]; simp⟩
  | notFound =>
    obtain ⟨a1, a2, a3⟩ := h3
    exact ⟨a1, a2, by rw [a3]; simp⟩
  | unreadable =>
    obtain ⟨c, n, d, a1, a2, a3, a4, a5, a6, a7⟩ := h3
    exact ⟨c, n, d, a1, a2, a3, a4, a5, a6, by rw [a7]; simp⟩

theorem entry_found {s : σ} {fl : MkFlags} {n : Str} {d : MkDep} (h : EntryFor W s fl n d) : d.found = (findMakefile W s fl n).2 := by
  obtain ⟨f, b, h1, rfl⟩ := h
  rw [(C99_search W s fl n f b).mpr h1]

theorem stays_stop {parent : Bool} {s : σ} {c : Str} (hc : W.cwd s = some c) (h : (!parent || c == ['/']) = true) : Stays W parent s := by
  simp only [Bool.or_eq_true, Bool.not_eq_true', beq_iff_eq] at h
  rcases h with h | rfl
  · exact .inl h
  · exact .inr (.inl hc)

theorem search_done (fds : Nat) (parent : Bool) (st : σ × List MkDep) : ∀ r st', searchDefault W fds parent st = some (r, st') →
    SearchDone W parent st r st' := by
  have missing : ∀ {st st1 : σ × List MkDep} {n : Str}, evalMakefile W fds {} n st = some st1 → ¬ (findMakefile W st.1 {} n).2 = true →
      ∃ d, EntryFor W st.1 {} n d ∧ d.found = false ∧ st1.1 = st.1 ∧ st1.2 = d :: st.2 := by
    intro st st1 n h hf
    obtain ⟨d, kids, a1, a2, a3, a4, _⟩ := evalMakefile_log (W := W) (L := fun _ => []) _ _ _ _ _ h
    have hd : d.found = false := by rw [entry_found a1]; simpa using hf
    obtain ⟨rfl, a5⟩ := a3 hd
    exact ⟨d, a1, hd, a5, by simpa using a4⟩
  fun_induction searchDefault W fds parent st
  case case1 x hc =>
    intro r st' h; cases h
    exact ⟨[], x.1, fun _ => ⟨rfl, rfl⟩, .here, .inl hc, rfl, rfl⟩
  case case2 x c hc hf hs =>
    intro r st' h; cases h
    exact ⟨[], x.1, fun _ => ⟨rfl, rfl⟩, .here, .inr ⟨(default_find _).2 hf, stays_stop hc hs⟩, rfl, rfl⟩
  case case3 x c hc hf hs hu =>
    intro r st' h; cases h
    exact ⟨[], x.1, fun _ => ⟨rfl, rfl⟩, .here, .inr ⟨(default_find _).2 hf, .inr (.inr hu)⟩, rfl, rfl⟩
  case case4 hs => simp at hs
  case case5 x c hc hf hs s1 hu hr ih =>
    intro r st' h
    refine search_step (pre := []) ?_ rfl ?_ (ih r st' h)
    · revert hs; cases parent <;> simp
    · intro log s2 hcl
      exact .up hc hr ((default_find _).2 hf) hu hcl
  case case6 => intro r st' h; cases h
  case case7 x c hc n hf st1 he hfound =>
    intro r st' h; cases h
    obtain ⟨d, kids, a1, a2, a3, a4, _⟩ := evalMakefile_log (W := W) (L := fun _ => []) _ _ _ _ _ he
    have hd : d.found = true := by rw [entry_found a1]; exact hfound
    refine ⟨[], x.1, fun _ => ⟨rfl, rfl⟩, .here, c, n, d, kids, hc, (default_find _).1 _ hf, ?_, hd, by rw [a4]; simp⟩
    have := ReadsInOrder.read (ns := []) (log := []) (s1 := st1.1) a1 hd a2 .nil
    rwa [List.append_nil] at this
  case case8 x c hc n hf st1 he hfound hs =>
    intro r st' h; cases h
    obtain ⟨d, a1, a2, a3, a4⟩ := missing he hfound
    exact ⟨[], x.1, fun _ => ⟨rfl, rfl⟩, .here, c, n, d, hc, (default_find _).1 _ hf, a1, a2, stays_stop hc hs, a3, by rw [a4]; simp⟩
  case case9 x c hc n hf st1 he hfound hs hu =>
    intro r st' h; cases h
    obtain ⟨d, a1, a2, a3, a4⟩ := missing he hfound
    exact ⟨[], x.1, fun _ => ⟨rfl, rfl⟩, .here, c, n, d, hc, (default_find _).1 _ hf, a1, a2, .inr (.inr hu), a3, by rw [a4]; simp⟩
  case case10 hs => simp at hs
  case case11 x c hc n hf st1 he hfound hs s1 hu hr ih =>
    intro r st' h
    obtain ⟨d, a1, a2, a3, a4⟩ := missing he hfound
    refine search_step (pre := [d]) ?_ (by rw [a4]; rfl) ?_ (ih r st' h)
    · revert hs; cases parent <;> simp
    · intro log s2 hcl
      exact .unreadable hc hr ((default_find _).1 _ hf) a1 a2 hu hcl

/-- **C99** Without makefiles given by options: after the words of `MAKEFILES` the default makefile is read, `GNUmakefile` before `makefile` before
`Makefile`, in the working directory or, if asked for, the nearest directory above that has one that can be read. -/
theorem C99_default {fds : Nat} {parent : Bool} {vars : List Str} {s s' : σ} {ch' : List MkDep}
    (h : readAllMakefiles W fds parent vars [] s = some (s', ch')) :
    ∃ s1 log1 log2 more, ReadsInOrder W { noDefault := true, included := true, dontcare := true } s vars log1 s1 ∧
      DefaultRead W parent s1 log2 more s' ∧ ch' = (log1 ++ log2).reverse ++ more := by
  unfold readAllMakefiles at h
  split at h
  · cases h
  · rename_i st1 h1
    obtain ⟨log1, a1, a2⟩ := evalAll_order h1
    simp only [evalAll, if_true] at h
    split at h
    · cases h
    · rename_i st2 h2
      cases h
      obtain ⟨log, s1, b1, b2, c, n, d, b3, b4, b5, b6, b7, b8, b9⟩ := search_done _ _ _ _ _ h2
      refine ⟨st1.1, log1, log ++ [d], defaultDeps, a1, ?_, ?_⟩
      · rw [b8]; exact .unreadable b1 b2 b3 b4 b5 b6 b7
      · rw [b9, a2]; simp [defaultDeps, defaultMakefiles]
    · rename_i r st2 hr h2
      cases h
      cases r with
      | unreadable => exact (hr rfl).elim
      | read =>
        obtain ⟨log, s1, b1, b2, c, n, d, log', b3, b4, b5, b6, b7⟩ := search_done _ _ _ _ _ h2
        exact ⟨st1.1, log1, log ++ d :: log', [], a1, .read b1 b2 b3 b4 b5 b6, by simp only at b7; rw [b7, a2]; simp⟩
      | notFound =>
        obtain ⟨log, s1, b1, b2, b3, b4, b5⟩ := search_done _ _ _ _ _ h2
        simp only at b4 b5
        refine ⟨st1.1, log1, log, [], a1, ?_, by rw [b5, a2]; simp⟩
        rw [b4]; exact .none b1 b2 b3

/-- C99 fails where there is no makefile: make does not try to make one of the default names, whatever rules there are for them. -/
theorem C99_not_remade (W : MkWorld σ) (fds : Nat) {s : σ} (h : NoneHere W s) : readAllMakefiles W fds false [] [] s = some (s, []) := by
  unfold readAllMakefiles
  simp only [evalAll, if_true]
  have hf : defaultMakefiles.find? (W.here s) = none := by
    unfold defaultMakefiles
    obtain ⟨h1, h2, h3⟩ := h
    generalize "GNUmakefile".toList = a at *
    generalize "makefile".toList = b at *
    generalize "Makefile".toList = c at *
    simp [List.find?, h1, h2, h3]
  have : searchDefault W fds false (s, []) = some (.notFound, (s, [])) := by
    rw [searchDefault.eq_def]
    split
    · rfl
    · simp [hf]
  rw [this]

/-- **C99** A makefile that includes itself always ends make with a fatal error, whatever the number of files that can be open. -/
theorem C99_endless {fds : Nat} {n : Str} {fl : MkFlags} {st : σ × List MkDep}
    (ho : ∀ s, W.opens s n = true) (hk : ∀ s, W.known s n = none) (hn : n.head? ≠ some '~')
    (hsc : ∀ s b, ∃ s' names e k, n ∈ names ∧ W.script s n b = .incl s' names e k) : evalMakefile W fds fl n st = none := by
  induction fds generalizing fl st with
  | zero => rfl
  | succ fds ih =>
    obtain ⟨s, ch⟩ := st
    have hf : findMakefile W s fl n = (n, true) := by
      unfold findMakefile
      have : (name : Str) → name.head? ≠ some '~' → (name.head? == some '~') = false := by
        intro m hm; simpa using hm
      simp [this n hn, ho s]
    have key : ∀ (names : List Str) (e : Bool) (st : σ × List MkDep), n ∈ names →
        evalAll (evalMakefile W fds { noDefault := fl.noDefault, included := true, dontcare := e, noTilde := true }) names st = none := by
      intro names e
      induction names with
      | nil => intro st h; cases h
      | cons m ms ih2 =>
        intro st h
        simp only [evalAll]
        by_cases hm : m = n
        · subst hm; rw [ih]; rfl
        · have : n ∈ ms := by
            rcases List.mem_cons.mp h with h | h
            · exact absurd h.symm hm
            · exact h
          cases evalMakefile W fds _ m st with
          | none => rfl
          | some st1 => exact ih2 st1 this
    simp only [evalMakefile, hf, hk, Option.getD_none, if_true]
    obtain ⟨s', names, e, k, h1, h2⟩ := hsc (W.note s n) (!fl.noDefault)
    rw [h2]
    simp only [runScript, key names e _ h1]

/-- **C99** The search path for includes: the directories of `-I`, with tildes expanded, and the default ones, in this order, without those
that are none, and without trailing slashes. -/
theorem C99_path (isDir : Str → Bool) (tilde : Str → Option Str) (args defaults : List Str) :
    ∃ ds, ds = (args.map fun d => if d.head? = some '~' then (tilde d).getD d else d) ++ defaults ∧
      (includePath isDir tilde args defaults).length = (ds.filter isDir).length ∧
      ∀ (i : Nat) (d : Str), (ds.filter isDir)[i]? = some d → ∃ d' sl, (includePath isDir tilde args defaults)[i]? = some d' ∧ d = d' ++ sl ∧
        (∀ c ∈ sl, c = '/') ∧ (d ≠ [] → d' ≠ []) ∧ (d'.getLast? = some '/' → d' = ['/']) := by
  refine ⟨_, rfl, ?_, ?_⟩
  · simp [includePath]
  · intro i d hd
    refine ⟨chopSlashes d, ?_⟩
    have h1 : (includePath isDir tilde args defaults)[i]? = some (chopSlashes d) := by
      unfold includePath
      rw [List.getElem?_map]
      simp only [beq_iff_eq] at hd ⊢
      rw [hd]; rfl
    cases d with
    | nil => exact ⟨[], h1, rfl, by simp, by simp, by simp [chopSlashes]⟩
    | cons c d =>
      refine ⟨(d.reverse.takeWhile (· == '/')).reverse, h1, ?_, ?_, ?_, ?_⟩
      · simp only [chopSlashes, List.cons_append, ← List.reverse_append, List.takeWhile_append_dropWhile, List.reverse_reverse]
      · intro x hx
        have := mem_takeWhile_imp (List.mem_reverse.mp hx)
        simpa using this
      · simp [chopSlashes]
      · intro hl
        simp only [chopSlashes] at hl ⊢
        cases he : d.reverse.dropWhile (· == '/') with
        | nil => rw [he] at hl; simp at hl; simp [hl]
        | cons x xs =>
          rw [he] at hl
          have := List.head?_dropWhile_not (· == '/') d.reverse
          rw [he] at this
          simp at this
          have hx : (c :: (x :: xs).reverse).getLast? = some x := by
            rw [List.reverse_cons, ← List.cons_append, List.getLast?_append]
            simp
          rw [hx] at hl
          exact absurd (Option.some.inj hl) this

/-! ## Examples -/

/-- A world with one directory below the root: the state is its depth and the list of makefiles; `a` is in `inc`, `Makefile` (in the root) includes it. -/
def tinyWorld : MkWorld (Nat × List Str) where
  opens s n := n == "inc/a".toList || n == "Makefile".toList && s.1 == 0 || n == "loop".toList
  tilde _ _ := none
  dirs := ["none".toList, "inc".toList]
  known _ _ := none
  note s n := (s.1, s.2 ++ [n])
  script s n _ :=
    if n = "Makefile".toList then .incl s ["a".toList, "b".toList] true .done
    else if n = "loop".toList then .incl s ["loop".toList] true .done else .done s
  cwd s := some (if s.1 = 0 then "/".toList else "/d".toList)
  here s n := n == "Makefile".toList && s.1 == 0
  up s := some (s.1 - 1, s.2)
  depth s := s.1
  up_depth := by
    intro s s' h hc
    cases h
    have : s.1 ≠ 0 := by intro h0; apply hc; simp [h0]
    show s.1 - 1 < s.1
    omega

/-- The list of names is one that grows by `note` only. -/
example : ListOf tinyWorld (·.2) := by
  refine ⟨fun _ _ => rfl, fun s n b => ?_⟩
  simp only [tinyWorld]
  split
  · exact .incl rfl fun s' => .done rfl
  · split
    · exact .incl rfl fun s' => .done rfl
    · exact .done rfl

/-- `make -c` in the directory below: the makefile of the root is read, and from it `inc/a`; `b` is missing. -/
example : (evalMakefile tinyWorld 5 {} "Makefile".toList ((0, []), [])).map (fun r => (r.1, r.2.map fun d => (d.name, d.found))) =
    some ((0, ["Makefile".toList, "inc/a".toList]), [("b".toList, false), ("inc/a".toList, true), ("Makefile".toList, true)]) := by decide +kernel

example : NoneHere tinyWorld (1, []) ∧ DefaultHere tinyWorld (0, []) "Makefile".toList := by
  unfold NoneHere DefaultHere; decide +kernel

example : evalMakefile tinyWorld 100 {} "loop".toList ((0, []), []) = none :=
  C99_endless (fun _ => rfl) (fun _ => rfl) (by decide) fun s b => ⟨s, ["loop".toList], true, .done, by simp, by
    have h1 : ("loop".toList = "Makefile".toList) = False := by decide
    simp only [tinyWorld, h1, if_false, if_true]⟩

/-- C99: if there is no makefile anywhere above, `make -c` goes on in the root directory. -/
theorem C99_left_in_root {W : MkWorld σ} {fds : Nat} {s s' : σ} {ch' : List MkDep} (hN : ∀ s, NoneHere W s) (hc : ∀ s, W.cwd s ≠ none)
    (hu : ∀ s, W.up s ≠ none) (h : readAllMakefiles W fds true [] [] s = some (s', ch')) : W.cwd s' = some ['/'] ∧ ch' = [] := by
  have hno : ∀ s n, ¬ DefaultHere W s n := by
    intro s n ⟨h1, h2⟩
    obtain ⟨a, b, c⟩ := hN s
    rcases h2 with rfl | ⟨rfl, _⟩ | ⟨rfl, _⟩
    · rw [a] at h1; cases h1
    · rw [b] at h1; cases h1
    · rw [c] at h1; cases h1
  have hcl : ∀ s log s2, Climbs W s log s2 → log = [] := by
    intro s log s2 h
    induction h with
    | here => rfl
    | up _ _ _ _ _ ih => exact ih
    | unreadable _ _ h _ _ _ _ _ => exact absurd h (hno _ _)
  obtain ⟨s1, log1, log2, more, h1, h2, h3⟩ := C99_default h
  cases h1
  cases h2 with
  | read _ _ _ h => exact absurd h (hno _ _)
  | unreadable _ _ _ h => exact absurd h (hno _ _)
  | none _ h1 h2 =>
    rcases h2 with h2 | ⟨_, h2 | h2 | h2⟩
    · exact absurd h2 (hc _)
    · cases h2
    · exact ⟨h2, by rw [h3, hcl _ _ _ h1]; rfl⟩
    · exact absurd h2 (hu _)

end Remake
