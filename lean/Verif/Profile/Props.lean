import Verif.Profile.Lemmas3
import Verif.Archive.Lemmas

/-!
# C129, C130: profiles
-/
set_option linter.unusedVariables false
namespace Remake
open Remake.Spec

/-! ## A run to look at -/

/-- A time of the year 2001. -/
def sampleTime (ns : Nat) (h : ns < 10 ^ 9) : Time := ⟨1000000000, ns, h⟩

/-- A run: `all` waits for `a`, whose recipe runs. -/
def sampleRun : List PEvent :=
  let t := fun ns => timestampCons 1000000000 ns
  let all := fun u st => PTarget.mk "all".toList (some "Makefile".toList) 1 u st
  let a := fun u st => PTarget.mk "a\"b\tc".toList none 0 u st
  [.push (all false .notStarted) none (t 10), .push (a false .notStarted) (some (all false .notStarted)) (t 2000),
   .stamp (a false .running) (t 5000), .pop (a false .notStarted) (t 7000), .stamp (all false .depsRunning) (t 8000),
   .stamp (a true .finished) (t 900000000), .stamp (all true .finished) (t 900007000)]

/-- Its context. -/
def sampleContext : PContext :=
  { pid := 42, jobs := -1, jobserver := false, start := timestampCons 1000000000 0, stop := timestampCons 1000000000 999999999, parentPid := 41,
    parentTarget := some "sub\\dir".toList, creator := "remake 4.3+dbg".toList, argv := ["remake".toList, "X=\"".toList],
    status := "Normal program termination".toList, directory := "/tmp".toList, goals := ["all".toList] }

theorem isStamp_sample (ns : Nat) (h : ns < 10 ^ 9) : IsStamp (timestampCons 1000000000 ns) :=
  .inr ⟨sampleTime ns h, ⟨(by decide : (0 : Int) ≤ 1000000000), (by decide : (1000000000 : Int) < 2 ^ 34)⟩, rfl⟩

theorem sampleContext_good : GoodContext sampleContext where
  creator := plain_of_all (by decide)
  status := plain_of_all (by decide)
  directory := plain_of_all (by decide)
  argv := by unfold SoftJson sampleContext softControl; decide
  goals := by unfold SoftJson sampleContext softControl; decide
  parent := fun _ => ⟨_, rfl, by unfold SoftJson softControl; decide⟩
  start := isStamp_sample 0 (by decide)
  stop := isStamp_sample 999999999 (by decide)

theorem sampleRun_good : ∀ ev ∈ sampleRun, GoodEvent ev := by
  have s1 : SoftJson "all".toList := by unfold SoftJson softControl; decide
  have s2 : SoftJson "a\"b\tc".toList := by unfold SoftJson softControl; decide
  have h1 : ∀ u st, GoodTarget (PTarget.mk "all".toList (some "Makefile".toList) 1 u st) := fun u st =>
    ⟨s1, fun f hf => by simp only [Option.some.injEq] at hf; subst hf; exact plain_of_all (by decide), by simp⟩
  have h2 : ∀ u st, GoodTarget (PTarget.mk "a\"b\tc".toList none 0 u st) := fun u st =>
    ⟨s2, fun f hf => by simp at hf, by simp⟩
  intro ev hev
  simp only [sampleRun, List.mem_cons, List.not_mem_nil, or_false] at hev
  rcases hev with rfl | rfl | rfl | rfl | rfl | rfl | rfl
  · exact ⟨h1 _ _, fun _ _ _ h => by simp at h, isStamp_sample 10 (by decide)⟩
  · exact ⟨h2 _ _, fun _ _ _ h => by simp only [PEvent.push.injEq, Option.some.injEq] at h; rw [← h.2.1]; exact h1 _ _, isStamp_sample 2000 (by decide)⟩
  · exact ⟨h2 _ _, fun _ _ _ h => by simp at h, isStamp_sample 5000 (by decide)⟩
  · exact ⟨h2 _ _, fun _ _ _ h => by simp at h, isStamp_sample 7000 (by decide)⟩
  · exact ⟨h1 _ _, fun _ _ _ h => by simp at h, isStamp_sample 8000 (by decide)⟩
  · exact ⟨h2 _ _, fun _ _ _ h => by simp at h, isStamp_sample 900000000 (by decide)⟩
  · exact ⟨h1 _ _, fun _ _ _ h => by simp at h, isStamp_sample 900007000 (by decide)⟩

/-! ## C129: the file -/

/-- The file of a run is a JSON text and says of the run what it should, with one object for each target, if the texts that are printed as they are have
no quotes, backslashes or control characters, and the others no control characters but those that are shown as blanks. -/
theorem C129_json_partial (c : PContext) (evs : List PEvent) (arrange : List PEntry → List PEntry) (hp : ∀ l, (arrange l).Perm l)
    (hc : GoodContext c) (he : ∀ ev ∈ evs, GoodEvent ev) :
    ∃ t es, es.Perm (pRun evs) ∧ pJson true c evs arrange = .file t ∧ IsJson (shownRun c es) t := by
  have hg : ∀ e ∈ arrange (pRun evs), GoodEntry e := fun e hm => run_good e.name evs he e (entry_run ((hp _).mem_iff.1 hm))
  obtain ⟨t, h1, h2⟩ := jFile_text c _ hc hg
  refine ⟨t, _, hp _, ?_, h2⟩
  unfold pJson
  rw [pInit, if_pos rfl, pSteps_some]
  simp only [if_true]
  rw [show evs.foldl pStep [] = pRun evs from rfl, h1]

example : ∃ t es, es.Perm (pRun sampleRun) ∧ pJson true sampleContext sampleRun id = .file t ∧ IsJson (shownRun sampleContext es) t :=
  C129_json_partial _ _ id (fun _ => List.Perm.refl _) sampleContext_good sampleRun_good

/-- A time is shown as its seconds with nine decimals. -/
theorem C129_stamp (a : Time) (h : a.inRange) : shownTime (timestampCons a.sec a.ns) = .num (a.sec * 10 ^ 9 + a.ns) 9 := by
  obtain ⟨h1, -, -⟩ := stamp_parts a h
  have hn := a.ok
  obtain ⟨h2, h3⟩ := h
  unfold shownTime
  rw [h1, if_neg (by omega)]
  congr 1
  omega

example : ∃ a : Time, a.inRange ∧ 0 < a.sec := ⟨sampleTime 7 (by decide), by unfold sampleTime Time.inRange; decide, by decide⟩

/-- Every target that was considered, or that another was considered for, has one entry, and no other. -/
theorem C129_each_once (evs : List PEvent) :
    ((pRun evs).map (·.name)).Nodup ∧ ∀ n, n ∈ (pRun evs).map (·.name) ↔ ∃ ev ∈ evs, n ∈ ev.names := pRun_names evs

example : (pRun sampleRun).map (·.name) = ["all".toList, "a\"b\tc".toList] := by decide +kernel

/-- The dependencies of an entry are the targets that were considered for it, in the reverse order, with all repetitions. -/
theorem C129_depends_partial (evs : List PEvent) (e : PEntry) (he : e ∈ pRun evs) : e.calls = (consideredFor e.name evs).reverse := by
  have := calls_run e.name evs
  rw [entry_run he] at this
  simpa using this

example : ∃ e ∈ pRun sampleRun, e.calls ≠ [] := by decide +kernel

/-- So a target that is considered twice for another, as it is when make waits for a command, is listed twice. -/
theorem C129_depends_repeated (t p : PTarget) (n₁ n₂ : Nat) (hn : t.name ≠ p.name) :
    ∃ e ∈ pRun [.push t (some p) n₁, .push t (some p) n₂], e.name = p.name ∧ e.calls = [t.name, t.name] := by
  have h := (pRun_names [.push t (some p) n₁, .push t (some p) n₂]).2 p.name
  have h1 := h.2 ⟨_, List.mem_cons_self .., by simp [PEvent.names]⟩
  obtain ⟨e, he, hen⟩ := List.mem_map.1 h1
  refine ⟨e, he, hen, ?_⟩
  rw [C129_depends_partial _ e he, hen]
  simp [consideredFor]

/-- The place of an entry is that of the target when it was left last, or when it was first met if it was never left. -/
theorem C129_place (evs : List PEvent) (e : PEntry) (he : e ∈ pRun evs) :
    ∃ t, (lastLeft e.name evs).or (firstNamed e.name evs) = some t ∧ t.name = e.name ∧ e.file = t.file ∧ e.line = t.line := by
  have := place_run e.name evs
  rw [entry_run he] at this
  cases h : (lastLeft e.name evs).or (firstNamed e.name evs) with
  | none => rw [h] at this; simp [placeOf] at this
  | some t =>
    rw [h] at this
    simp only [placeOf, Option.map_some, Option.some.injEq, Prod.mk.injEq] at this
    refine ⟨t, rfl, ?_, this.1, this.2⟩
    rw [Option.or_eq_some_iff] at h
    rcases h with h | ⟨-, h⟩
    · unfold lastLeft at h
      have hm := List.mem_of_getLast? h
      rw [List.mem_filterMap] at hm
      obtain ⟨ev, -, hev⟩ := hm
      cases ev with
      | pop x now =>
        simp only at hev
        split at hev
        · simp only [Option.some.injEq] at hev
          subst hev; assumption
        · simp at hev
      | push => simp at hev
      | stamp => simp at hev
    · clear this he
      induction evs with
      | nil => simp [firstNamed] at h
      | cons ev evs ih =>
        simp only [firstNamed] at h
        split at h
        · simp only [Option.some.injEq] at h
          subst h; assumption
        · cases ev with
          | push x parent now =>
            cases parent with
            | none => exact ih h
            | some p =>
              simp only at h
              split at h
              · simp only [Option.some.injEq] at h
                subst h; assumption
              · exact ih h
          | pop => exact ih h
          | stamp => exact ih h

example : (pRun sampleRun).map (fun e => (e.file, e.line)) = [(some "Makefile".toList, 1), (none, 0)] := by decide +kernel

/-- The times of an entry are those when the target was first seen in each state. -/
theorem C129_times (evs : List PEvent) (h : ∀ ev ∈ evs, 0 < ev.now ∧ (ev.target.updated = true → ev.target.state = .finished)) (e : PEntry)
    (he : e ∈ pRun evs) :
    e.start = firstIn e.name .notStarted evs ∧ e.deps = firstIn e.name .depsRunning evs ∧ e.recipe = firstIn e.name .running evs ∧
      e.stop = firstIn e.name .finished evs := by
  have := stamps_run e.name evs h
  rw [entry_run he] at this
  simpa [stampsOf] using this

example : (∀ ev ∈ sampleRun, 0 < ev.now ∧ (ev.target.updated = true → ev.target.state = .finished)) ∧
    ∃ e ∈ pRun sampleRun, e.start ≠ 0 ∧ e.recipe ≠ 0 ∧ e.stop ≠ 0 := by decide +kernel

/-- If the clock does not go back and the target goes through its states in order, the times of the entry are in order. -/
theorem C129_order_partial (evs : List PEvent) (h : ∀ ev ∈ evs, 0 < ev.now ∧ (ev.target.updated = true → ev.target.state = .finished))
    (hm : evs.Pairwise fun x y => x.now ≤ y.now) (e : PEntry) (he : e ∈ pRun evs)
    (hr : evs.Pairwise fun x y => x.target.name = e.name → y.target.name = e.name → x.target.state.rank ≤ y.target.state.rank) :
    (e.deps ≠ 0 → e.start ≤ e.deps) ∧ (e.recipe ≠ 0 → e.start ≤ e.recipe ∧ e.deps ≤ e.recipe) ∧
      (e.stop ≠ 0 → e.start ≤ e.stop ∧ e.deps ≤ e.stop ∧ e.recipe ≤ e.stop) := by
  obtain ⟨h1, h2, h3, h4⟩ := C129_times evs h e he
  have key : ∀ a b : CmdState, a.rank < b.rank → firstIn e.name b evs ≠ 0 → firstIn e.name a evs ≤ firstIn e.name b evs := by
    intro a b hab hb
    by_cases ha : firstIn e.name a evs = 0
    · omega
    · exact firstIn_le e.name a b hab evs hm hr ha hb
  rw [h1, h2, h3, h4]
  exact ⟨key _ _ (by decide), fun h => ⟨key _ _ (by decide) h, key _ _ (by decide) h⟩,
    fun h => ⟨key _ _ (by decide) h, key _ _ (by decide) h, key _ _ (by decide) h⟩⟩

example : (sampleRun.Pairwise fun x y => x.now ≤ y.now) ∧ ∃ e ∈ pRun sampleRun, e.deps ≠ 0 ∧
    sampleRun.Pairwise fun x y => x.target.name = e.name → y.target.name = e.name → x.target.state.rank ≤ y.target.state.rank := by
  decide +kernel

/-! ## How long it took -/

/-- The times that the profile gives for a target and for its recipe are the numbers of microseconds from its start, or the start of the recipe, to its end
if both are in one second. -/
theorem C129_elapsed_partial (evs : List PEvent) (e : PEntry) (he : e ∈ pRun evs) (a b : Time) (ha : a.inRange) (hb : b.inRange)
    (el : Nat) (hs : (e.start, e.total) = (timestampCons a.sec a.ns, el) ∨ (e.recipe, e.inRecipe) = (timestampCons a.sec a.ns, el)) (ht : e.stop = timestampCons b.sec b.ns) (h : a.sec = b.sec) (hn : a.ns ≤ b.ns) :
    el = (b.ns - a.ns) / 1000 := by
  obtain ⟨h1, h1'⟩ := run_elapsed _ _ _ (entry_run he)
  obtain ⟨pa, -, -⟩ := stamp_parts a ha
  obtain ⟨pb, -, -⟩ := stamp_parts b hb
  have hel : el = stampElapsed (timestampCons a.sec a.ns) (timestampCons b.sec b.ns) := by
    simp only [Prod.mk.injEq] at hs
    rcases hs with ⟨hs, rfl⟩ | ⟨hs, rfl⟩
    · rw [h1 (by rw [hs, pa]; omega) (by rw [ht, pb]; omega), hs, ht]
    · rw [h1' (by rw [hs, pa]; omega) (by rw [ht, pb]; omega), hs, ht]
  rw [hel, stampElapsed_eq a b ha hb (by unfold Time.before; omega), h]
  omega

example : ∃ e ∈ pRun sampleRun, e.start = timestampCons 1000000000 10 ∧ e.stop = timestampCons 1000000000 900007000 ∧ e.total = 900006 := by
  decide +kernel

/-- Otherwise they are too long, by 73.7 milliseconds for every second that the clock went on. -/
theorem C129_elapsed_wrong (evs : List PEvent) (e : PEntry) (he : e ∈ pRun evs) (a b : Time) (ha : a.inRange) (hb : b.inRange)
    (el : Nat) (hs : (e.start, e.total) = (timestampCons a.sec a.ns, el) ∨ (e.recipe, e.inRecipe) = (timestampCons a.sec a.ns, el)) (ht : e.stop = timestampCons b.sec b.ns) (h : a.sec < b.sec) :
    (el : Int) = ((b.sec - a.sec) * 10 ^ 9 + b.ns - a.ns + (b.sec - a.sec) * 73741824) / 1000 ∧
      ((b.sec - a.sec) * 10 ^ 9 + b.ns - a.ns) / 1000 + 73741 * (b.sec - a.sec) ≤ el := by
  obtain ⟨h1, h1'⟩ := run_elapsed _ _ _ (entry_run he)
  obtain ⟨pa, -, -⟩ := stamp_parts a ha
  obtain ⟨pb, -, -⟩ := stamp_parts b hb
  have hna := a.ok
  have hnb := b.ok
  have hel : el = stampElapsed (timestampCons a.sec a.ns) (timestampCons b.sec b.ns) := by
    simp only [Prod.mk.injEq] at hs
    rcases hs with ⟨hs, rfl⟩ | ⟨hs, rfl⟩
    · rw [h1 (by rw [hs, pa]; omega) (by rw [ht, pb]; omega), hs, ht]
    · rw [h1' (by rw [hs, pa]; omega) (by rw [ht, pb]; omega), hs, ht]
  rw [hel, stampElapsed_eq a b ha hb (by unfold Time.before; omega)]
  omega

/-- A target that takes two seconds. -/
def sampleLong : List PEvent :=
  let t := fun u st => PTarget.mk "x".toList none 0 u st
  [.push (t false .notStarted) none (timestampCons 1000000000 0), .stamp (t true .finished) (timestampCons 1000000002 0)]

example : ∃ e ∈ pRun sampleLong, e.start = timestampCons 1000000000 0 ∧ e.stop = timestampCons 1000000002 0 ∧ e.total = 2147483 := by
  decide +kernel

/-! ## What goes wrong -/

/-- If the name of the working directory has an odd number of quotes, the file is not JSON, though with another name of the directory it would be. -/
theorem C129_quote (c : PContext) (evs : List PEvent) (arrange : List PEntry → List PEntry) (hp : ∀ l, (arrange l).Perm l)
    (hc : GoodContext { c with directory := [] }) (he : ∀ ev ∈ evs, GoodEvent ev)
    (hb : ∀ t, pJson true { c with directory := [] } evs arrange = .file t → '\\' ∉ t)
    (hd : c.directory.count '"' % 2 = 1) (hd' : '\\' ∉ c.directory) :
    ∃ t, pJson true c evs arrange = .file t ∧ ∀ v, ¬ IsJson v t := by
  obtain ⟨t, es, -, h1, h2⟩ := C129_json_partial _ evs arrange hp hc he
  have hn := hb t h1
  have h3 := quotes_even_json h2 hn
  have hj : ∀ c', pJson true c' evs arrange = match jFile c' (arrange (pRun evs)) with | none => .crash | some t => .file t := by
    intro c'
    unfold pJson
    rw [pInit, if_pos rfl, pSteps_some]
    simp only [if_true]
    rfl
  rw [hj] at h1
  cases hf : jFile { c with directory := [] } (arrange (pRun evs)) with
  | none => rw [hf] at h1; simp at h1
  | some t' =>
    rw [hf] at h1
    simp only [PRes.file.injEq] at h1
    subst h1
    obtain ⟨p, s, h4, h5⟩ := jFile_directory _ _ hf
    have h6 : jFile c (arrange (pRun evs)) = some (p ++ c.directory ++ s) := h5 c.directory
    refine ⟨p ++ c.directory ++ s, by rw [hj, h6], fun v hv => ?_⟩
    simp only [List.append_nil] at h4
    rw [h4] at h3 hn
    have h7 := quotes_even_json hv (by
      simp only [List.mem_append, not_or] at hn ⊢
      exact ⟨⟨hn.1, hd'⟩, hn.2⟩)
    simp only [List.count_append] at h3 h7
    omega

/-- The context without a backslash, in a directory with a quote in its name. -/
def quoteContext : PContext :=
  { pid := 42, jobs := 1, jobserver := false, start := timestampCons 1000000000 0, stop := timestampCons 1000000000 1, parentPid := 0,
    parentTarget := none, creator := "remake 4.3+dbg".toList, argv := ["remake".toList], status := "".toList, directory := "/tmp/a\"b".toList,
    goals := ["x".toList] }

theorem quoteContext_good : GoodContext { quoteContext with directory := [] } where
  creator := plain_of_all (by decide)
  status := plain_of_all (by decide)
  directory := plain_of_all (by decide)
  argv := by unfold SoftJson quoteContext softControl; decide
  goals := by unfold SoftJson quoteContext softControl; decide
  parent := fun h => absurd rfl h
  start := isStamp_sample 0 (by decide)
  stop := isStamp_sample 1 (by decide)

example : ∃ t, pJson true quoteContext [] id = .file t ∧ ∀ v, ¬ IsJson v t :=
  C129_quote quoteContext [] id (fun _ => List.Perm.refl _) quoteContext_good (fun _ h => by cases h)
    (fun t ht => by
      have h : (match pJson true { quoteContext with directory := [] } [] id with | .file t => t.all (· ≠ '\\') | .crash => true) = true := by
        decide +kernel
      rw [ht] at h
      intro hm
      have := List.all_eq_true.1 h _ hm
      simp at this)
    (by decide) (by decide)

/-- If the file cannot be opened, make does not go on without a profile: it crashes, in every run. -/
theorem C129_unopened (c : PContext) (evs : List PEvent) (arrange : List PEntry → List PEntry) : pJson false c evs arrange = .crash := by
  unfold pJson
  cases evs <;> rfl

/-- If make was started from a command for a target whose name it does not accept, it crashes, in every run. -/
theorem C129_parent_null (c : PContext) (evs : List PEvent) (arrange : List PEntry → List PEntry) (pid : Nat) (target : Str) (hpid : 0 < pid)
    (h1 : c.parentPid = pid) (h2 : c.parentTarget = parentTarget (some ('-' :: target))) : pJson true c evs arrange = .crash := by
  have : ∀ es, jFile c es = none := by
    intro es
    unfold jFile jParent
    rw [if_neg (by omega), h2]
    simp [parentTarget]
  unfold pJson
  rw [pInit, if_pos rfl, pSteps_some]
  simp only [if_true]
  rw [this]

/-- In a callgrind file no call is a call of anything that the file gives costs for. -/
theorem C129_callgrind_unlinked (evs : List PEvent) (dir first : Str) (arrange : List PEntry → List PEntry) (hp : ∀ l, (arrange l).Perm l) (x : Str × Str)
    (hx : x ∈ cgCalled first none (cgFile dir (arrange (pRun evs)))) : x ∉ cgDefined first (cgFile dir (arrange (pRun evs))) := by
  intro hd
  obtain ⟨t, ht, hn, hf⟩ := cgCalled_mem dir _ _ _ _ hx
  obtain ⟨e, he, f, hef, rfl⟩ := cgDefined_mem dir _ _ _ _ hd
  have ht' := (hp _).mem_iff.1 ht
  have he' := (hp _).mem_iff.1 he
  have h1 := entry_run ht'
  have h2 := entry_run he'
  simp only at hn hf
  rw [← hn, h2] at h1
  simp only [Option.some.injEq] at h1
  subst h1
  rw [hef] at hf
  rcases hf with hf | hf
  · simp only [Option.some.injEq] at hf
    have := congrArg List.length hf
    simp only [List.length_append, List.length_cons] at this
    omega
  · simp at hf

example : cgCalled [] none (cgFile "/tmp".toList (pRun sampleRun)) ≠ [] := by decide +kernel

/-- The name of the file is that of the directory, `build.`, the number of the process and `.json`, if it fits. -/
theorem C129_name_partial (starting : Str) (opt : Option Str) (pid : Nat) (hpid : pid < 2 ^ 31) (h1 : starting.length < 2000)
    (h2 : ∀ d, opt = some d → d.length < 2000) :
    ∃ dir, profileDir starting opt = some dir ∧
      dir = (match opt with | none => starting | some d => if d.head? = some '/' then d else starting ++ "/".toList ++ d) ∧
      jsonName dir pid = some (dir ++ "/build.".toList ++ Nat.toDigits 10 pid ++ ".json".toList) := by
  have hl := toDigits_len 9 pid (by omega)
  have hj : ∀ dir : Str, dir.length < 4001 → jsonName dir pid = some (dir ++ "/build.".toList ++ Nat.toDigits 10 pid ++ ".json".toList) := by
    intro dir hd
    unfold jsonName
    rw [if_neg]
    have e1 : "/build.".toList.length = 7 := by decide
    have e2 : ".json".toList.length = 5 := by decide
    simp only [List.length_append, e1, e2, pathMax]
    omega
  cases opt with
  | none => exact ⟨starting, rfl, rfl, hj _ (by omega)⟩
  | some d =>
    have hd := h2 d rfl
    unfold profileDir
    by_cases hs : d.head? = some '/'
    · refine ⟨d, ?_, ?_, hj _ (by omega)⟩
      · simp only [hs, ne_eq, not_true, if_false]
      · simp only [if_pos hs]
    · refine ⟨starting ++ '/' :: d, ?_, ?_, hj _ ?_⟩
      · simp only []
        rw [if_pos hs, if_neg (by unfold pathMax; omega)]
      · simp only [if_neg hs]
        simp
      · simp only [List.length_append, List.length_cons]
        omega

/-- A longer name is written beyond the end of the buffer, whatever the directory make is started in. -/
theorem C129_name_overflow (starting d : Str) (h0 : d.head? ≠ some '/') (h : 4095 ≤ starting.length + d.length) :
    profileDir starting (some d) = none := by
  unfold profileDir
  simp only []
  rw [if_pos h0, if_pos (by unfold pathMax; omega)]

/-! ## C130: the make that started a make -/

/-- A make that is started from a command knows the process and the target that the command is for, if the name of the target does not begin with a
minus sign and has fewer than 200 characters. -/
theorem C130_parent_partial (pid : Nat) (target : Str) (hp : pid < 2 ^ 31) (hne : target ≠ []) (hd : target.head? ≠ some '-') (hl : target.length < 200) :
    parentPid (some (parentEnv pid target).1) = pid ∧ parentTarget (some (parentEnv pid target).2) = some target ∧
      parentVariable (parentTarget (some (parentEnv pid target).2)) = some (some target) := by
  have h1 : parentTarget (some target) = some target := by
    unfold parentTarget
    simp only []
    rw [if_neg]
    rintro (h | h)
    · exact hne h
    · exact hd h
  refine ⟨?_, h1, ?_⟩
  · unfold parentPid parentEnv
    have hn := toDigits_ne_nil pid
    have hh : (Nat.toDigits 10 pid).head? ≠ some '-' := by
      intro h
      have := toDigits_isDigit pid '-' (List.mem_of_mem_head? h)
      revert this; decide
    simp only
    rw [if_neg (by rintro (h | h); exact hn h; exact hh h)]
    exact atoiSigned_digits hp
  · show parentVariable (parentTarget (some target)) = _
    rw [h1]
    unfold parentVariable
    simp only
    rw [if_neg (by omega)]

/-- The name of a target that begins with a minus sign is not known to the make that is started for it, though the process is. -/
theorem C130_dash (pid : Nat) (target : Str) (hp : 0 < pid) (hp' : pid < 2 ^ 31) :
    parentPid (some (parentEnv pid ('-' :: target)).1) = pid ∧ parentTarget (some (parentEnv pid ('-' :: target)).2) = none := by
  refine ⟨(C130_parent_partial pid ['x'] hp' (by decide) (by decide) (by decide)).1, ?_⟩
  unfold parentTarget parentEnv
  simp

/-- A make that is started for a target with a longer name writes beyond the end of a buffer. -/
theorem C130_long (pid : Nat) (target : Str) (hd : target.head? ≠ some '-') (hl : 200 ≤ target.length) :
    parentVariable (parentTarget (some (parentEnv pid target).2)) = none := by
  have h1 : parentTarget (some target) = some target := by
    unfold parentTarget
    simp only []
    rw [if_neg]
    rintro (h | h)
    · rw [h] at hl; simp at hl
    · exact hd h
  show parentVariable (parentTarget (some target)) = _
  rw [h1]
  unfold parentVariable
  simp only
  rw [if_pos (by omega)]

end Remake
