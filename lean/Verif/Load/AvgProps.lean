import Verif.Load.AvgModel
/-!
# Properties of the limit on the load average (C132)
-/
set_option linter.unusedVariables false
set_option linter.unusedSimpArgs false
namespace Remake

/-! ## Words of the statements -/

/-- The jobs that became ready in a history. -/
def Spec.laJobs : List LaEv → List Nat
  | [] => []
  | .job c _ _ :: es => c :: Spec.laJobs es
  | .retry _ :: es => Spec.laJobs es
  | .finish :: es => Spec.laJobs es
  | .nextLine :: es => Spec.laJobs es

/-- What is looked at in an event. -/
def Spec.laLooks : LaEv → List LaLook
  | .job _ k _ => [k]
  | .retry ks => ks.map (·.1)
  | .finish => []
  | .nextLine => []

/-- The load that is read is at least `l`; an error counts as no load. -/
def Spec.AtLeast (l : Rat) (k : LaLook) : Prop :=
  match k.load with
  | .ok x => l ≤ x
  | .error _ => l ≤ 0

/-- The errors of `getloadavg` that are new: different from the one before. -/
def Spec.fresh : Option Nat → List Nat → List Nat
  | _, [] => []
  | p, e :: es => if p = some e then Spec.fresh p es else e :: Spec.fresh (some e) es

open Spec

/-! ## Lemmas -/

theorem laSecond_nonneg {st : LaSt} (h : 0 ≤ st.lastSec) (now : Int) : 0 ≤ (laSecond st now).lastSec := by
  unfold laSecond
  split
  · simp only []
    split
    · have : (0 : Rat) ≤ (st.counter : Rat) := by exact_mod_cast Nat.zero_le _
      grind
    · simp
  · exact h

theorem laLoad_same (st : LaSt) (x : Except Nat Rat) : (laLoad st x).2.counter = st.counter ∧ (laLoad st x).2.lastSec = st.lastSec ∧
    (laLoad st x).2.lastNow = st.lastNow ∧ (laLoad st x).2.used = st.used ∧ (laLoad st x).2.waiting = st.waiting ∧
    (laLoad st x).2.started = st.started := by
  cases x <;> simp [laLoad]

theorem laSecond_same (st : LaSt) (now : Int) : (laSecond st now).used = st.used ∧ (laSecond st now).waiting = st.waiting ∧
    (laSecond st now).started = st.started ∧ (laSecond st now).messages = st.messages ∧ (laSecond st now).lossage = st.lossage := by
  unfold laSecond
  split <;> simp

theorem loadTooHigh_same (limit : Rat) (st : LaSt) (k : LaLook) : (loadTooHigh limit st k).2.used = st.used ∧
    (loadTooHigh limit st k).2.waiting = st.waiting ∧ (loadTooHigh limit st k).2.started = st.started := by
  unfold loadTooHigh
  split
  · simp
  · have h1 := laLoad_same st k.load
    have h2 := laSecond_same (laLoad st k.load).2 k.now
    exact ⟨h2.1.trans h1.2.2.2.1, h2.2.1.trans h1.2.2.2.2.1, h2.2.2.1.trans h1.2.2.2.2.2⟩

theorem loadTooHigh_nonneg {limit : Rat} {st : LaSt} (h : 0 ≤ st.lastSec) (k : LaLook) : 0 ≤ (loadTooHigh limit st k).2.lastSec := by
  unfold loadTooHigh
  split
  · exact h
  · exact laSecond_nonneg (by rw [(laLoad_same st k.load).2.1]; exact h) _

theorem laLoad_atLeast {l : Rat} {st : LaSt} {k : LaLook} (h : AtLeast l k) : l ≤ (laLoad st k.load).1 := by
  unfold AtLeast at h
  cases hk : k.load with
  | ok x => rw [hk] at h; simpa [laLoad] using h
  | error e => rw [hk] at h; simpa [laLoad] using h

/-- A relation each attempt to start a job keeps is kept by the loop. -/
theorem laWaitingJobs_inv {limit : Rat} {P : LaSt → Prop} :
    ∀ {ks : List (LaLook × Bool)} {st : LaSt},
      (∀ k ∈ ks, ∀ st c w, P st → st.waiting = c :: w → P (laWaitingJob limit { st with waiting := w } c k.1 k.2).2) →
      P st → P (laWaitingJobs limit st ks)
  | [], st, _, h => h
  | (k, f) :: ks, st, hs, h => by
    unfold laWaitingJobs
    split
    · exact h
    · rename_i c w hw
      have h1 := hs (k, f) (by simp) st c w h hw
      simp only []
      split
      · exact laWaitingJobs_inv (fun k hk => hs k (by simp [hk])) h1
      · exact h1

theorem laStep_finish (limit : Rat) (st : LaSt) : laStep limit st .finish = if st.used = 0 then st else { st with
      used := st.used - 1
      counter := st.counter - 1 } := rfl

theorem laStep_nextLine (limit : Rat) (st : LaSt) :
    laStep limit st .nextLine = if st.used = 0 then st else { st with counter := st.counter - 1 + 1 } := rfl

theorem swj_free {limit : Rat} {st : LaSt} (h : st.used = 0) (c : Nat) (k : LaLook) (f : Bool) :
    laWaitingJob limit st c k f = (true, { st with
      started := st.started ++ [c]
      counter := if f then st.counter + 1 else st.counter
      used := if f then st.used + 1 else st.used }) := by
  unfold laWaitingJob
  simp [h]

theorem swj_high {limit : Rat} {st : LaSt} {k : LaLook} (h : st.used > 0) (hh : (loadTooHigh limit st k).1 = true) (c : Nat) (f : Bool) :
    laWaitingJob limit st c k f = (false, { (loadTooHigh limit st k).2 with waiting := c :: st.waiting }) := by
  unfold laWaitingJob
  simp only [h, if_true, hh, (loadTooHigh_same limit st k).2.1]

theorem swj_low {limit : Rat} {st : LaSt} {k : LaLook} (h : st.used > 0) (hh : (loadTooHigh limit st k).1 = false) (c : Nat) (f : Bool) :
    laWaitingJob limit st c k f = (true, { (loadTooHigh limit st k).2 with
      started := st.started ++ [c]
      counter := if f then (loadTooHigh limit st k).2.counter + 1 else (loadTooHigh limit st k).2.counter
      used := if f then st.used + 1 else st.used }) := by
  unfold laWaitingJob
  simp only [h, if_true, hh, (loadTooHigh_same limit st k).1, (loadTooHigh_same limit st k).2.2]
  simp

/-- The three ways. -/
theorem swj_cases (limit : Rat) (st : LaSt) (c : Nat) (k : LaLook) (f : Bool) :
    (st.used = 0 ∧ laWaitingJob limit st c k f = (true, { st with
      started := st.started ++ [c]
      counter := if f then st.counter + 1 else st.counter
      used := if f then st.used + 1 else st.used })) ∨
    (st.used > 0 ∧ (loadTooHigh limit st k).1 = true ∧
      laWaitingJob limit st c k f = (false, { (loadTooHigh limit st k).2 with waiting := c :: st.waiting })) ∨
    (st.used > 0 ∧ (loadTooHigh limit st k).1 = false ∧ laWaitingJob limit st c k f = (true, { (loadTooHigh limit st k).2 with
      started := st.started ++ [c]
      counter := if f then (loadTooHigh limit st k).2.counter + 1 else (loadTooHigh limit st k).2.counter
      used := if f then st.used + 1 else st.used })) := by
  by_cases h : st.used = 0
  · exact .inl ⟨h, swj_free h c k f⟩
  · have h' : st.used > 0 := by omega
    cases hh : (loadTooHigh limit st k).1 with
    | true => exact .inr (.inl ⟨h', rfl, swj_high h' hh c f⟩)
    | false => exact .inr (.inr ⟨h', rfl, swj_low h' hh c f⟩)

theorem swj_nonneg {limit : Rat} {st : LaSt} (h : 0 ≤ st.lastSec) (c : Nat) (k : LaLook) (f : Bool) :
    0 ≤ (laWaitingJob limit st c k f).2.lastSec := by
  rcases swj_cases limit st c k f with ⟨_, e⟩ | ⟨_, _, e⟩ | ⟨_, _, e⟩ <;> rw [e]
  · exact h
  · exact loadTooHigh_nonneg h k
  · exact loadTooHigh_nonneg h k

theorem laRun_nonneg (limit : Rat) : ∀ (es : List LaEv) st, 0 ≤ st.lastSec → 0 ≤ (laRun limit st es).lastSec := by
  intro es
  induction es with
  | nil => intro st h; exact h
  | cons e es ih =>
    intro st h
    apply ih (laStep limit st e)
    cases e with
    | job c k f =>
      show 0 ≤ (laWaitingJob limit st c k f).2.lastSec
      exact swj_nonneg h c k f
    | retry ks =>
      show 0 ≤ (laWaitingJobs limit st ks).lastSec
      refine laWaitingJobs_inv (P := fun s => 0 ≤ s.lastSec) ?_ h
      intro k _ s c w hp _
      exact swj_nonneg (st := { s with waiting := w }) hp c k.1 k.2
    | finish => rw [laStep_finish]; split <;> exact h
    | nextLine => rw [laStep_nextLine]; split <;> exact h

/-- A load at the limit is too high. -/
theorem tooHigh_of_atLeast {limit l : Rat} {st : LaSt} {k : LaLook} (hlim : 0 ≤ limit) (hn : 0 ≤ st.lastSec) (hl : AtLeast l k)
    (h : limit ≤ l) : (loadTooHigh limit st k).1 = true := by
  unfold loadTooHigh
  rw [if_neg (by grind)]
  simp only [decide_eq_true_eq]
  have h1 := laLoad_atLeast (st := st) hl
  have h2 := laSecond_nonneg (st := (laLoad st k.load).2) (by rw [(laLoad_same st k.load).2.1]; exact hn) k.now
  have h3 : (0 : Rat) ≤ ((laSecond (laLoad st k.load).2 k.now).counter : Rat) := by exact_mod_cast Nat.zero_le _
  grind

/-! ## Properties -/

/-- Without a limit no job waits: each is started as soon as it is ready. -/
theorem C132_no_limit (limit : Rat) (h : limit < 0) (es : List LaEv) :
    (laRun limit laStart es).waiting = [] ∧ (laRun limit laStart es).started = laJobs es := by
  have key : ∀ (es : List LaEv) st, st.waiting = [] →
      (laRun limit st es).waiting = [] ∧ (laRun limit st es).started = st.started ++ laJobs es := by
    intro es
    induction es with
    | nil => intro st hw; simp [laRun, hw, laJobs]
    | cons e es ih =>
      intro st hw
      show (laRun limit (laStep limit st e) es).waiting = [] ∧ (laRun limit (laStep limit st e) es).started = _
      cases e with
      | job c k f =>
        have hr : (if st.used > 0 then loadTooHigh limit st k else (false, st)) = (false, st) := by
          split
          · unfold loadTooHigh; rw [if_pos h]
          · rfl
        have hs : laStep limit st (.job c k f) = { st with
            started := st.started ++ [c]
            counter := if f then st.counter + 1 else st.counter
            used := if f then st.used + 1 else st.used } := by
          show (laWaitingJob limit st c k f).2 = _
          unfold laWaitingJob
          rw [hr]; rfl
        rw [hs]
        have := ih { st with
            started := st.started ++ [c]
            counter := if f then st.counter + 1 else st.counter
            used := if f then st.used + 1 else st.used } hw
        refine ⟨this.1, this.2.trans ?_⟩
        simp [laJobs]
      | retry ks =>
        have hs : laStep limit st (.retry ks) = st := by
          show laWaitingJobs limit st ks = st
          cases ks with
          | nil => rfl
          | cons k ks => unfold laWaitingJobs; rw [hw]
        rw [hs]; exact ih st hw
      | finish =>
        rw [laStep_finish]
        split
        · exact ih st hw
        · exact ih _ hw
      | nextLine =>
        rw [laStep_nextLine]
        split
        · exact ih st hw
        · exact ih _ hw
  simpa [laStart] using key es laStart rfl

/-- No job is lost or started twice: the jobs started and the ones that wait are the ones that became ready. -/
theorem C132_jobs (limit : Rat) (es : List LaEv) :
    ((laRun limit laStart es).started ++ (laRun limit laStart es).waiting).Perm (laJobs es) := by
  have key : ∀ (es : List LaEv) st (l : List Nat), (st.started ++ st.waiting).Perm l →
      ((laRun limit st es).started ++ (laRun limit st es).waiting).Perm (l ++ laJobs es) := by
    have hone : ∀ st c k f, ((laWaitingJob limit st c k f).2.started ++ (laWaitingJob limit st c k f).2.waiting).Perm
        (st.started ++ c :: st.waiting) := by
      intro st c k f
      have hsame := loadTooHigh_same limit st k
      rcases swj_cases limit st c k f with ⟨_, e⟩ | ⟨_, _, e⟩ | ⟨_, _, e⟩ <;> rw [e]
      · simp only [List.append_assoc, List.singleton_append]; exact .refl _
      · simp only [hsame.2.2]; exact .refl _
      · simp only [hsame.2.1, List.append_assoc, List.singleton_append]; exact .refl _
    intro es
    induction es with
    | nil => intro st l h; simpa [laRun, laJobs] using h
    | cons e es ih =>
      intro st l h
      show ((laRun limit (laStep limit st e) es).started ++ (laRun limit (laStep limit st e) es).waiting).Perm _
      cases e with
      | job c k f =>
        have h1 : ((laStep limit st (.job c k f)).started ++ (laStep limit st (.job c k f)).waiting).Perm (l ++ [c]) :=
          (hone st c k f).trans (List.perm_middle.trans ((List.Perm.cons c h).trans (List.perm_append_singleton c l).symm))
        have := ih _ _ h1
        simpa [laJobs] using this
      | retry ks =>
        have h1 : ((laStep limit st (.retry ks)).started ++ (laStep limit st (.retry ks)).waiting).Perm l := by
          show ((laWaitingJobs limit st ks).started ++ (laWaitingJobs limit st ks).waiting).Perm l
          refine laWaitingJobs_inv (P := fun s => (s.started ++ s.waiting).Perm l) ?_ h
          intro k _ s c w hp hw
          refine (hone { s with waiting := w } c k.1 k.2).trans ?_
          rw [hw] at hp; exact hp
        have := ih _ _ h1
        simpa [laJobs] using this
      | finish =>
        rw [laStep_finish]
        split
        · exact ih st l h
        · exact ih _ l h
      | nextLine =>
        rw [laStep_nextLine]
        split
        · exact ih st l h
        · exact ih _ l h
  have := key es laStart [] (.refl _)
  simpa using this

/-- While a job runs, nothing is started, neither a job that becomes ready nor one that waits, if no load that is read is below
the limit. -/
theorem C132_below (limit : Rat) (hlim : 0 ≤ limit) (es : List LaEv) (st : LaSt) (hst : st = laRun limit laStart es) (e : LaEv)
    (hused : st.used > 0) (hl : ∀ k ∈ laLooks e, AtLeast limit k) :
    (laStep limit st e).started = st.started := by
  have hnn : 0 ≤ st.lastSec := by rw [hst]; exact laRun_nonneg limit es laStart (by simp [laStart])
  cases e with
  | job c k f =>
    show (laWaitingJob limit st c k f).2.started = _
    rw [swj_high hused (tooHigh_of_atLeast hlim hnn (hl k (by simp [laLooks])) (by grind)) c f]
    exact (loadTooHigh_same limit st k).2.2
  | retry ks =>
    show (laWaitingJobs limit st ks).started = _
    cases ks with
    | nil => rfl
    | cons k ks =>
      unfold laWaitingJobs
      split
      · rfl
      · rename_i c w hw
        have hh : (loadTooHigh limit { st with waiting := w } k.1).1 = true :=
          tooHigh_of_atLeast (st := { st with waiting := w }) hlim hnn (hl k.1 (by simp [laLooks])) (by grind)
        have e := swj_high (st := { st with waiting := w }) hused hh c k.2
        simp only []
        rw [e]
        exact (loadTooHigh_same limit { st with waiting := w } k.1).2.2
  | finish => rw [laStep_finish]; split <;> rfl
  | nextLine => rw [laStep_nextLine]; split <;> rfl

/-- The estimate: while another job runs, a job that becomes ready is started exactly if the load that is read, and a quarter for
each job of this second, and a sixteenth for each job of the second before, are below the limit together.  (`counter` counts
the jobs since the last look in another second, less the ones that ended.) -/
theorem C132_estimate (limit : Rat) (hlim : 0 ≤ limit) (st : LaSt) (c : Nat) (t : Int) (l : Rat) (f : Bool) (hused : st.used > 0) :
    (laStep limit st (.job c ⟨t, .ok l⟩ f)).started = st.started ++
      (if (st.lastNow < t - 1 ∧ l < limit) ∨ (st.lastNow = t - 1 ∧ l + (st.counter : Rat) / 16 < limit) ∨
        (st.lastNow ≥ t ∧ l + ((st.counter : Rat) + st.lastSec) / 4 < limit) then [c] else []) := by
  have hs := (loadTooHigh_same limit st ⟨t, .ok l⟩).2.2
  have hdec : (loadTooHigh limit st ⟨t, .ok l⟩).1 = false ↔
      ((st.lastNow < t - 1 ∧ l < limit) ∨ (st.lastNow = t - 1 ∧ l + (st.counter : Rat) / 16 < limit) ∨
        (st.lastNow ≥ t ∧ l + ((st.counter : Rat) + st.lastSec) / 4 < limit)) := by
    unfold loadTooHigh
    rw [if_neg (by grind)]
    show decide (l + (1 / 4 : Rat) * ((laSecond st t).counter + (laSecond st t).lastSec) ≥ limit) = false ↔ _
    rw [decide_eq_false_iff_not]
    unfold laSecond
    by_cases h1 : st.lastNow < t
    · rw [if_pos h1]
      simp only []
      by_cases h2 : st.lastNow = t - 1
      · rw [if_pos h2]
        have : ¬ st.lastNow < t - 1 := by omega
        have : ¬ st.lastNow ≥ t := by omega
        have e0 : ((0 : Nat) : Rat) = 0 := rfl
        rw [e0]
        constructor
        · intro h; right; left; exact ⟨h2, by grind⟩
        · rintro (h | h | h)
          · omega
          · grind
          · omega
      · rw [if_neg h2]
        have e0 : ((0 : Nat) : Rat) = 0 := rfl
        rw [e0]
        constructor
        · intro h; left; exact ⟨by omega, by grind⟩
        · rintro (h | h | h)
          · grind
          · omega
          · omega
    · rw [if_neg h1]
      constructor
      · intro h; right; right; exact ⟨by omega, by grind⟩
      · rintro (h | h | h)
        · omega
        · omega
        · grind
  show (laWaitingJob limit st c ⟨t, .ok l⟩ f).2.started = _
  cases hh : (loadTooHigh limit st ⟨t, .ok l⟩).1 with
  | true =>
    rw [swj_high hused hh c f, if_neg (by rw [← hdec, hh]; simp)]
    simpa using hs
  | false =>
    rw [swj_low hused hh c f, if_pos (hdec.1 hh)]

example : (laRun 2 laStart [.job 1 ⟨5, .ok 9⟩ true, .job 2 ⟨5, .ok 3⟩ true, .job 3 ⟨5, .ok 1⟩ true]).started = [1, 3] ∧
    (laRun 2 laStart [.job 1 ⟨5, .ok 9⟩ true, .job 2 ⟨5, .ok 3⟩ true, .job 3 ⟨5, .ok 1⟩ true]).waiting = [2] := by decide +kernel

/-- With no job running, a job that becomes ready is started whatever the load is; and if jobs wait, trying them starts one. -/
theorem C132_progress (limit : Rat) (st : LaSt) (h : st.used = 0) :
    (∀ c k f, (laStep limit st (.job c k f)).started = st.started ++ [c] ∧ (laStep limit st (.job c k f)).waiting = st.waiting) ∧
    (∀ c w k f ks, st.waiting = c :: w → ∃ t, (laStep limit st (.retry ((k, f) :: ks))).started = st.started ++ c :: t) := by
  refine ⟨fun c k f => ?_, fun c w k f ks hw => ?_⟩
  · show (laWaitingJob limit st c k f).2.started = _ ∧ (laWaitingJob limit st c k f).2.waiting = _
    rw [swj_free h c k f]; exact ⟨rfl, rfl⟩
  · show ∃ t, (laWaitingJobs limit st ((k, f) :: ks)).started = st.started ++ c :: t
    have hgrow : ∀ (ks : List (LaLook × Bool)) (s : LaSt), ∃ t, (laWaitingJobs limit s ks).started = s.started ++ t := by
      intro ks s
      refine laWaitingJobs_inv (P := fun s' => ∃ t, s'.started = s.started ++ t) ?_ ⟨[], by simp⟩
      rintro k _ s' c w ⟨t, ht⟩ _
      have hsame := loadTooHigh_same limit { s' with waiting := w } k.1
      rcases swj_cases limit { s' with waiting := w } c k.1 k.2 with ⟨_, e⟩ | ⟨_, _, e⟩ | ⟨_, _, e⟩ <;> rw [e]
      · exact ⟨t ++ [c], by show s'.started ++ [c] = _; rw [ht, List.append_assoc]⟩
      · exact ⟨t, hsame.2.2.trans ht⟩
      · exact ⟨t ++ [c], by show s'.started ++ [c] = _; rw [ht, List.append_assoc]⟩
    unfold laWaitingJobs
    rw [hw]
    simp only []
    rw [swj_free (st := { st with waiting := w }) h c k f]
    simp only [if_true]
    obtain ⟨t, ht⟩ := hgrow ks { st with
      waiting := w
      started := st.started ++ [c]
      counter := if f then st.counter + 1 else st.counter
      used := if f then st.used + 1 else st.used }
    exact ⟨t, by rw [ht]; simp⟩

example : ∃ st : LaSt, st = laRun 0 laStart [.job 1 ⟨5, .ok 9⟩ true, .job 2 ⟨5, .ok 9⟩ true, .finish] ∧ st.used = 0 ∧
    st.waiting = [2] := ⟨_, rfl, by decide +kernel, by decide +kernel⟩

/-- A limit that the load never falls below (for example 0): never more than one job runs. -/
theorem C132_serial (limit : Rat) (hlim : 0 ≤ limit) (es : List LaEv) (h : ∀ e ∈ es, ∀ k ∈ laLooks e, AtLeast limit k) :
    (laRun limit laStart es).used ≤ 1 := by
  have hone : ∀ st c k f, 0 ≤ st.lastSec → st.used ≤ 1 → AtLeast limit k →
      0 ≤ (laWaitingJob limit st c k f).2.lastSec ∧ (laWaitingJob limit st c k f).2.used ≤ 1 := by
    intro st c k f hn hu hk
    refine ⟨swj_nonneg hn c k f, ?_⟩
    rcases swj_cases limit st c k f with ⟨h0, e⟩ | ⟨_, _, e⟩ | ⟨_, h2, e⟩
    · rw [e]; simp only []; split <;> omega
    · rw [e]; simp only [(loadTooHigh_same limit st k).1]; exact hu
    · rw [tooHigh_of_atLeast hlim hn hk (by grind)] at h2; simp at h2
  have key : ∀ (es : List LaEv) st, (∀ e ∈ es, ∀ k ∈ laLooks e, AtLeast limit k) → 0 ≤ st.lastSec → st.used ≤ 1 →
      (laRun limit st es).used ≤ 1 := by
    intro es
    induction es with
    | nil => intro st _ _ hu; exact hu
    | cons e es ih =>
      intro st he hn hu
      have hs : 0 ≤ (laStep limit st e).lastSec ∧ (laStep limit st e).used ≤ 1 := by
        cases e with
        | job c k f => exact hone st c k f hn hu (he (.job c k f) (by simp) k (by simp [laLooks]))
        | retry ks =>
          refine laWaitingJobs_inv (P := fun s => 0 ≤ s.lastSec ∧ s.used ≤ 1) ?_ ⟨hn, hu⟩
          intro k hk s c w hp _
          exact hone { s with waiting := w } c k.1 k.2 hp.1 hp.2
            (he (.retry ks) (by simp) k.1 (by simp only [laLooks]; exact List.mem_map.2 ⟨k, hk, rfl⟩))
        | finish =>
          rw [laStep_finish]
          split
          · exact ⟨hn, hu⟩
          · exact ⟨hn, by show st.used - 1 ≤ 1; omega⟩
        | nextLine => rw [laStep_nextLine]; split <;> exact ⟨hn, hu⟩
      exact ih _ (fun e' h' => he e' (by simp [h'])) hs.1 hs.2
  exact key es laStart h (by simp [laStart]) (by simp [laStart])

/-- What holds within one second: `u0` jobs ran when it began. -/
structure BurstInv (limit l : Rat) (t : Int) (u0 : Nat) (st : LaSt) : Prop where
  nonneg : 0 ≤ st.lastSec
  now : st.lastNow ≤ t
  before : st.lastNow < t → (st.used : Int) - u0 ≤ 1
  within : st.lastNow = t → (st.used : Int) - u0 - 1 ≤ st.counter
  bound : (st.used : Int) - u0 ≤ 1 ∨ l + ((((st.used : Int) - u0 : Int) : Rat) - 2) / 4 < limit

theorem burst_one {limit l : Rat} {t : Int} {u0 : Nat} {st : LaSt} {k : LaLook} (hlim : 0 ≤ limit) (hk : k.now = t) (hl : AtLeast l k)
    (i : BurstInv limit l t u0 st) (c : Nat) (f : Bool) : BurstInv limit l t u0 (laWaitingJob limit st c k f).2 := by
  obtain ⟨i1, i2, i3, i4, i5⟩ := i
  have hsame := loadTooHigh_same limit st k
  have hnn := loadTooHigh_nonneg (limit := limit) i1 k
  have hnow : (loadTooHigh limit st k).2.lastNow = t ∧ (st.used : Int) - u0 - 1 ≤ (loadTooHigh limit st k).2.counter := by
    unfold loadTooHigh
    rw [if_neg (by grind)]
    have hs := laLoad_same st k.load
    simp only []
    unfold laSecond
    rw [hs.2.2.1, hs.1, hk]
    by_cases hlt : st.lastNow < t
    · rw [if_pos hlt]
      exact ⟨rfl, by have := i3 hlt; simp only []; omega⟩
    · rw [if_neg hlt]
      have he : st.lastNow = t := by omega
      exact ⟨hs.2.2.1.trans he, by rw [hs.1]; exact i4 he⟩
  rcases swj_cases limit st c k f with ⟨h0, e⟩ | ⟨_, _, e⟩ | ⟨_, hhigh, e⟩
  · rw [e]
    cases f with
    | false => exact ⟨i1, i2, i3, i4, i5⟩
    | true => exact ⟨i1, i2, fun _ => by simp only [if_true]; omega, fun _ => by simp only [if_true]; omega, .inl (by simp only [if_true]; omega)⟩
  · rw [e]
    refine ⟨hnn, by simp only []; omega, fun hc => by simp only [] at hc; omega, fun _ => ?_, ?_⟩
    · simp only [hsame.1]; exact hnow.2
    · simp only [hsame.1]; exact i5
  · rw [e]
    have hlow : l + (1 / 4 : Rat) * ((loadTooHigh limit st k).2.counter : Rat) < limit := by
      have h1 := laLoad_atLeast (st := st) hl
      unfold loadTooHigh at hhigh hnn ⊢
      rw [if_neg (by grind)] at hhigh hnn ⊢
      simp only [decide_eq_false_iff_not] at hhigh hnn ⊢
      grind
    cases f with
    | false => exact ⟨hnn, by simp only []; omega, fun hc => by simp only [] at hc; omega, fun _ => hnow.2, i5⟩
    | true =>
      refine ⟨hnn, by simp only []; omega, fun hc => by simp only [] at hc; omega, fun _ => ?_, .inr ?_⟩
      · have := hnow.2; simp only [if_true]; omega
      · simp only [if_true]
        have h2 : ((st.used : Int) - u0 - 1 : Int) ≤ ((loadTooHigh limit st k).2.counter : Int) := hnow.2
        have h3 : (((st.used : Int) - u0 - 1 : Int) : Rat) ≤ (((loadTooHigh limit st k).2.counter : Int) : Rat) := by exact_mod_cast h2
        have e2 : ((((st.used + 1 : Nat) : Int) - u0 : Int) : Rat) - 2 = (((st.used : Int) - u0 - 1 : Int) : Rat) := by
          push_cast; grind
        rw [e2]
        have e1 : (((loadTooHigh limit st k).2.counter : Int) : Rat) = ((loadTooHigh limit st k).2.counter : Rat) := by norm_cast
        rw [e1] at h3
        grind

/-- How many jobs may be started within one second of the clock, as long as the loads read are at least `l`: if `b` jobs more run
at the end than at the beginning, then `b` is at most 1, or `l + (b - 2) / 4` is below the limit. -/
theorem C132_burst (limit : Rat) (hlim : 0 ≤ limit) (l : Rat) (t : Int) (pre es : List LaEv)
    (ht : (laRun limit laStart pre).lastNow < t) (h : ∀ e ∈ es, ∀ k ∈ laLooks e, k.now = t ∧ AtLeast l k) (b : Int)
    (hb : b = (laRun limit laStart (pre ++ es)).used - (laRun limit laStart pre).used) :
    b ≤ 1 ∨ l + ((b : Rat) - 2) / 4 < limit := by
  have key : ∀ (u0 : Nat) (es : List LaEv) st, (∀ e ∈ es, ∀ k ∈ laLooks e, k.now = t ∧ AtLeast l k) → BurstInv limit l t u0 st →
      BurstInv limit l t u0 (laRun limit st es) := by
    intro u0 es
    induction es with
    | nil => intro st _ i; exact i
    | cons e es ih =>
      intro st he i
      refine ih (laStep limit st e) (fun e' h' => he e' (by simp [h'])) ?_
      cases e with
      | job c k f =>
        have := he (.job c k f) (by simp) k (by simp [laLooks])
        exact burst_one hlim this.1 this.2 i c f
      | retry ks =>
        refine laWaitingJobs_inv (P := BurstInv limit l t u0) ?_ i
        intro k hk s c w hp _
        have := he (.retry ks) (by simp) k.1 (by simp only [laLooks]; exact List.mem_map.2 ⟨k, hk, rfl⟩)
        exact burst_one (st := { s with waiting := w }) hlim this.1 this.2 ⟨hp.1, hp.2, hp.3, hp.4, hp.5⟩ c k.2
      | finish =>
        rw [laStep_finish]
        split
        · exact i
        · rename_i hu
          obtain ⟨i1, i2, i3, i4, i5⟩ := i
          refine ⟨i1, i2, fun h => ?_, fun h => ?_, ?_⟩
          · have := i3 h; simp only []; omega
          · have := i4 h; simp only []; omega
          · simp only []
            rcases i5 with i5 | i5
            · left; omega
            · right
              have : (((st.used - 1 : Nat) : Int) - u0 : Int) ≤ ((st.used : Int) - u0 : Int) := by omega
              have h2 : ((((st.used - 1 : Nat) : Int) - u0 : Int) : Rat) ≤ (((st.used : Int) - u0 : Int) : Rat) := by exact_mod_cast this
              grind
      | nextLine =>
        rw [laStep_nextLine]
        split
        · exact i
        · obtain ⟨i1, i2, i3, i4, i5⟩ := i
          exact ⟨i1, i2, i3, fun h => by have := i4 h; simp only []; omega, i5⟩
  have hrun : laRun limit laStart (pre ++ es) = laRun limit (laRun limit laStart pre) es := by simp [laRun]
  have := key (laRun limit laStart pre).used es (laRun limit laStart pre) h
    ⟨laRun_nonneg limit pre laStart (by simp [laStart]), by omega, fun _ => by omega, fun h => by omega, .inl (by omega)⟩
  rw [hb, hrun]
  exact this.bound

example : ((laRun 2 laStart (List.replicate 20 (.job 0 ⟨5, .ok 1⟩ true))).used = 5) ∧
    (laRun 2 laStart (List.replicate 20 (.job 0 ⟨5, .ok 1⟩ true))).waiting.length = 15 := by decide +kernel

/-- A failure to read the load is reported only when it is another one than the last reported. -/
theorem C132_complaints (limit : Rat) (hlim : 0 ≤ limit) (errs : List Nat) (st : LaSt) (hu : st.used > 0) (now : Nat → Int) (f : Bool) :
    (laRun limit st (errs.map fun e => .job e ⟨now e, .error e⟩ f)).messages = st.messages ++ fresh st.lossage errs := by
  have hone : ∀ st e, st.used > 0 → (laStep limit st (.job e ⟨now e, .error e⟩ f)).used > 0 ∧
      (laStep limit st (.job e ⟨now e, .error e⟩ f)).lossage = some e ∧
      (laStep limit st (.job e ⟨now e, .error e⟩ f)).messages = (if st.lossage = some e then st.messages else st.messages ++ [e]) := by
    intro st e hu
    have hs := loadTooHigh_same limit st ⟨now e, .error e⟩
    have hm : (loadTooHigh limit st ⟨now e, .error e⟩).2.lossage = some e ∧
        (loadTooHigh limit st ⟨now e, .error e⟩).2.messages = (if st.lossage = some e then st.messages else st.messages ++ [e]) := by
      unfold loadTooHigh
      rw [if_neg (by grind)]
      have := laSecond_same (laLoad st (.error e)).2 (now e)
      exact ⟨this.2.2.2.2.trans rfl, this.2.2.2.1.trans rfl⟩
    show (laWaitingJob limit st e ⟨now e, .error e⟩ f).2.used > 0 ∧ (laWaitingJob limit st e ⟨now e, .error e⟩ f).2.lossage = _ ∧
      (laWaitingJob limit st e ⟨now e, .error e⟩ f).2.messages = _
    rcases swj_cases limit st e ⟨now e, .error e⟩ f with ⟨h0, _⟩ | ⟨_, _, e1⟩ | ⟨_, _, e1⟩
    · omega
    · rw [e1]; exact ⟨by simp only [hs.1]; exact hu, hm⟩
    · rw [e1]; exact ⟨by simp only []; split <;> omega, hm⟩
  induction errs generalizing st with
  | nil => simp [laRun, fresh]
  | cons e es ih =>
    have h1 := hone st e hu
    have := ih (laStep limit st (.job e ⟨now e, .error e⟩ f)) h1.1
    show (laRun limit (laStep limit st (.job e ⟨now e, .error e⟩ f)) (es.map fun e => .job e ⟨now e, .error e⟩ f)).messages = _
    rw [this, h1.2.1, h1.2.2]
    have hf : fresh st.lossage (e :: es) = if st.lossage = some e then fresh st.lossage es else e :: fresh (some e) es := by
      simp [fresh]
    rw [hf]
    by_cases h : st.lossage = some e
    · rw [if_pos h, if_pos h, h]
    · rw [if_neg h, if_neg h]
      simp only [List.append_assoc, List.singleton_append]

end Remake
