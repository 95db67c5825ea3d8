import Verif.Update.Plain2
/-!
# Updating targets: the induction for plain graphs
-/
namespace Remake
set_option linter.unusedVariables false
set_option linter.unusedSimpArgs false

variable {e : Env} {S : Shape} {pre0 : Nat → List Nat} {P : Nat → Prop} {b : Nat}

theorem Inv1.doneOf {s x} (i : Inv1 S pre0 P b s) (h : (s.file x).updated = true) (h' : (s.file x).ustatus = .success) :
    UEvent.done x .success ∈ s.log := by
  have := (i.dn x h).2
  rwa [h'] at this

/-- Changing the flag of a file. -/
theorem flag_inv1 {s : UState} (k : Nat) (v : Bool) (i : Inv1 S pre0 P b s) :
    Inv1 S pre0 P b (s.setFile k fun x => { x with updating := v }) ∧ Rel2 S (· = k) s (s.setFile k fun x => { x with updating := v }) := by
  have key : ∀ x, ∃ v', (s.setFile k fun x => { x with updating := v }).file x = { s.file x with updating := v' } ∧ (x ≠ k → v' = (s.file x).updating) := by
    intro x
    by_cases hx : x = k
    · exact ⟨v, by simp [UState.setFile, hx], fun h => absurd hx h⟩
    · exact ⟨(s.file x).updating, by simp [UState.setFile, hx], fun _ => rfl⟩
  have h1 : (s.setFile k fun x => { x with updating := v }).log = s.log := rfl
  have h2 : (s.setFile k fun x => { x with updating := v }).running = s.running := rfl
  have h3 : (s.setFile k fun x => { x with updating := v }).considered = s.considered := rfl
  have h4 : (s.setFile k fun x => { x with updating := v }).dep = s.dep := rfl
  have h5 : (s.setFile k fun x => { x with updating := v }).count = s.count := rfl
  generalize (s.setFile k fun x => { x with updating := v }) = t at *
  constructor
  · refine ⟨fun x => ?_, fun x => ?_, fun x => ?_, fun x st => ?_, fun x => ?_, by rw [h2]; exact i.nodup, by rw [h1, h2]; exact i.runStart,
      fun x => ?_, by rw [h5, h2]; exact i.kr, by rw [h5]; exact i.kb, fun x => ?_, by rw [h1]; exact i.order, by rw [h1]; exact i.startN⟩ <;>
      obtain ⟨v', hv, _⟩ := key x <;> rw [hv]
    · exact i.fin x
    · exact i.st x
    · rw [h1]; exact i.dn x
    · rw [h1]; exact i.dn' x st
    · rw [h2]; exact i.run x
    · rw [h3, h5]; exact i.cons x
    · rw [h1, h4]; exact i.lists x
  · refine ⟨h3, by omega, by rw [h2, h5]; exact Nat.le_refl _, ⟨[], by rw [h1]; rfl⟩, fun x => ?_, fun x hx a hb => ?_⟩
    · obtain ⟨v', hv, _⟩ := key x
      rw [hv]; exact .inl rfl
    · obtain ⟨v', hv, hv'⟩ := key x
      rw [hv, h2, h4]
      exact ⟨rfl, fun _ _ => rfl, rfl, rfl, rfl, hb, (hv' hx).trans a⟩

theorem Rel2.unflag {s s' : UState} {f : Nat} (r : Rel2 S (· = f) s s') (h : (s.file f).updating = false) : Rel2 S (fun _ => False) s s' := by
  refine ⟨r.cons, r.count, r.jobs, r.log, r.consd, fun x _ a hb => r.frame x (fun hx => ?_) a hb⟩
  rw [hx, h] at a
  cases a

/-- Marking a file as considered. -/
theorem consider_inv1 {s : UState} (f : Nat) (i : Inv1 S pre0 P b s) :
    Inv1 S pre0 (fun x => P x ∨ x = f) b (s.setFile f fun y => { y with considered := s.considered }) ∧
    Rel2 S (· = f) s (s.setFile f fun y => { y with considered := s.considered }) ∧
    ((s.setFile f fun y => { y with considered := s.considered }).file f).considered = s.considered := by
  have key : ∀ x, ∃ c, (s.setFile f fun y => { y with considered := s.considered }).file x = { s.file x with considered := c } ∧
      (x ≠ f → c = (s.file x).considered) ∧ (x = f → c = s.considered) := by
    intro x
    by_cases hx : x = f
    · exact ⟨s.considered, by simp [UState.setFile, hx], fun h => absurd hx h, fun _ => rfl⟩
    · exact ⟨(s.file x).considered, by simp [UState.setFile, hx], fun _ => rfl, fun h => absurd h hx⟩
  have h1 : (s.setFile f fun y => { y with considered := s.considered }).log = s.log := rfl
  have h2 : (s.setFile f fun y => { y with considered := s.considered }).running = s.running := rfl
  have h3 : (s.setFile f fun y => { y with considered := s.considered }).considered = s.considered := rfl
  have h4 : (s.setFile f fun y => { y with considered := s.considered }).dep = s.dep := rfl
  have h5 : (s.setFile f fun y => { y with considered := s.considered }).count = s.count := rfl
  generalize (s.setFile f fun y => { y with considered := s.considered }) = t at *
  refine ⟨?_, ?_, ?_⟩
  · refine ⟨fun x => ?_, fun x => ?_, fun x => ?_, fun x st => ?_, fun x => ?_, by rw [h2]; exact i.nodup, by rw [h1, h2]; exact i.runStart,
      fun x => ?_, by rw [h5, h2]; exact i.kr, by rw [h5]; exact i.kb, fun x => ?_, by rw [h1]; exact i.order, by rw [h1]; exact i.startN⟩ <;>
      obtain ⟨c, hc, hc1, _⟩ := key x <;> rw [hc]
    · exact i.fin x
    · exact i.st x
    · rw [h1]; exact i.dn x
    · rw [h1]; exact i.dn' x st
    · rw [h2]; exact i.run x
    · rw [h3, h5]
      by_cases hx : x = f
      · exact fun _ => .inl (.inr hx)
      · simp only
        rw [hc1 hx]
        exact fun a => (i.cons x a).imp_left .inl
    · rw [h1, h4]; exact i.lists x
  · refine ⟨h3, by omega, by rw [h2, h5]; exact Nat.le_refl _, ⟨[], by rw [h1]; rfl⟩, fun x => ?_, fun x hx a hb => ?_⟩
    · obtain ⟨c, hc, hc1, hc2⟩ := key x
      rw [hc]
      by_cases hx : x = f
      · exact .inr (hc2 hx)
      · exact .inl (hc1 hx)
    · obtain ⟨c, hc, _⟩ := key x
      rw [hc, h2, h4]
      exact ⟨rfl, fun _ _ => rfl, rfl, rfl, rfl, hb, a⟩
  · obtain ⟨c, hc, _, hc2⟩ := key f
    rw [hc]; exact hc2 rfl

/-! ### Dropping a prerequisite -/

theorem Stretch.nil_eq {dep : Nat → Option UDep} {a z} (h : Stretch dep a [] z) : a = z := by
  generalize hl : ([] : List (Nat × Nat)) = l at h
  cases h with
  | nil => rfl
  | cons => cases hl

theorem Stretch.nodes {s : UState} (i : Fits S s) {a l z} (h : Stretch s.dep a l z) :
    (∀ n ∈ l.map Prod.fst, (∀ k, a = some k → k ≤ n) ∧ (∀ k, z = some k → n < k)) ∧ (l.map Prod.fst).Nodup := by
  induction h with
  | nil a => simp
  | @cons n x l z hx hs ih =>
    have nd := (i.node n x hx).2
    have lt : ∀ m ∈ l.map Prod.fst, n < m := by
      intro m hm
      cases hn : x.next with
      | none =>
        rw [hn] at hs
        cases hs
        cases hm
      | some k =>
        have := (ih.1 m hm).1 k hn
        have := (nd k hn).2.1
        omega
    constructor
    · intro m hm
      rcases List.mem_cons.mp hm with rfl | hm
      · refine ⟨fun k hk => by cases hk; exact Nat.le_refl _, fun k hk => ?_⟩
        cases l with
        | nil =>
          have : x.next = z := hs.nil_eq
          exact (nd k (this.trans hk)).2.1
        | cons p l =>
          have h1 := lt p.1 (by simp)
          have h2 := (ih.1 p.1 (by simp)).2 k hk
          omega
      · refine ⟨fun k hk => ?_, (ih.1 m hm).2⟩
        cases hk
        have := lt m hm
        omega
    · rw [List.map_cons, List.nodup_cons]
      refine ⟨fun hm => ?_, ih.2⟩
      have := lt n hm
      omega

theorem Stretch.snoc {dep : Nat → Option UDep} {a l n y z} (h : Stretch dep a (l ++ [(n, y)]) z) :
    ∃ x, Stretch dep a l (some n) ∧ dep n = some x ∧ x.file = y ∧ x.next = z := by
  induction l generalizing a with
  | nil =>
    cases h with
    | cons hx hs =>
      exact ⟨_, .nil _, hx, rfl, hs.nil_eq⟩
  | cons p l ih =>
    rw [List.cons_append] at h
    cases h with
    | cons hx hs =>
      obtain ⟨x, h1, h2⟩ := ih hs
      exact ⟨x, .cons hx h1, h2⟩

theorem drop_inv1 {s : UState} {f d : Nat} {x : UDep} {l0 : List (Nat × Nat)} {last : Option Nat} {Q : Nat → Prop}
    (pl : S.Plain) (i0 : Fits S s) (i : Inv1 S pre0 Q b s)
    (hf : (s.file f).updating = true) (hx : s.dep d = some x) (hseg : Stretch s.dep (s.file f).deps l0 (some d))
    (hlast : last = (l0.map Prod.fst).getLast?) :
    wp (do UM.modify fun s => s.note (.dropped f x.file); unlink f last x.next)
      (fun _ s' => Inv1 S pre0 Q b s' ∧ Rel2 S (· = f) s s' ∧ Stretch s'.dep (s'.file f).deps l0 x.next ∧
        (s'.file f).updated = (s.file f).updated ∧ (s'.file f).cstate = (s.file f).cstate ∧ s'.log = .dropped f x.file :: s.log)
      (fun _ => False) (fun _ => False) s := by
  rw [wp_bind, wp_modify]
  obtain ⟨full, hfull, hpre⟩ := i.lists f
  obtain ⟨tail, htail, rfl⟩ := hseg.split hfull
  have hrest : ∃ rest, tail = (d, x.file) :: rest ∧ Stretch s.dep x.next rest none := by
    cases htail with
    | cons hx' hs =>
      rw [hx] at hx'
      cases hx'
      exact ⟨_, rfl, hs⟩
  obtain ⟨rest, rfl, hrest⟩ := hrest
  have hown : ∀ n ∈ (l0 ++ (d, x.file) :: rest).map Prod.fst, S.own n = f := by
    refine Stretch.own i0 hfull (fun n hn => ?_)
    rw [(i0.deps f n hn).1, pl.grp]
  have hnodes := Stretch.nodes i0 hfull
  -- the invariant, given the new lists
  have fin : ∀ t : UState, t.log = .dropped f x.file :: s.log → t.running = s.running → t.considered = s.considered →
      (∀ y, ∃ dd, t.file y = { s.file y with deps := dd } ∧ (y ≠ f → dd = (s.file y).deps)) →
      (∀ n, S.own n ≠ f → t.dep n = s.dep n) →
      Stretch t.dep (t.file f).deps (l0 ++ rest) none → Stretch t.dep (t.file f).deps l0 x.next →
      Inv1 S pre0 Q b t ∧ Rel2 S (· = f) s t ∧ Stretch t.dep (t.file f).deps l0 x.next ∧
        (t.file f).updated = (s.file f).updated ∧ (t.file f).cstate = (s.file f).cstate ∧ t.log = .dropped f x.file :: s.log := by
    intro t h1 h2 h3 h4 h5 h6 h7
    have hc : t.count = s.count := by unfold UState.count; rw [h1]; rfl
    have hd : ∀ y st, UEvent.done y st ∈ t.log ↔ UEvent.done y st ∈ s.log := by intro y st; rw [h1]; simp
    have hst : ∀ y, UEvent.start y ∈ t.log ↔ UEvent.start y ∈ s.log := by intro y; rw [h1]; simp
    refine ⟨⟨fun y => ?_, fun y => ?_, fun y => ?_, fun y st => ?_, fun y => ?_, by rw [h2]; exact i.nodup,
      fun y hy => ?_, fun y => ?_, by rw [hc, h2]; exact i.kr, by rw [hc]; exact i.kb, fun y => ?_, ?_, fun y hy => ?_⟩, ⟨h3, by omega, by rw [h2, hc]; exact Nat.le_refl _, ⟨[.dropped f x.file], by rw [h1]; rfl⟩, fun y => ?_, fun y hy a hb => ?_⟩, h7, ?_, ?_, h1⟩
    · obtain ⟨dd, hdd, _⟩ := h4 y; rw [hdd]; exact i.fin y
    · obtain ⟨dd, hdd, _⟩ := h4 y; rw [hdd]; exact i.st y
    · obtain ⟨dd, hdd, _⟩ := h4 y; rw [hdd, hd]; exact i.dn y
    · obtain ⟨dd, hdd, _⟩ := h4 y; rw [hdd, hd]; exact i.dn' y st
    · obtain ⟨dd, hdd, _⟩ := h4 y; rw [hdd, h2]; exact i.run y
    · rw [h2] at hy; rw [hst]; exact i.runStart y hy
    · obtain ⟨dd, hdd, _⟩ := h4 y; rw [hdd, h3, hc]; exact i.cons y
    · by_cases hy : y = f
      · subst hy
        refine ⟨_, h6, fun z hz => ?_, fun q hn => ?_⟩
        · rw [h1]
          rcases hpre.1 z hz with a | a
          · exact .inl (List.mem_cons_of_mem _ a)
          · by_cases hzx : z = x.file
            · rw [hzx]; exact .inl (List.mem_cons_self ..)
            · refine .inr ?_
              simp only [List.map_append, List.map_cons, List.mem_append, List.mem_cons] at a ⊢
              rcases a with a | a | a
              · exact .inl a
              · exact absurd a hzx
              · exact .inr a
        · rw [h1]
          rcases hpre.2 q hn with a | a
          · exact .inl (List.mem_cons_of_mem _ a)
          · simp only [List.mem_append, List.mem_cons] at a ⊢
            rcases a with a | a | a
            · exact .inr (.inl a)
            · rw [a]; exact .inl (.inl rfl)
            · exact .inr (.inr a)
      · obtain ⟨l, hl, hq⟩ := i.lists y
        obtain ⟨dd, hdd, hdd'⟩ := h4 y
        refine ⟨l, ?_, fun z hz => ?_, fun q hn => ?_⟩
        · rw [hdd]
          simp only
          rw [hdd' hy]
          refine hl.congr (fun n hn => ?_)
          have : S.own n = y := Stretch.own i0 hl (fun n hn => by rw [(i0.deps y n hn).1, pl.grp]) n hn
          rw [h5 n (by rw [this]; exact hy)]
        · rw [h1]
          exact (hq.1 z hz).imp_left (List.mem_cons_of_mem _)
        · rw [h1]
          exact (hq.2 q hn).imp_left (List.mem_cons_of_mem _)
    · rw [h1]
      refine i.order.cons (fun g hg => ?_)
      rcases hg with hg | hg <;> cases hg
    · rw [hst] at hy; exact i.startN y hy
    · obtain ⟨dd, hdd, _⟩ := h4 y; rw [hdd]; exact .inl rfl
    · obtain ⟨dd, hdd, hdd'⟩ := h4 y
      rw [hdd, h2]
      exact ⟨hdd' hy, fun n hn => by rw [h5 n (by rw [hn]; exact hy)], rfl, rfl, rfl, hb, a⟩
    · obtain ⟨dd, hdd, _⟩ := h4 f; rw [hdd]
    · obtain ⟨dd, hdd, _⟩ := h4 f; rw [hdd]
  cases last with
  | none =>
    have : l0 = [] := by
      cases l0 with
      | nil => rfl
      | cons p l => simp [List.getLast?_cons] at hlast
    subst this
    simp only [unlink, wp_modify]
    refine fin _ rfl rfl rfl (fun y => ?_) (fun _ _ => rfl) ?_ ?_
    · by_cases hy : y = f
      · exact ⟨x.next, by simp [UState.setFile, UState.note, hy], fun h => absurd hy h⟩
      · exact ⟨(s.file y).deps, by simp [UState.setFile, UState.note, hy], fun _ => rfl⟩
    · simp only [UState.setFile, UState.note, if_true, List.nil_append]
      exact hrest
    · simp only [UState.setFile, UState.note, if_true]
      exact .nil _
  | some l =>
    have hl0 : ∃ l1 fl, l0 = l1 ++ [(l, fl)] := by
      rcases List.eq_nil_or_concat l0 with h | ⟨l1, p, h⟩
      · subst h; simp at hlast
      · subst h
        refine ⟨l1, p.2, ?_⟩
        simp at hlast
        rw [hlast]
        simp
    obtain ⟨l1, fl, rfl⟩ := hl0
    obtain ⟨y, hs1, hy, rfl, hyn⟩ := hseg.snoc
    simp only [unlink, wp_bind, wp_readDep]
    have hy' : (s.note (.dropped f x.file)).dep l = some y := hy
    rw [hy']
    simp only [writeDep, wp_modify]
    have hdist : l ∉ l1.map Prod.fst ∧ l ∉ rest.map Prod.fst := by
      have nd := hnodes.2
      rw [List.map_append, List.map_append] at nd
      rw [List.nodup_append, List.nodup_append] at nd
      constructor
      · intro h
        exact nd.1.2.2 l h l (by simp) rfl
      · intro h
        exact nd.2.2 l (by simp) l (by simp only [List.map_cons, List.mem_cons]; exact .inr h) rfl
    have hownl : S.own l = f := hown l (by simp)
    have seg1 : Stretch (fun y_1 => if y_1 = l then some { y with next := x.next } else s.dep y_1) (s.file f).deps (l1 ++ [(l, y.file)]) x.next := by
      refine (hs1.congr (fun n hn => ?_)).append ?_
      · have : n ≠ l := fun h => hdist.1 (by rw [← h]; exact hn)
        simp only [this, if_false]
      · have := Stretch.cons (dep := fun y_1 => if y_1 = l then some { y with next := x.next } else s.dep y_1) (n := l) (x := { y with next := x.next }) (l := [])
          (z := x.next) (by simp) (.nil _)
        exact this
    refine fin _ rfl rfl rfl (fun z => ⟨(s.file z).deps, rfl, fun _ => rfl⟩) (fun n hn => ?_) ?_ seg1
    · have : n ≠ l := fun h => hn (by rw [h]; exact hownl)
      simp only [UState.note, this, if_false]
    · refine seg1.append (hrest.congr (fun n hn => ?_))
      have : n ≠ l := fun h => hdist.2 (by rw [← h]; exact hn)
      simp only [this, if_false]

/-! ### The induction -/

theorem UStatus.max_success {a b : UStatus} (h : a.max b = .success) : a = .success ∧ b = .success := by
  cases a <;> cases b <;> simp_all [UStatus.max, UStatus.rank]

theorem UStatus.success_max (a : UStatus) : UStatus.success.max a = a := by
  cases a <;> rfl

theorem Told.refl_success {s : UState} {f : Nat} (h : (s.file f).updated = false) : Told .success s f :=
  ⟨fun h => absurd rfl h, fun _ h' => by rw [h] at h'; cases h'⟩

/-- What the loop over the prerequisites of `f` has found. -/
structure FoundAll (S : Shape) (pre0 : Nat → List Nat) (P : Nat → Prop) (b f : Nat) (sc : Scan) (s : UState) : Prop where
  inv : Inv1 S pre0 (fun x => P x ∨ x = f) b s
  upd : (s.file f).updated = false
  run : (s.file f).cstate ≠ .running
  busy : sc.running = true → s.count ≠ b
  settled : sc.status = .success → sc.running = false → Settled pre0 s.log f

theorem run_plain (ok : S.Ok) (pl : S.Plain) (pre0 : Nat → List Nat) (b : Nat) : ∀ n,
    (∀ f P s, Inv0 S s → Stk S s f → Inv1 S pre0 P b s → f < S.N → (∀ x, P x → (s.file x).updating = true) → ¬ P f →
      wp (updateFile e n f) (fun st s' => Inv1 S pre0 P b s' ∧ Rel2 S (· = f) s s' ∧ (s'.file f).considered = s.considered ∧ Told st s' f)
      (OrderOk pre0) (OrderOk pre0) s) ∧
    (∀ f P s, Inv0 S s → Stk S s f → Inv1 S pre0 P b s → f < S.N → (∀ x, P x → (s.file x).updating = true) → ¬ P f →
      wp (updateEntries e n [f] .success) (fun st s' => Inv1 S pre0 P b s' ∧ Rel2 S (· = f) s s' ∧ (s'.file f).considered = s.considered ∧ Told st s' f)
      (OrderOk pre0) (OrderOk pre0) s) ∧
    (∀ f P s, Inv0 S s → Stk S s f → Inv1 S pre0 (fun x => P x ∨ x = f) b s → f < S.N → (∀ x, P x → (s.file x).updating = true) → ¬ P f →
      (s.file f).considered = s.considered →
      wp (updateFile1 e n f) (fun st s' => Inv1 S pre0 P b s' ∧ Rel2 S (· = f) s s' ∧ Told st s' f)
      (OrderOk pre0) (OrderOk pre0) s) ∧
    (∀ f P thisM sc s, Inv0 S s → Stk S s f → (s.file f).updating = true → Inv1 S pre0 (fun x => P x ∨ x = f) b s → f < S.N →
      (∀ x, P x → (s.file x).updating = true) → (s.file f).updated = false → (s.file f).cstate ≠ .running →
      sc.running = false →
      wp (scanLists e n f thisM [f] sc) (fun sc' s' => FoundAll S pre0 P b f sc' s' ∧ Rel2 S (· = f) s s')
      (OrderOk pre0) (OrderOk pre0) s) ∧
    (∀ f P thisM last d sc s l0, (∀ m, d = some m → S.own m = S.grp f ∧ m < S.D) →
      (∀ l, last = some l → S.own l = S.grp f ∧ ∀ m, d = some m → l < m) →
      Inv0 S s → Stk S s f → (s.file f).updating = true → Inv1 S pre0 (fun x => P x ∨ x = f) b s → f < S.N →
      (∀ x, P x → (s.file x).updating = true) → (s.file f).updated = false → (s.file f).cstate ≠ .running →
      Stretch s.dep (s.file f).deps l0 d → last = (l0.map Prod.fst).getLast? → (sc.running = true → s.count ≠ b) →
      (sc.status = .success → sc.running = false → ∀ y ∈ l0.map Prod.snd, UEvent.done y .success ∈ s.log) →
      wp (scanDeps e n f thisM last d sc) (fun sc' s' => FoundAll S pre0 P b f sc' s' ∧ Rel2 S (· = f) s s')
      (OrderOk pre0) (OrderOk pre0) s) ∧
    (∀ f P thisM must s, Inv0 S s → Stk S s f → (s.file f).updating = false → Inv1 S pre0 P b s → f < S.N →
      (∀ x, P x → (s.file x).updating = true) →
      wp (checkDep e n f thisM must) (fun r s' => Inv1 S pre0 P b s' ∧ Rel2 S (fun _ => False) s s' ∧
        (s'.file f).considered = s.considered ∧ Told r.1 s' f)
      (OrderOk pre0) (OrderOk pre0) s) := by
  have hpl : ∀ x, (s : UState) → Fits S s → (s.file x).alsoMake = [] := fun x s i => (i.also x).trans (pl.also x)
  have hend : ∀ {f sc s P}, Inv1 S pre0 (fun x => P x ∨ x = f) b s → (s.file f).updated = false → (s.file f).cstate ≠ .running →
      (sc.running = true → s.count ≠ b) → (sc.status = UStatus.success → sc.running = false → Settled pre0 s.log f) →
      FoundAll S pre0 P b f sc s := fun a b c d e => ⟨a, b, c, d, e⟩
  intro n
  induction n with
  | zero =>
    refine ⟨fun f P s i0 k i hN hP hn => ?_, fun f P s i0 k i hN hP hn => ?_, fun f P s i0 k i hN hP hn hc => ?_,
      fun f P thisM sc s i0 k hf i hN hP hu hr hsc => ?_,
      fun f P thisM last d sc s l0 hd hl i0 k hf i hN hP hu hr hseg hlast hb hset => ?_, fun f P thisM must s i0 k hf i hN hP => ?_⟩
    · rw [updateFile]; exact i.order
    · rw [updateEntries]; exact i.order
    · rw [updateFile1]; exact i.order
    · rw [scanLists]; exact i.order
    · cases d with
      | none =>
        rw [scanDeps]
        refine ⟨⟨i, hu, hr, hb, fun h1 h2 y hy => ?_⟩, Rel2.refl s⟩
        obtain ⟨l, hl', hq⟩ := i.lists f
        rw [Stretch.unique hl' hseg] at hq
        exact (hq.1 y hy).imp_right (hset h1 h2 y)
      | some d => rw [scanDeps]; exact i.order
    · rw [checkDep]; exact i.order
  | succ n ih =>
    obtain ⟨jF, jE, jF1, jL, jD, jC⟩ := run_inv (e := e) ok n
    obtain ⟨ihF, ihE, ihF1, ihL, ihD, ihC⟩ := ih
    refine ⟨fun f P s i0 k i hN hP hn => ?_, fun f P s i0 k i hN hP hn => ?_, fun f P s i0 k i hN hP hn hc => ?_,
      fun f P thisM sc s i0 k hf i hN hP hu hr hsc => ?_,
      fun f P thisM last d sc s l0 hd hl i0 k hf i hN hP hu hr hseg hlast hb hset => ?_, fun f P thisM must s i0 k hf i hN hP => ?_⟩
    · -- updateFile
      rw [updateFile]
      simp only [wp_bind, wp_get, wp_ite, wp_pure]
      rw [i0.fits.head, pl.head]
      split
      · rename_i hc
        refine ⟨i, Rel2.refl s, hc, ?_⟩
        split
        · rename_i hfin
          have hup := (i.fin f).mp hfin
          exact ⟨fun h => ⟨hup, h⟩, fun h _ => h⟩
        · rename_i hfin
          exact ⟨fun h => absurd rfl h, fun _ h => absurd ((i.fin f).mpr h) hfin⟩
      · rw [i0.fits.chain, pl.chain]
        exact ihE f P s i0 k i hN hP hn
    · -- updateEntries
      rw [updateEntries]
      simp only [wp_bind, wp_modify, wp_get, wp_ite, wp_pure]
      obtain ⟨i1, r1, c1⟩ := consider_inv1 f i
      have i01 : Inv0 S (s.setFile f fun y => { y with considered := s.considered }) ∧
          (∀ y, ((s.setFile f fun y => { y with considered := s.considered }).file y).updating = (s.file y).updating) := by
        have key : ∀ y, ∃ c, (s.setFile f fun y => { y with considered := s.considered }).file y = { s.file y with considered := c } := by
          intro y
          by_cases hy : y = f
          · exact ⟨s.considered, by simp [UState.setFile, hy]⟩
          · exact ⟨(s.file y).considered, by simp [UState.setFile, hy]⟩
        constructor
        · refine ⟨⟨fun y => ?_, fun y => ?_, fun y => ?_, fun y => ?_, fun y n a => ?_, i0.fits.node⟩,
            ⟨i0.log.once, i0.log.drops⟩, fun y a => ?_⟩ <;> obtain ⟨c, hc⟩ := key y
          · rw [hc]; exact i0.fits.head y
          · rw [hc]; exact i0.fits.chain y
          · rw [hc]; exact i0.fits.also y
          · rw [hc]; exact i0.fits.inter y
          · rw [hc] at a; exact i0.fits.deps y n a
          · rw [hc]; exact i0.started y a
        · intro y
          obtain ⟨c, hc⟩ := key y
          rw [hc]
      obtain ⟨i01, fl⟩ := i01
      have cc : (s.setFile f fun y => { y with considered := s.considered }).considered = s.considered := rfl
      generalize (s.setFile f fun y => { y with considered := s.considered }) = s1 at *
      have k1 : Stk S s1 f := fun h hh => k h (by rw [← fl h]; exact hh)
      refine wp_mono (wp_and (ihF1 f P s1 i01 k1 i1 hN (fun x hx => (fl x).trans (hP x hx)) hn (c1.trans cc.symm)) (jF1 f s1 i01 k1))
        (fun new s2 q => ?_) (fun _ q => q.1) (fun _ q => q.1)
      obtain ⟨⟨i2, r2, t2⟩, i02, _⟩ := q
      have c2 : (s2.file f).considered = s.considered := (r2.consid f (c1.trans cc.symm)).trans cc
      split
      · exact ⟨i2, r1.trans r2, c2, t2⟩
      · split
        · rename_i hbusy
          refine ⟨i2, r1.trans r2, c2, fun h => absurd rfl h, fun _ h => ?_⟩
          have := (i2.fin f).mpr h
          rw [this] at hbusy
          cases hbusy
        · have : wp (updateEntries e n [] (UStatus.success.max new)) (fun st s' => Inv1 S pre0 P b s' ∧ Rel2 S (· = f) s s' ∧
              (s'.file f).considered = s.considered ∧ Told st s' f) (OrderOk pre0) (OrderOk pre0) s2 := by
            rw [UStatus.success_max]
            cases n <;> rw [updateEntries] <;> exact ⟨i2, r1.trans r2, c2, t2⟩
          exact this
    · -- updateFile1
      rw [updateFile1]
      simp only [wp_bind, wp_get, wp_ite, wp_pure]
      split
      · rename_i hup
        refine ⟨i.drop (.inl hup), Rel2.refl s, ?_⟩
        have := (i.dn f hup).1
        cases hst : (s.file f).ustatus <;> rw [hst] at this <;> simp_all [Told, UStatus.rank]
      · rename_i hup
        have hup' : (s.file f).updated = false := by simpa using hup
        split
        · rename_i hrun
          have hm := (i.run f).mp hrun
          refine ⟨i.drop (.inr ⟨by rw [hrun]; rfl, fun h => ?_⟩), Rel2.refl s, Told.refl_success hup'⟩
          rw [i.kr h] at hm
          cases hm
        · rename_i hrun
          split
          · rename_i hfin
            exact absurd ((i.fin f).mp hfin) hup
          · rw [setUpdating_wp true f _ _ _ s i0.fits, pl.head]
            have i01 := setFlag_inv i0 f true
            obtain ⟨i1, r1⟩ := flag_inv1 f true i
            have k1 := k.flagged true
            rw [pl.head] at k1
            have f1 := flag_self s f true
            have o1 : ∀ y, y ≠ f → ((s.setFile f fun x => { x with updating := true }).file y).updating = (s.file y).updating :=
              fun y hy => flag_other s f true y hy
            have u1 : ((s.setFile f fun x => { x with updating := true }).file f).updated = (s.file f).updated := flag_updated s f true f
            have s1c : ((s.setFile f fun x => { x with updating := true }).file f).cstate = (s.file f).cstate := by simp [UState.setFile]
            generalize (s.setFile f fun x => { x with updating := true }) = s1 at *
            refine wp_of_T (fileMtime_quiet f s1) (fun thisM s2 q2 => ?_)
            refine wp_of_T (lastResort_quiet f s2) (fun _ s3 q3 => ?_)
            have q13 := q2.trans q3
            have i03 := q13.calm.inv i01
            have i3 := q13.inv1 i1
            have r13 : Rel S (fun _ => False) s1 s3 := q13.calm.rel
            have f3 : (s3.file f).updating = true := (r13.flag _ (fun h => h)).trans f1
            have k3 : Stk S s3 f := k1.rel (r13.weaken (fun _ h => h.elim))
            have hP1 : ∀ x, P x → (s1.file x).updating = true := fun x hx => by
              rw [o1 x (fun h => hn (by rw [← h]; exact hx))]; exact hP x hx
            rw [i03.fits.also, pl.also]
            have hu3 : (s3.file f).updated = false := (q13.same f).1.trans (u1.trans hup')
            have hr3 : (s3.file f).cstate ≠ .running := by rw [(q13.same f).2.1, s1c]; exact hrun
            have f3' : (s3.file (S.head f)).updating = true := by rw [pl.head]; exact f3
            refine wp_mono (wp_and (ihL f P thisM { must := decide (thisM = 1) } s3 i03 k3 f3 i3 hN (fun x hx => (r13.flag x (fun h => h)).trans (hP1 x hx)) hu3 hr3 rfl)
              (jL f thisM [f] { must := decide (thisM = 1) } s3 (fun g hg => by simp at hg; rw [hg]) i03 k3 f3'))
              (fun sc s4 q4 => ?_) (fun _ q => q.1) (fun _ q => q.1)
            obtain ⟨⟨fo, r4⟩, i04, r04⟩ := q4
            have r14 := (r1.trans q13.rel2).trans r4
            have rest : wp (do
                  setUpdating false f
                  if sc.running then do
                    UM.modify fun s => setCState s f .depsRunning
                    pure UStatus.success
                  else decideFile e n f thisM sc) (fun st s' => Inv1 S pre0 P b s' ∧ Rel2 S (· = f) s s' ∧ Told st s' f) (OrderOk pre0)
                  (OrderOk pre0) s4 := by
              rw [wp_bind, setUpdating_wp false f _ _ _ s4 i04.fits, pl.head]
              have i05 := setFlag_inv i04 f false
              obtain ⟨i5, r5⟩ := flag_inv1 f false fo.inv
              have u5 : ((s4.setFile f fun x => { x with updating := false }).file f).updated = (s4.file f).updated := flag_updated s4 f false f
              have c5 : ((s4.setFile f fun x => { x with updating := false }).file f).cstate = (s4.file f).cstate := by simp [UState.setFile]
              have l5 : (s4.setFile f fun x => { x with updating := false }).log = s4.log := rfl
              have n5 : (s4.setFile f fun x => { x with updating := false }).count = s4.count := rfl
              generalize (s4.setFile f fun x => { x with updating := false }) = s5 at *
              have hu5 : (s5.file f).updated = false := u5.trans fo.upd
              have hr5 : (s5.file f).cstate ≠ .running := by rw [c5]; exact fo.run
              simp only [wp_bind, wp_modify, wp_ite, wp_pure]
              split
              · rename_i hb
                rw [setCState_plain s5 f _ (hpl f s5 i05.fits)]
                obtain ⟨i6, r6⟩ := waiting_inv1 (c := .depsRunning) (by simp) i5 hu5 (fun h => hr5 ((i5.run f).mpr h))
                refine ⟨i6.drop (.inr ⟨by simp [UState.setFile, CState.busy], ?_⟩), (r14.trans r5).trans r6, Told.refl_success ?_⟩
                · show s5.count ≠ b
                  rw [n5]; exact fo.busy hb
                · simp [UState.setFile, hu5]
              · rename_i hb
                exact wp_mono (decideFile_plain hpl n f thisM sc s5 i05 i5 hu5 hr5 hN (fun h => by rw [l5]; exact fo.settled h (by simpa using hb)))
                  (fun _ s6 q6 => ⟨q6.1, (r14.trans r5).trans q6.2.1, q6.2.2⟩) (fun _ q => q) (fun _ q => q)
            simp only [wp_bind, wp_ite, wp_pure] at rest
            split
            · refine wp_mono (updateIntermediates_none n f _ sc s4 i04.fits (fun m hm => (i04.fits.deps f m hm).2))
                (fun sc' s' q => ?_) (fun _ q => by rw [q]; exact fo.inv.order) (fun s' q => by rw [q.1]; exact fo.inv.order)
              obtain ⟨rfl, rfl⟩ := q
              exact rest
            · exact rest
    · -- scanLists
      rw [scanLists]
      simp only [wp_bind, wp_get]
      refine wp_mono (ihD f P thisM none _ sc s [] (fun m hm => i0.fits.deps f m hm) (fun l h => by cases h) i0 k hf i hN hP hu hr
        (.nil _) rfl (fun h => by rw [hsc] at h; cases h) (fun _ _ y hy => by cases hy)) (fun sc' s2 q => ?_) (fun _ q => q) (fun _ q => q)
      cases n <;> rw [scanLists] <;> exact q
    · -- scanDeps
      cases d with
      | none =>
        rw [scanDeps]
        refine ⟨⟨i, hu, hr, hb, fun h1 h2 y hy => ?_⟩, Rel2.refl s⟩
        obtain ⟨l, hl', hq⟩ := i.lists f
        rw [Stretch.unique hl' hseg] at hq
        exact (hq.1 y hy).imp_right (hset h1 h2 y)
      | some d =>
        rw [scanDeps]
        simp only [wp_bind, wp_readDep]
        have hdd := hd d rfl
        cases hx : s.dep d with
        | none => exact i.order
        | some x =>
          simp only
          refine wp_of_T (fileMtime_quiet x.file s) (fun mtime s1 q1 => ?_)
          have i01 := q1.calm.inv i0
          have i1 := q1.inv1 i
          have r01 : Rel S (fun _ => False) s s1 := q1.calm.rel
          have k1 := k.rel (r01.weaken (fun _ h => h.elim))
          have hf1 := (r01.flag f (fun h => h)).trans hf
          have nd := i0.fits.node d x hx
          have edge : S.edge (S.grp f) x.file := by rw [← hdd.1]; exact nd.1
          have hnx : ∀ m, x.next = some m → S.own m = S.grp f ∧ m < S.D := fun m hm =>
            ⟨(nd.2 m hm).1.trans hdd.1, (nd.2 m hm).2.2⟩
          have hP1 : ∀ y, P y → (s1.file y).updating = true := fun y hy => (r01.flag y (fun h => h)).trans (hP y hy)
          have hu1 : (s1.file f).updated = false := (q1.same f).1.trans hu
          have hr1 : (s1.file f).cstate ≠ .running := by rw [(q1.same f).2.1]; exact hr
          have hseg1 : Stretch s1.dep (s1.file f).deps l0 (some d) := by
            rw [still_deps (q1.calm.still f)]; exact hseg.congr (fun n _ => q1.calm.dep n)
          have hb1 : sc.running = true → s1.count ≠ b := fun h => by
            have := hb h; unfold UState.count at this ⊢; rw [q1.log]; exact this
          have hset1 : sc.status = .success → sc.running = false → ∀ y ∈ l0.map Prod.snd, UEvent.done y .success ∈ s1.log := by
            rw [q1.log]; exact hset
          obtain ⟨y1, hy1, hlk1⟩ : ∃ y1, s1.dep d = some y1 ∧ y1.link = x.link := by
            have := q1.calm.dep d
            rw [hx] at this
            cases hy : s1.dep d with
            | none => rw [hy] at this; simp at this
            | some y => rw [hy] at this; simp at this; exact ⟨y, rfl, this⟩
          simp only [UDep.link, Prod.mk.injEq] at hlk1
          simp only [wp_get, wp_ite, isUpdating, i01.fits.head, pl.head]
          have hlx : ∀ l, last = some l → S.own l = S.grp f ∧ ∀ m, x.next = some m → l < m := by
            intro l hl'
            refine ⟨(hl l hl').1, fun m hm => ?_⟩
            have := (hl l hl').2 d rfl
            have := (nd.2 m hm).2.1
            omega
          split
          · rename_i hup
            have hup' : (s1.file (S.head x.file)).updating = true := by rw [pl.head]; exact hup
            have reach := k1 _ hup'
            -- the rest is as in `run_inv`
            have i02 : Inv0 S (s1.note (.dropped f x.file)) := by
              refine ⟨⟨i01.fits.head, i01.fits.chain, i01.fits.also, i01.fits.inter, i01.fits.deps, i01.fits.node⟩,
                ⟨i01.log.once, fun a c h => ?_⟩, fun y h => ?_⟩
              · have : UEvent.dropped a c ∈ UEvent.dropped f x.file :: s1.log := h
                rcases List.mem_cons.mp this with h | h
                · cases h; exact ⟨by rw [pl.grp, ← pl.grp f, ← hdd.1]; exact nd.1, reach⟩
                · exact i01.log.drops a c h
              · have : UEvent.start y ∈ UEvent.dropped f x.file :: s1.log := h
                rcases List.mem_cons.mp this with h | h
                · cases h
                · exact i01.started y h
            have w1 := drop_inv1 (S := S) (pre0 := pre0) (b := b) (Q := fun x => P x ∨ x = f) (last := last) pl i01.fits i1 hf1 hy1 hseg1 hlast
            rw [hlk1.1, hlk1.2, wp_bind, wp_modify] at w1
            simp only [wp_bind, wp_modify]
            refine wp_mono (wp_and w1 (unlink_inv f last x.next _ i02 hnx hlx)) (fun _ s3 q3 => ?_) (fun _ q => q.1.elim) (fun _ q => q.1.elim)
            obtain ⟨⟨i3, r3, hseg3, u3, cs3, lg3⟩, i03, fl3, _⟩ := q3
            have r03 : Rel2 S (· = f) s s3 := q1.rel2.trans r3
            have hf3 : (s3.file f).updating = true := (fl3 f).trans hf1
            have k3 : Stk S s3 f := fun h hh => k1 h (by rw [← show (s3.file h).updating = (s1.file h).updating from fl3 h]; exact hh)
            have hcnt : s3.count = s1.count := by unfold UState.count; rw [lg3]; rfl
            refine wp_mono (ihD f P thisM last x.next sc s3 l0 hnx hlx i03 k3 hf3 i3 hN (fun y hy => (fl3 y).trans (hP1 y hy))
              (u3.trans hu1) (by rw [cs3]; exact hr1) hseg3 hlast (by rw [hcnt]; exact hb1)
              (fun h1 h2 y hy => by rw [lg3]; exact List.mem_cons_of_mem _ (hset1 h1 h2 y hy)))
              (fun _ s4 q4 => ⟨q4.1, r03.trans q4.2⟩) (fun _ q => q) (fun _ q => q)
          · rename_i hup
            have hup' : (s1.file x.file).updating = false := by simpa using hup
            have hup'' : (s1.file (S.head x.file)).updating = false := by rw [pl.head]; exact hup'
            have kx : Stk S s1 x.file := fun h hh => .step (k1 h hh) edge
            have hxN : x.file < S.N := by have := ok.eN _ _ edge; rwa [pl.head] at this
            have hxf : x.file ≠ f := fun h => by rw [h, hf1] at hup'; cases hup'
            have hPx : ¬ P x.file := fun h => by rw [hP1 _ h] at hup'; cases hup'
            simp only [wp_bind]
            have hPf : ∀ y, (P y ∨ y = f) → (s1.file y).updating = true := by
              intro y hy
              rcases hy with hy | hy
              · exact hP1 y hy
              · rw [hy]; exact hf1
            refine wp_mono (wp_and (ihC x.file (fun y => P y ∨ y = f) thisM sc.must s1 i01 kx hup' i1 hxN hPf) (jC x.file thisM sc.must s1 i01 kx hup''))
              (fun r s2 q2 => ?_) (fun _ q => q.1) (fun _ q => q.1)
            obtain ⟨⟨i2, r2, c2, t2⟩, i02, r12⟩ := q2
            have r02 : Rel2 S (· = f) s s2 := q1.rel2.trans (r2.weaken (fun _ h => h.elim))
            have hmem1 : f ∉ s1.running := fun h => hr1 ((i1.run f).mpr h)
            obtain ⟨fd, fn, fu, fc, _, fm, ff⟩ := r2.frame f (fun h => h) hf1 hmem1
            have hown : ∀ n ∈ l0.map Prod.fst, S.own n = f :=
              Stretch.own i01.fits hseg1 (fun n hn => by rw [(i01.fits.deps f n hn).1, pl.grp])
            have hseg2 : Stretch s2.dep (s2.file f).deps l0 (some d) := by
              rw [fd]; exact hseg1.congr (fun n hn => fn n (hown n hn))
            have hownd : S.own d = f := by rw [hdd.1, pl.grp]
            obtain ⟨x2, hx2, hlk2⟩ : ∃ x2, s2.dep d = some x2 ∧ x2.link = x.link := by
              have := fn d hownd
              rw [hy1] at this
              cases hy : s2.dep d with
              | none => rw [hy] at this; simp at this
              | some y => rw [hy] at this; simp [UDep.link] at this; exact ⟨y, rfl, by simp [UDep.link, this.1, this.2, hlk1.1, hlk1.2]⟩
            simp only [UDep.link, Prod.mk.injEq] at hlk2
            simp only [wp_readDep, hx2, wp_get, wp_ite, wp_pure]
            rw [hlk2.1, hlk2.2]
            have hany : anyBusy s2 x.file = (s2.file x.file).cstate.busy := by
              unfold anyBusy
              rw [i02.fits.head, pl.head, i02.fits.chain, pl.chain]
              simp
            have hcx : (s2.file x.file).considered = s2.considered := by rw [c2, r2.cons]
            have hcons := i2.cons x.file hcx
            have hb2 : (sc.running || anyBusy s2 x.file) = true → s2.count ≠ b := by
              intro h
              rw [Bool.or_eq_true] at h
              rcases h with h | h
              · have := hb1 h
                have := r2.count
                have := i1.kb
                omega
              · rw [hany] at h
                rcases hcons with (c | c) | c | c
                · exact absurd c hPx
                · exact absurd c hxf
                · rw [(i2.fin _).mpr c] at h; cases h
                · exact c.2
            have hset2 : sc.status.max r.1 = .success → (sc.running || anyBusy s2 x.file) = false →
                ∀ y ∈ (l0 ++ [(d, x.file)]).map Prod.snd, UEvent.done y .success ∈ s2.log := by
              intro h1 h2 y hy
              obtain ⟨m1, m2⟩ := UStatus.max_success h1
              rw [Bool.or_eq_false_iff] at h2
              rw [List.map_append, List.mem_append] at hy
              rcases hy with hy | hy
              · obtain ⟨lg, hlg⟩ := r2.log
                rw [hlg]
                exact List.mem_append_right _ (hset1 m1 h2.1 y hy)
              · simp only [List.map_cons, List.map_nil, List.mem_singleton] at hy
                rw [hy]
                have hub : (s2.file x.file).updated = true := by
                  rcases hcons with (c | c) | c | c
                  · exact absurd c hPx
                  · exact absurd c hxf
                  · exact c
                  · rw [hany] at h2
                    rw [c.1] at h2
                    exact absurd h2.2 (by simp)
                exact i2.doneOf hub (t2.2 m2 hub)
            have hu2 : (s2.file f).updated = false := fu.trans hu1
            have hr2 : (s2.file f).cstate ≠ .running := by rw [fc]; exact hr1
            split
            · rename_i hstop
              exact ⟨⟨i2, hu2, hr2, hb2, fun h => absurd h hstop.1⟩, r02⟩
            · have hseg2' : Stretch s2.dep (s2.file f).deps (l0 ++ [(d, x.file)]) x.next := by
                refine hseg2.append ?_
                rw [← hlk2.1, ← hlk2.2]
                exact .cons hx2 (.nil _)
              have go : ∀ (sc' : Scan) (s3 : UState), Quiet s2 s3 → sc'.running = (sc.running || anyBusy s2 x.file) → sc'.status = sc.status.max r.1 →
                  wp (scanDeps e n f thisM (some d) x.next sc')
                    (fun sc' s' => FoundAll S pre0 P b f sc' s' ∧ Rel2 S (· = f) s s') (OrderOk pre0) (OrderOk pre0) s3 := by
                intro sc' s3 q23 e1 e2
                have i03 := q23.calm.inv i02
                have fl3 : ∀ y, (s3.file y).updating = (s2.file y).updating := fun y => still_updating (q23.calm.still y)
                have fl13 : ∀ y, (s3.file y).updating = (s1.file y).updating := fun y => (fl3 y).trans (r12.flag y (fun h => h))
                refine wp_mono (ihD f P thisM (some d) x.next sc' s3 (l0 ++ [(d, x.file)]) hnx (fun l hl' => ?_) i03
                  (fun h hh => k1 h (by rw [← fl13 h]; exact hh)) ((fl13 f).trans hf1) (q23.inv1 i2) hN (fun y hy => (fl13 y).trans (hP1 y hy))
                  ((q23.same f).1.trans hu2) (by rw [(q23.same f).2.1]; exact hr2)
                  (by rw [still_deps (q23.calm.still f)]; exact hseg2'.congr (fun n _ => q23.calm.dep n)) (by simp)
                  (fun h => ?_) (fun h1 h2 y hy => ?_))
                  (fun _ s4 q4 => ⟨q4.1, (r02.trans q23.rel2).trans q4.2⟩) (fun _ q => q) (fun _ q => q)
                · cases hl'
                  exact ⟨hdd.1, fun m hm => (nd.2 m hm).2.1⟩
                · have := hb2 (e1 ▸ h)
                  unfold UState.count at this ⊢
                  rw [q23.log]; exact this
                · rw [q23.log]
                  exact hset2 (e2 ▸ h1) (e1 ▸ h2) y hy
              simp only [wp_bind, wp_ite, wp_pure]
              split
              · exact go _ s2 (Quiet.refl s2) rfl rfl
              · refine wp_of_T (fileMtime_quiet x.file s2) (fun m s3 q3 => ?_)
                have hl3 := q3.calm.dep d
                rw [hx2] at hl3
                cases hy : s3.dep d with
                | none => rw [hy] at hl3; simp at hl3
                | some y =>
                  rw [hy] at hl3
                  simp only [Option.map_some, Option.some.injEq] at hl3
                  refine wp_of_T (writeDep_quiet d _ s3 y hy (by rw [hl3]; simp [UDep.link, hlk2.1, hlk2.2])) (fun _ s4 q4 => ?_)
                  exact go _ s4 (q3.trans q4) rfl rfl
    · -- checkDep
      rw [checkDep]
      simp only [wp_bind]
      rw [setUpdating_wp true f _ _ _ s i0.fits, pl.head]
      have i01 := setFlag_inv i0 f true
      obtain ⟨i1, r1⟩ := flag_inv1 f true i
      have k1 := k.flagged true
      rw [pl.head] at k1
      have o1 : ∀ y, y ≠ f → ((s.setFile f fun x => { x with updating := true }).file y).updating = (s.file y).updating :=
        fun y hy => flag_other s f true y hy
      have hnP : ¬ P f := fun h => by rw [hP f h] at hf; cases hf
      have hP1 : ∀ x, P x → ((s.setFile f fun x => { x with updating := true }).file x).updating = true := fun x hx => by
        rw [o1 x (fun h => hnP (by rw [← h]; exact hx))]; exact hP x hx
      have c1 : (s.setFile f fun x => { x with updating := true }).considered = s.considered := rfl
      generalize (s.setFile f fun x => { x with updating := true }) = s1 at *
      simp only [wp_get, wp_ite]
      rw [if_pos (Or.inr (by rw [i01.fits.inter f]; simp))]
      simp only [wp_bind, wp_pure]
      refine wp_mono (wp_and (ihF f P s1 i01 k1 i1 hN hP1 hnP) (jF f s1 i01 k1)) (fun st s2 q2 => ?_) (fun _ q => q.1) (fun _ q => q.1)
      obtain ⟨⟨i2, r2, c2, t2⟩, i02, r12⟩ := q2
      refine wp_of_T (fileMtime_quiet f s2) (fun m s3 q3 => ?_)
      have i03 := q3.calm.inv i02
      rw [setUpdating_wp false f _ _ _ s3 i03.fits, pl.head]
      obtain ⟨i4, r4⟩ := flag_inv1 f false (q3.inv1 i2)
      have u4 : ((s3.setFile f fun x => { x with updating := false }).file f).updated = (s3.file f).updated := flag_updated s3 f false f
      have c4 : ((s3.setFile f fun x => { x with updating := false }).file f).ustatus = (s3.file f).ustatus := by simp [UState.setFile]
      have d4 : ((s3.setFile f fun x => { x with updating := false }).file f).considered = (s3.file f).considered := by simp [UState.setFile]
      refine ⟨i4, (((r1.trans r2).trans q3.rel2).trans r4).unflag hf, ?_, ?_⟩
      · rw [d4, still_considered (q3.calm.still f), c2, c1]
      · show Told st _ f
        unfold Told
        rw [u4, c4, (q3.same f).1, (q3.same f).2.2]
        exact t2

end Remake
