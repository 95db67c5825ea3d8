import Verif.Lost.Model
set_option linter.unusedVariables false
set_option linter.unusedSimpArgs false
/-!
# C151: lost output is noticed
-/
namespace Remake

/-! ## What make means to write -/

/-- The text that a history means for standard output, in order; text for a temporary file comes with the dump (the first argument is what waits for it). -/
def Spec.lostMeant : Str → List LostOp → Str
  | _, [] => []
  | w, .direct false ps rest _ :: ops => (ps.map (·.1)).flatten ++ rest ++ lostMeant w ops
  | w, .direct true _ _ _ :: ops => lostMeant w ops
  | w, .saved t _ :: ops => lostMeant (w ++ t) ops
  | w, .print t :: ops => t ++ lostMeant w ops
  | w, .flush _ :: ops => lostMeant w ops
  | w, .command t :: ops => lostMeant (w ++ t) ops
  | w, .dump _ :: ops => w ++ lostMeant [] ops
  | w, .restart _ :: ops => lostMeant [] ops

/-- The reads give the text to its end. -/
def Spec.lostReads : Str → List LostRead → Prop
  | [], _ => True
  | _ :: _, [] => False
  | _ :: _, .fails :: _ => False
  | c :: t, .takes n _ _ :: rs => 0 < n ∧ lostReads ((c :: t).drop n) rs

/-- The temporary file takes all and gives all; there is no restart. -/
def Spec.lostSound : Str → List LostOp → Prop
  | _, [] => True
  | w, .saved t n :: ops => t.length ≤ n ∧ lostSound (w ++ t) ops
  | w, .command t :: ops => lostSound (w ++ t) ops
  | w, .dump rs :: ops => lostReads w rs ∧ lostSound [] ops
  | _, .restart _ :: _ => False
  | w, .direct _ _ _ _ :: ops => lostSound w ops
  | w, .print _ :: ops => lostSound w ops
  | w, .flush _ :: ops => lostSound w ops

/-- How much text an operation is about. -/
def Spec.lostSize : LostOp → Nat
  | .direct _ ps rest _ => (ps.map (·.1)).flatten.length + rest.length
  | .saved t _ => t.length
  | .print t => t.length
  | .command t => t.length
  | .flush _ | .dump _ | .restart _ => 0

/-- The kernel takes so many characters each time standard output is written. -/
def Spec.lostWilling (k : Nat) : LostOp → Prop
  | .direct false ps _ a => (∀ p ∈ ps, k ≤ p.2.takes) ∧ k ≤ a.takes
  | .flush a | .restart a => k ≤ a.takes
  | .dump rs => ∀ n d a, LostRead.takes n d a ∈ rs → k ≤ d.takes ∧ k ≤ a.takes
  | _ => True

open Spec

/-! ## Lemmas -/

theorem LostStream.flush_ok {s : LostStream} {a : LostAns} (h : (s.flush a).err = false) :
    s.err = false ∧ (s.flush a).file = s.file ++ s.buf ∧ (s.flush a).buf = [] := by
  unfold LostStream.flush at h ⊢
  split at h <;> simp_all

theorem LostStream.pieces_ok (ps : List (Str × LostAns)) : ∀ (s : LostStream), (s.pieces ps).err = false →
    s.err = false ∧ (s.pieces ps).file ++ (s.pieces ps).buf = s.file ++ s.buf ++ (ps.map (·.1)).flatten := by
  induction ps with
  | nil => intro s h; simpa [LostStream.pieces] using h
  | cons p ps ih =>
    intro s h
    obtain ⟨t, a⟩ := p
    simp only [LostStream.pieces] at h ⊢
    obtain ⟨h1, h2⟩ := ih _ h
    obtain ⟨h3, h4, h5⟩ := LostStream.flush_ok h1
    refine ⟨h3, ?_⟩
    rw [h2, h4, h5]
    simp [LostStream.put]

theorem lostPump_ok (rs : List LostRead) : ∀ (s : LostStream) (t : Str), lostReads t rs → (lostPump s t rs).err = false →
    s.err = false ∧ (lostPump s t rs).file ++ (lostPump s t rs).buf = s.file ++ s.buf ++ t := by
  induction rs with
  | nil =>
    intro s t hr h
    cases t with
    | nil => simpa [lostPump] using h
    | cons c t => exact hr.elim
  | cons r rs ih =>
    intro s t hr h
    cases t with
    | nil =>
      cases r <;> simpa [lostPump] using h
    | cons c t =>
      cases r with
      | fails => exact hr.elim
      | takes n d a =>
        obtain ⟨hn, hr⟩ := hr
        have hn0 : n ≠ 0 := by omega
        rw [lostPump.eq_def] at h ⊢
        simp only [hn0, reduceCtorEq, or_self, if_false] at h ⊢
        split at h
        · rename_i hle
          rw [if_pos hle]
          obtain ⟨h1, h2⟩ := ih _ _ hr h
          obtain ⟨h3, h4, h5⟩ := LostStream.flush_ok h1
          obtain ⟨h6, h7, h8⟩ := LostStream.flush_ok h3
          refine ⟨h6, ?_⟩
          rw [h2, h4, h5, h7, h8]
          simp [LostStream.put]
        · rename_i hle
          obtain ⟨h6, h7, h8⟩ := LostStream.flush_ok h
          exfalso
          unfold LostStream.flush at h
          rw [if_neg hle] at h
          cases h

/-- A history without failures that are not noticed. -/
theorem lostRun_ok (ops : List LostOp) : ∀ (st : LostSt), lostSound st.tmp ops → (lostRun st ops).out.err = false →
    st.out.err = false ∧ (lostRun st ops).out.file ++ (lostRun st ops).out.buf = st.out.file ++ st.out.buf ++ lostMeant st.tmp ops := by
  induction ops with
  | nil => intro st _ h; simpa [lostRun, lostMeant] using h
  | cons op ops ih =>
    intro st hs h
    have e : lostRun st (op :: ops) = lostRun (lostStep st op) ops := rfl
    rw [e] at h ⊢
    cases op with
    | direct b ps rest a =>
      simp only [lostSound] at hs
      cases b with
      | false =>
        obtain ⟨h1, h2⟩ := ih (lostStep st (.direct false ps rest a)) hs h
        obtain ⟨h3, h4, h5⟩ := LostStream.flush_ok (s := (st.out.pieces ps).put rest) (a := a) h1
        obtain ⟨h6, h7⟩ := LostStream.pieces_ok ps st.out h3
        refine ⟨h6, ?_⟩
        rw [h2]
        simp only [lostStep, lostMeant]
        rw [h4, h5]
        simp only [LostStream.put, List.append_nil]
        rw [← List.append_assoc, h7]
        simp
      | true =>
        obtain ⟨h1, h2⟩ := ih (lostStep st (.direct true ps rest a)) hs h
        exact ⟨h1, by rw [h2]; simp [lostStep, lostMeant]⟩
    | saved t n =>
      simp only [lostSound] at hs
      have ht : t.take n = t := List.take_of_length_le hs.1
      obtain ⟨h1, h2⟩ := ih (lostStep st (.saved t n)) (by simpa [lostStep, ht] using hs.2) h
      exact ⟨h1, by rw [h2]; simp [lostStep, lostMeant, ht]⟩
    | print t =>
      obtain ⟨h1, h2⟩ := ih (lostStep st (.print t)) hs h
      exact ⟨h1, by rw [h2]; simp [lostStep, lostMeant, LostStream.put]⟩
    | flush a =>
      obtain ⟨h1, h2⟩ := ih (lostStep st (.flush a)) hs h
      obtain ⟨h3, h4, h5⟩ := LostStream.flush_ok (s := st.out) (a := a) h1
      exact ⟨h3, by rw [h2]; simp [lostStep, lostMeant, h4, h5]⟩
    | command t =>
      obtain ⟨h1, h2⟩ := ih (lostStep st (.command t)) hs h
      exact ⟨h1, by rw [h2]; simp [lostStep, lostMeant]⟩
    | dump rs =>
      simp only [lostSound] at hs
      obtain ⟨h1, h2⟩ := ih (lostStep st (.dump rs)) hs.2 h
      obtain ⟨h3, h4⟩ := lostPump_ok rs st.out st.tmp hs.1 h1
      refine ⟨h3, ?_⟩
      rw [h2]
      simp only [lostStep, lostMeant]
      rw [h4]
      simp
    | restart a => exact hs.elim

/-! ## The properties -/

/-- **C151** Since its last start, make has written on its standard output all it meant to, in order, and `close` succeeded, or it says so and exits with status 1: whatever the kernel took at any time, if standard
output was open, and as far as temporary files are sound. -/
theorem C151_noticed_partial (st : LostSt) (hopen : st.open' = true) (hbuf : st.out.buf = []) (ops : List LostOp) (hs : lostSound st.tmp ops)
    (status : Nat) (a : LostAns) (closes : Bool) :
    ((lostExit (lostRun st ops) status a closes).file = st.out.file ++ lostMeant st.tmp ops ∧
      (lostExit (lostRun st ops) status a closes).status = status ∧ (lostExit (lostRun st ops) status a closes).said = false ∧ closes = true) ∨
    ((lostExit (lostRun st ops) status a closes).status = 1 ∧ (lostExit (lostRun st ops) status a closes).said = true) := by
  have ho : ∀ (ops : List LostOp) (st : LostSt), (lostRun st ops).open' = st.open' := by
    intro ops
    induction ops with
    | nil => intro st; rfl
    | cons op ops ih =>
      intro st
      rw [show lostRun st (op :: ops) = lostRun (lostStep st op) ops from rfl, ih]
      cases op with
      | direct b => cases b <;> rfl
      | _ => rfl
  unfold lostExit
  simp only [ho, hopen, if_true]
  split
  · exact .inr ⟨rfl, rfl⟩
  · rename_i hn
    simp only [not_or] at hn
    obtain ⟨h1, h2, h3⟩ := hn
    have h1 : (lostRun st ops).out.err = false := by simpa using h1
    have h2 := LostStream.flush_ok (s := { (lostRun st ops).out with err := false }) (a := a) (by simpa using h2)
    refine .inl ⟨?_, rfl, rfl, by simpa using h3⟩
    show (LostStream.flush { (lostRun st ops).out with err := false } a).file = _
    rw [h2.2.1]
    have := (lostRun_ok ops st hs h1).2
    rw [hbuf, List.append_nil] at this
    exact this

/-- **C151** At any moment at which make may be killed, what it has written so far is a beginning of what it meant, if no write has failed. -/
theorem C151_killed_partial (st : LostSt) (hbuf : st.out.buf = []) (ops : List LostOp) (hs : lostSound st.tmp ops) (h : (lostRun st ops).out.err = false) :
    (lostRun st ops).out.file <+: st.out.file ++ lostMeant st.tmp ops := by
  have := (lostRun_ok ops st hs h).2
  rw [hbuf, List.append_nil] at this
  rw [← this]
  exact List.prefix_append _ _

/-- **C151** A message without a context is in the file, after all that came before it, when the function that writes it returns: so it is there before the output of a command that is
started later. -/
theorem C151_at_once_partial (st : LostSt) (hbuf : st.out.buf = []) (ops : List LostOp) (ps : List (Str × LostAns)) (rest : Str) (a : LostAns)
    (hs : lostSound st.tmp (ops ++ [.direct false ps rest a])) (h : (lostRun st (ops ++ [.direct false ps rest a])).out.err = false) :
    (lostRun st (ops ++ [.direct false ps rest a])).out.file = st.out.file ++ lostMeant st.tmp (ops ++ [.direct false ps rest a]) := by
  have h2 := (lostRun_ok _ st hs h).2
  rw [hbuf, List.append_nil] at h2
  rw [← h2]
  have e : lostRun st (ops ++ [.direct false ps rest a]) = lostStep (lostRun st ops) (.direct false ps rest a) := by
    simp [lostRun]
  rw [e] at h ⊢
  have h3 := LostStream.flush_ok (s := ((lostRun st ops).out.pieces ps).put rest) (a := a) h
  show (LostStream.flush _ a).file = (LostStream.flush _ a).file ++ (LostStream.flush _ a).buf
  rw [h3.2.2, List.append_nil]

/-- **C151** What has been lost stays noticed: after a write that failed, whatever make does except starting itself again, the exit status is 1 and make says so. -/
theorem C151_sticky (st : LostSt) (hopen : st.open' = true) (herr : st.out.err = true) (ops : List LostOp) (hr : ∀ a, LostOp.restart a ∉ ops)
    (status : Nat) (a : LostAns) (closes : Bool) :
    (lostExit (lostRun st ops) status a closes).status = 1 ∧ (lostExit (lostRun st ops) status a closes).said = true := by
  have hf : ∀ (s : LostStream) (a : LostAns), s.err = true → (s.flush a).err = true := by
    intro s a h; unfold LostStream.flush; split <;> simp [h]
  have hp : ∀ (ps : List (Str × LostAns)) (s : LostStream), s.err = true → (s.pieces ps).err = true := by
    intro ps
    induction ps with
    | nil => intro s h; exact h
    | cons p ps ih => intro s h; exact ih _ (hf _ _ h)
  have hu : ∀ (rs : List LostRead) (s : LostStream) (t : Str), s.err = true → (lostPump s t rs).err = true := by
    intro rs
    induction rs with
    | nil => intro s t h; simpa [lostPump] using h
    | cons r rs ih =>
      intro s t h
      cases r with
      | fails => simpa [lostPump] using h
      | takes n d a =>
        simp only [lostPump]
        split
        · exact h
        · split
          · exact ih _ _ (hf _ _ (hf _ _ h))
          · exact hf _ _ h
  have key : ∀ (ops : List LostOp) (st : LostSt), st.open' = true → st.out.err = true → (∀ a, LostOp.restart a ∉ ops) →
      (lostRun st ops).open' = true ∧ (lostRun st ops).out.err = true := by
    intro ops
    induction ops with
    | nil => intro st h1 h2 _; exact ⟨h1, h2⟩
    | cons op ops ih =>
      intro st h1 h2 h3
      have h4 : ∀ a, LostOp.restart a ∉ ops := fun a hm => h3 a (List.mem_cons_of_mem _ hm)
      rw [show lostRun st (op :: ops) = lostRun (lostStep st op) ops from rfl]
      refine ih _ ?_ ?_ h4
      · cases op with
        | direct b => cases b <;> exact h1
        | _ => exact h1
      · cases op with
        | direct b ps rest a =>
          cases b with
          | false => exact hf _ _ (hp ps _ h2)
          | true => exact h2
        | saved => exact h2
        | print => exact h2
        | flush a => exact hf _ _ h2
        | command => exact h2
        | dump rs => exact hu rs _ _ h2
        | restart a => exact (h3 a (List.mem_cons_self ..)).elim
  obtain ⟨h1, h2⟩ := key ops st hopen herr hr
  unfold lostExit
  simp [h1, h2]

/-- **C151** Standard output that was closed at the start is no failure: the exit status is as it would have been. -/
theorem C151_closed (st : LostSt) (hopen : st.open' = false) (ops : List LostOp) (status : Nat) (a : LostAns) (closes : Bool) :
    (lostExit (lostRun st ops) status a closes).status = status ∧ (lostExit (lostRun st ops) status a closes).said = false := by
  have ho : ∀ (ops : List LostOp) (st : LostSt), (lostRun st ops).open' = st.open' := by
    intro ops
    induction ops with
    | nil => intro st; rfl
    | cons op ops ih =>
      intro st
      rw [show lostRun st (op :: ops) = lostRun (lostStep st op) ops from rfl, ih]
      cases op with
      | direct b => cases b <;> rfl
      | _ => rfl
  unfold lostExit
  simp [ho, hopen]

/-- **C151** Where no write fails, the exit status is that of the build. -/
theorem C151_quiet (st : LostSt) (ops : List LostOp) (h : (lostRun st ops).out.err = false) (status : Nat) (a : LostAns)
    (ha : (lostRun st ops).out.buf.length ≤ a.takes) :
    (lostExit (lostRun st ops) status a true).status = status ∧ (lostExit (lostRun st ops) status a true).said = false ∧
    (lostExit (lostRun st ops) status a true).file = (lostRun st ops).out.file ++ (lostRun st ops).out.buf := by
  unfold lostExit
  simp only [LostStream.flush, ha, if_true]
  split <;> simp [h]

theorem LostStream.flush_willing {s : LostStream} {a : LostAns} (h : s.buf.length ≤ a.takes) :
    s.flush a = { s with file := s.file ++ s.buf, buf := [] } := by
  unfold LostStream.flush
  rw [if_pos h]

theorem LostStream.pieces_willing (k : Nat) (ps : List (Str × LostAns)) : ∀ (s : LostStream), (∀ p ∈ ps, k ≤ p.2.takes) →
    s.buf.length + (ps.map (·.1)).flatten.length ≤ k →
    (s.pieces ps).err = s.err ∧ (s.pieces ps).buf.length ≤ s.buf.length + (ps.map (·.1)).flatten.length := by
  induction ps with
  | nil => intro s _ _; simp [LostStream.pieces]
  | cons p ps ih =>
    intro s h hk
    obtain ⟨t, a⟩ := p
    simp only [List.map_cons, List.flatten_cons, List.length_append] at hk ⊢
    have ha : k ≤ a.takes := h (t, a) (List.mem_cons_self ..)
    simp only [LostStream.pieces]
    rw [LostStream.flush_willing (by simp [LostStream.put]; omega)]
    have := ih { s.put t with file := (s.put t).file ++ (s.put t).buf, buf := [] } (fun p hp => h p (List.mem_cons_of_mem _ hp)) (by
      show 0 + _ ≤ k
      omega)
    refine ⟨this.1, Nat.le_trans this.2 ?_⟩
    simp
    omega

theorem lostPump_willing (k : Nat) (rs : List LostRead) : ∀ (s : LostStream) (t : Str), (∀ n d a, LostRead.takes n d a ∈ rs → k ≤ d.takes ∧ k ≤ a.takes) →
    s.buf.length + t.length ≤ k → (lostPump s t rs).err = s.err ∧ (lostPump s t rs).buf.length ≤ s.buf.length := by
  induction rs with
  | nil => intro s t _ _; simp [lostPump]
  | cons r rs ih =>
    intro s t h hk
    cases r with
    | fails => simp [lostPump]
    | takes n d a =>
      obtain ⟨h1, h2⟩ := h n d a (List.mem_cons_self ..)
      have hl : (s.put (t.take n)).buf.length ≤ d.takes := by
        simp only [LostStream.put, List.length_append, List.length_take]
        omega
      simp only [lostPump]
      split
      · simp
      · rw [LostStream.flush_willing hl, LostStream.flush_willing (by simp)]
        have := ih { s.put (t.take n) with file := (s.put (t.take n)).file ++ (s.put (t.take n)).buf ++ [], buf := [] } (t.drop n)
          (fun n d a hm => h n d a (List.mem_cons_of_mem _ hm)) (by simp; omega)
        refine ⟨this.1, Nat.le_trans this.2 ?_⟩
        simp

/-- **C151** There is no false alarm: where the kernel takes what it is given, and `close` succeeds, the exit status is that of the build, with and without restarts and whatever happens
to standard error and temporary files. -/
theorem C151_no_false_alarm (k : Nat) (ops : List LostOp) : ∀ (st : LostSt), st.out.err = false →
    st.out.buf.length + st.tmp.length + (ops.map lostSize).sum ≤ k → (∀ op ∈ ops, lostWilling k op) →
    ∀ (status : Nat) (a : LostAns), k ≤ a.takes →
    (lostExit (lostRun st ops) status a true).status = status ∧ (lostExit (lostRun st ops) status a true).said = false := by
  induction ops with
  | nil =>
    intro st he hk _ status a ha
    simp only [List.map_nil, List.sum_nil] at hk
    have := C151_quiet st [] he status a (by show st.out.buf.length ≤ _; omega)
    exact ⟨this.1, this.2.1⟩
  | cons op ops ih =>
    intro st he hk hw status a ha
    simp only [List.map_cons, List.sum_cons] at hk
    rw [show lostRun st (op :: ops) = lostRun (lostStep st op) ops from rfl]
    have hw1 := hw op (List.mem_cons_self ..)
    suffices h : (lostStep st op).out.err = false ∧ (lostStep st op).out.buf.length + (lostStep st op).tmp.length ≤ st.out.buf.length + st.tmp.length + lostSize op from
      ih _ h.1 (by omega) (fun o ho => hw o (List.mem_cons_of_mem _ ho)) status a ha
    cases op with
    | direct b ps rest a =>
      cases b with
      | true =>
        refine ⟨he, ?_⟩
        simp only [lostStep]
        omega
      | false =>
        simp only [lostWilling] at hw1
        simp only [lostSize] at hk ⊢
        obtain ⟨h1, h2⟩ := LostStream.pieces_willing k ps st.out hw1.1 (by omega)
        simp only [lostStep]
        rw [LostStream.flush_willing (by simp only [LostStream.put, List.length_append]; omega)]
        refine ⟨by simpa [LostStream.put, h1] using he, ?_⟩
        simp
        omega
    | saved t n =>
      refine ⟨he, ?_⟩
      simp only [lostStep, lostSize, List.length_append, List.length_take]
      omega
    | print t =>
      refine ⟨he, ?_⟩
      simp only [lostStep, lostSize, LostStream.put, List.length_append]
      omega
    | flush a =>
      simp only [lostWilling] at hw1
      simp only [lostStep]
      rw [LostStream.flush_willing (by omega)]
      refine ⟨he, ?_⟩
      simp
      omega
    | command t =>
      refine ⟨he, ?_⟩
      simp only [lostStep, lostSize, List.length_append]
      omega
    | dump rs =>
      simp only [lostWilling] at hw1
      obtain ⟨h1, h2⟩ := lostPump_willing k rs st.out st.tmp hw1 (by omega)
      simp only [lostStep]
      refine ⟨by rw [h1]; exact he, ?_⟩
      simp
      omega
    | restart a =>
      refine ⟨rfl, ?_⟩
      simp [lostStep]

/-! ## Examples -/

/-- Standard output is a file, nothing is written. -/
def lostFresh : LostSt := ⟨true, ⟨[], [], false⟩, ⟨[], [], false⟩, []⟩

/-- The kernel takes everything. -/
def lostAll : LostAns := ⟨100, []⟩

/-- The kernel takes nothing. -/
def lostFull : LostAns := ⟨0, []⟩

/-- A message in two pieces, text of a data base, a context with a message and a command. -/
def lostOps : List LostOp :=
  [.direct false [("ab\n".toList, lostAll)] "c".toList lostAll, .print "d".toList, .saved "echo x".toList 100, .command "x".toList, .direct true [] "oops".toList lostAll,
    .dump [.takes 4 lostAll lostAll, .takes 4 lostAll lostAll]]

example : lostSound lostFresh.tmp lostOps := by simp [lostOps, lostSound, lostReads, lostFresh]
example : (∀ op ∈ lostOps, lostWilling 50 op) ∧ lostFresh.out.buf.length + lostFresh.tmp.length + (lostOps.map lostSize).sum ≤ 50 := by
  simp [lostOps, lostWilling, lostFresh, lostSize, lostAll]
  rintro n d a rfl rfl rfl
  decide
example : (lostExit (lostRun lostFresh lostOps) 0 lostAll true) = ⟨"ab\ncdecho xx".toList, 0, false⟩ := by decide +kernel
example : (lostExit (lostRun lostFresh (lostOps ++ [.direct false [] "z".toList lostFull])) 0 lostAll true).status = 1 := by decide +kernel

/-- **C151** A restart forgets: the line of the recipe that remakes a makefile is lost, make starts again, and the exit status is 0. -/
theorem C151_restart_forgets :
    lostExit (lostRun lostFresh [.direct false [] "cp in inc\n".toList lostFull, .restart lostAll]) 0 lostAll true = ⟨[], 0, false⟩ := by decide +kernel

/-- **C151** With `-O`, a line that the temporary file does not take is lost, and one that cannot be read back; the exit status is 0. -/
theorem C151_temporary_lost :
    lostExit (lostRun lostFresh [.saved "cp a b\n".toList 0, .dump []]) 0 lostAll true = ⟨[], 0, false⟩ ∧
    lostExit (lostRun lostFresh [.saved "cp a b\n".toList 100, .dump [.fails]]) 0 lostAll true = ⟨[], 0, false⟩ := by decide +kernel

/-- **C151** Errors that cannot be written on standard error are lost without notice; and where standard output fails, a failed build (2) is told as 1, as for `-q`. -/
theorem C151_error_lost :
    lostExit (lostRun lostFresh [.direct true [] "warning\n".toList lostFull]) 0 lostAll true = ⟨[], 0, false⟩ ∧
    lostExit (lostRun lostFresh [.direct false [] "false\n".toList lostFull]) 2 lostAll true = ⟨[], 1, true⟩ := by decide +kernel

end Remake
