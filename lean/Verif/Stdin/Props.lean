import Verif.Stdin.Model
set_option linter.unusedVariables false
set_option linter.unusedSimpArgs false
/-!
# C148: a makefile from standard input
-/
namespace Remake

/-- All that is read is written; only the last call meets the end, none an error. -/
def Spec.GoodInput (rs : List SinRead) : Prop :=
  ∃ init last, rs = init ++ [last] ∧ (∀ r ∈ init, r.eof = false ∧ r.err = false ∧ r.taken = r.data.length) ∧
    last.eof = true ∧ last.err = false ∧ last.taken = last.data.length
open Spec

theorem sinCopy_good (rs : List SinRead) (h : GoodInput rs) : sinCopy rs = (rs.flatMap (·.data), false) := by
  obtain ⟨init, last, rfl, hi, h1, h2, h3⟩ := h
  induction init with
  | nil =>
    show sinCopy [last] = _
    rw [sinCopy, if_neg (fun h => h.2 h3), if_pos (.inl h1)]
    simp
  | cons r init ih =>
    have hr := hi r (by simp)
    have := ih fun x hx => hi x (by simp [hx])
    rw [List.cons_append, sinCopy, if_neg (fun h => h.2 hr.2.2), if_neg (by simp [hr.1, hr.2.1]), this]
    simp

theorem sinOpen_others (mk : SinFs → Option Str) (input : List SinRead) (lost : Nat) (fs : SinFs) (nm : Option Str) (done fs1 rest : List Str)
    (h : ['-'] ∉ fs1) : sinOpen mk input lost fs nm done (fs1 ++ rest) = sinOpen mk input lost fs nm (done ++ fs1) rest := by
  induction fs1 generalizing done with
  | nil => simp
  | cons f fs1 ih =>
    simp only [List.mem_cons, not_or] at h
    rw [List.cons_append, sinOpen.eq_def]
    simp only
    rw [if_neg (fun e => h.1 e.symm), ih _ h.2]
    simp

/-- **C148** The makefile `-` is read to its end into a new file, whose name takes the place of `-` among the makefiles; the others stay, and no file that was
there is changed. -/
theorem C148_copied (mk : SinFs → Option Str) (input : List SinRead) (hg : GoodInput input) (fs : SinFs) (t : Str) (hm : mk fs = some t)
    (a b : List Str) (ha : ['-'] ∉ a) (hb : ['-'] ∉ b) :
    sinOpen mk input 0 fs none [] (a ++ ['-'] :: b) = .ok ⟨(t, input.flatMap (·.data)) :: fs, some t, a ++ t :: b⟩ := by
  rw [sinOpen_others mk input 0 fs none [] a _ ha]
  simp only [sinOpen, if_true, hm, sinCopy_good input hg, Bool.false_eq_true, if_false, List.nil_append, Nat.sub_zero, List.take_length]
  have := sinOpen_others mk input 0 ((t, input.flatMap (·.data)) :: fs) (some t) (a ++ [t]) b [] hb
  rw [List.append_nil] at this
  rw [this]
  simp [sinOpen]

example : GoodInput [⟨"all:".toList, false, false, 4⟩, ⟨"\n".toList, true, false, 1⟩] :=
  ⟨[⟨"all:".toList, false, false, 4⟩], ⟨"\n".toList, true, false, 1⟩, rfl, by simp, rfl, rfl, rfl⟩

/-- **C148** Without `-` among the makefiles nothing is created. -/
theorem C148_none (mk : SinFs → Option Str) (input : List SinRead) (lost : Nat) (fs : SinFs) (a : List Str) (ha : ['-'] ∉ a) :
    sinOpen mk input lost fs none [] a = .ok ⟨fs, none, a⟩ := by
  have := sinOpen_others mk input lost fs none [] a [] ha
  rw [List.append_nil] at this
  rw [this]
  simp [sinOpen]

/-- **C148** If make gets to its goals without starting itself again, the files are those from before. -/
theorem C148_removed_partial (mk : SinFs → Option Str) (input : List SinRead) (hg : GoodInput input) (fs : SinFs) (t : Str) (hm : mk fs = some t)
    (hf : ∀ c, (t, c) ∉ fs) (a b : List Str) (ha : ['-'] ∉ a) (hb : ['-'] ∉ b) (evs : List SinEv) :
    ∃ st, sinOpen mk input 0 fs none [] (a ++ ['-'] :: b) = .ok st ∧ sinRun st (.goals :: evs) = fs := by
  refine ⟨_, C148_copied mk input hg fs t hm a b ha hb, ?_⟩
  simp only [sinRun, sinUnlink]
  rw [List.filter_cons_of_neg (by simp), List.filter_eq_self]
  intro f hfm
  simp only [ne_eq, decide_eq_true_eq]
  intro e
  exact hf f.2 (by rw [← e]; exact hfm)

example : sinRun ⟨[("/tmp/Gm1".toList, "x".toList), ("a".toList, [])], some "/tmp/Gm1".toList, ["/tmp/Gm1".toList]⟩ [.goals] = [("a".toList, [])] := by
  decide

/-- **C148** (negative) In all other cases the temporary file stays: when a makefile has an error, when make is killed, and when make has started itself again,
however the new make ends. -/
theorem C148_left (st : SinSt) (t c : Str) (h : (t, c) ∈ st.fs) (e : SinEv) (he : e ≠ .goals) (evs : List SinEv) :
    (t, c) ∈ sinRun st (e :: evs) := by
  have key : ∀ (evs : List SinEv) (st : SinSt), st.nm = none → sinRun st evs = st.fs := by
    intro evs
    induction evs with
    | nil => intro st _; rfl
    | cons e evs ih =>
      intro st hn
      cases e with
      | fatal => rfl
      | killed => rfl
      | restart => simp only [sinRun]; exact ih _ rfl
      | goals => simp only [sinRun, hn]
  cases e with
  | fatal => exact h
  | killed => exact h
  | restart =>
    simp only [sinRun]
    rw [key evs _ rfl]
    exact h
  | goals => exact absurd rfl he

example : sinRun ⟨[("/tmp/Gm1".toList, "x".toList)], some "/tmp/Gm1".toList, ["/tmp/Gm1".toList]⟩ [.restart, .goals] =
    [("/tmp/Gm1".toList, "x".toList)] := by decide

/-- **C148** Through any number of restarts the makefile can be read again: its copy is there, with the same text, until make has its goals. -/
theorem C148_again (st : SinSt) (t c : Str) (h : (t, c) ∈ st.fs) (n : Nat) : (t, c) ∈ sinRun st (List.replicate n .restart) := by
  cases n with
  | zero => exact h
  | succ n => exact C148_left st t c h .restart (by decide) _

/-- **C148** A second `-` is an error, and the first copy stays behind. -/
theorem C148_twice (mk : SinFs → Option Str) (input : List SinRead) (hg : GoodInput input) (fs : SinFs) (t : Str) (hm : mk fs = some t)
    (a b c : List Str) (ha : ['-'] ∉ a) (hb : ['-'] ∉ b) :
    sinOpen mk input 0 fs none [] (a ++ ['-'] :: (b ++ ['-'] :: c)) = .fatal ((t, input.flatMap (·.data)) :: fs) := by
  rw [sinOpen_others mk input 0 fs none [] a _ ha]
  simp only [sinOpen, if_true, hm, sinCopy_good input hg, Bool.false_eq_true, if_false, List.nil_append, Nat.sub_zero, List.take_length]
  rw [sinOpen_others mk input 0 _ (some t) _ b _ hb]
  simp [sinOpen]

/-- **C148** (negative) When reading fails, what has been read so far is taken for the whole makefile, without a word: standard input that is a directory is an
empty makefile. -/
theorem C148_read_error (mk : SinFs → Option Str) (fs : SinFs) (t part : Str) (hm : mk fs = some t) (rest : List SinRead) :
    sinOpen mk (⟨part, false, true, part.length⟩ :: rest) 0 fs none [] [['-']] = .ok ⟨(t, part) :: fs, some t, [t]⟩ := by
  simp [sinOpen, hm, sinCopy]

/-- **C148** (negative) When the last of it cannot be written on closing, as on a full disk, the part that could be written is taken for the whole makefile,
without a word; of a short makefile that is nothing. -/
theorem C148_write_error (mk : SinFs → Option Str) (input : List SinRead) (hg : GoodInput input) (fs : SinFs) (t : Str) (hm : mk fs = some t) (lost : Nat) :
    sinOpen mk input lost fs none [] [['-']] =
      .ok ⟨(t, (input.flatMap (·.data)).take ((input.flatMap (·.data)).length - lost)) :: fs, some t, [t]⟩ := by
  simp only [sinOpen, if_true, hm, sinCopy_good input hg, Bool.false_eq_true, if_false, List.nil_append]

example : sinOpen (fun _ => some "/tmp/Gm1".toList) [⟨"all:\n".toList, true, false, 5⟩] 5 [] none [] [['-']] =
    .ok ⟨[("/tmp/Gm1".toList, [])], some "/tmp/Gm1".toList, ["/tmp/Gm1".toList]⟩ := by decide

/-- **C148** (and a write error seen by `fwrite` is fatal, at whatever point, with the copy left behind). -/
theorem C148_write_fatal (mk : SinFs → Option Str) (init : List SinRead) (r : SinRead) (rs : List SinRead) (lost : Nat) (fs : SinFs) (t : Str) (hm : mk fs = some t)
    (hi : ∀ x ∈ init, x.eof = false ∧ x.err = false ∧ x.taken = x.data.length) (h : r.taken < r.data.length) (a b : List Str) (ha : ['-'] ∉ a) :
    sinOpen mk (init ++ r :: rs) lost fs none [] (a ++ ['-'] :: b) = .fatal ((t, init.flatMap (·.data) ++ r.data.take r.taken) :: fs) := by
  have h1 : r.data ≠ [] := by intro e; rw [e] at h; simp at h
  have h2 : sinCopy (init ++ r :: rs) = (init.flatMap (·.data) ++ r.data.take r.taken, true) := by
    induction init with
    | nil =>
      rw [List.nil_append, sinCopy, if_pos ⟨h1, by omega⟩]
      simp
    | cons x init ih =>
      have hx := hi x (by simp)
      rw [List.cons_append, sinCopy, if_neg (fun h => h.2 hx.2.2), if_neg (by simp [hx.1, hx.2.1]), ih fun y hy => hi y (by simp [hy])]
      simp
  rw [sinOpen_others mk _ lost fs none [] a _ ha]
  simp only [sinOpen, if_true, hm, h2]

/-- **C148** If no new file can be made, that is fatal, and nothing is changed. -/
theorem C148_no_file (mk : SinFs → Option Str) (input : List SinRead) (lost : Nat) (fs : SinFs) (hm : mk fs = none) (a b : List Str) (ha : ['-'] ∉ a) :
    sinOpen mk input lost fs none [] (a ++ ['-'] :: b) = .fatal fs := by
  rw [sinOpen_others mk _ lost fs none [] a _ ha]
  simp only [sinOpen, if_true, hm]

/-- **C148** The temporary file is in the directory that `TMPDIR` names, with one slash between, unless `TMPDIR` is empty or not set. -/
theorem C148_directory (c : Char) (d dflt : Str) :
    ((c :: d).getLast? ≠ some '/' → sinTemplate (some (c :: d)) dflt = (c :: d) ++ "/GmXXXXXX".toList) ∧
    ((c :: d).getLast? = some '/' → sinTemplate (some (c :: d)) dflt = (c :: d) ++ "GmXXXXXX".toList) ∧
    (dflt.getLast? ≠ some '/' → sinTemplate none dflt = dflt ++ "/GmXXXXXX".toList ∧ sinTemplate (some []) dflt = dflt ++ "/GmXXXXXX".toList) := by
  refine ⟨fun h => ?_, fun h => ?_, fun h => ⟨?_, ?_⟩⟩
  · simp only [sinTemplate, if_neg h, List.append_assoc]; rfl
  · simp only [sinTemplate, if_pos h, List.append_nil]
  · simp only [sinTemplate, if_neg h, List.append_assoc]; rfl
  · simp only [sinTemplate, if_neg h, List.append_assoc]; rfl

example : sinTemplate (some "/var/tmp/".toList) "/tmp".toList = "/var/tmp/GmXXXXXX".toList := by decide

end Remake
