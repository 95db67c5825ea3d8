import Verif.Tasks.Lemmas
import Verif.Quote.Props
import Verif.Text.Lemmas4
set_option linter.unusedVariables false
set_option linter.unusedSimpArgs false
/-!
# C149: descriptions of targets, and the lists of tasks and targets
-/
namespace Remake
open Spec

/-- **C149** In a makefile in which at most one description follows each rule before the line that ends it, every rule gets the description that belongs to
it, whatever was read before. -/
theorem C149_description_partial (ls : List DscLine) (h1 : ls.Pairwise (·.no < ·.no)) (h0 : ∀ l ∈ ls, 0 < l.no) (h2 : AtMostOne ls) (st : DscSt) :
    (dscRun st (dscFileOps ls)).out = st.out ++ descriptions none ls ∧ (dscRun st (dscFileOps ls)).waiting = st.waiting := by
  have := dscRun_lines st.waiting ls (dscOp st .enter) none [] 0 false ⟨.inr ⟨rfl, rfl⟩, .inl ⟨rfl, rfl, rfl⟩⟩ h1 h0 h2 (by intro h; exact absurd rfl h)
  rw [List.append_nil] at this
  exact this

/-- A makefile: three rules, two of them described, one on its own line. -/
def dscExample : List DscLine :=
  [⟨1, "#: first".toList, .other⟩, ⟨2, "a: x".toList, .rule ["a".toList]⟩, ⟨5, "b:".toList, .rule ["b".toList]⟩, ⟨6, "V = 1".toList, .ends⟩,
    ⟨8, "c d: #: both".toList, .rule ["c".toList, "d".toList]⟩]

example : dscExample.Pairwise (·.no < ·.no) ∧ (∀ l ∈ dscExample, 0 < l.no) ∧
    descriptions none dscExample =
      [(["a".toList], some "first".toList), (["b".toList], none), (["c".toList, "d".toList], some "both".toList)] := by
  decide +kernel

example : AtMostOne dscExample := by
  intro a r ts mid b e hr hm
  have hlen : (dscExample.filter hasDescription) = [⟨1, "#: first".toList, .other⟩, ⟨8, "c d: #: both".toList, .rule ["c".toList, "d".toList]⟩] := by
    decide +kernel
  have hh := congrArg (fun l => (l.filter hasDescription)) e
  simp only [List.filter_append, List.filter_cons] at hh
  rw [hlen] at hh
  cases a with
  | nil =>
    simp only [dscExample, List.nil_append, List.cons.injEq] at e
    rw [← e.1] at hr
    cases hr
  | cons x xs =>
    simp only [dscExample, List.cons_append, List.cons.injEq] at e
    have hx : hasDescription x = true := by rw [← e.1]; decide +kernel
    have hl := congrArg List.length hh
    rw [List.filter_cons_of_pos hx] at hl
    simp only [List.length_append, List.length_cons, List.length_nil] at hl
    split at hl <;> simp only [List.length_append, List.length_cons] at hl <;> omega

/-- **C149** A line `#: TEXT` describes, a line without a number sign does not; nor does a comment that has no blank after the colon. -/
theorem C149_comment (t : Str) : commentDescription ('#' :: ':' :: ' ' :: t) = some t ∧
    (∀ c r, c ≠ ' ' → commentDescription ('#' :: ':' :: c :: r) = none) := by
  have key : ∀ r, CommentRead ('#' :: r) [] (some r) := fun r => .cut (k := 0)
  refine ⟨((C18_comments _ _ _ (key _)).2 t).2 rfl, ?_⟩
  intro c r hc
  cases e : commentDescription ('#' :: ':' :: c :: r) with
  | none => rfl
  | some d =>
    have := ((C18_comments _ _ _ (key _)).2 d).1 e
    simp at this
    exact absurd this.1 hc

/-- A line `#: TEXT`. -/
def dscComment (n : Nat) (t : Str) : DscLine := ⟨n, '#' :: ':' :: ' ' :: t, .other⟩

theorem dscLineOps_comment (n : Nat) (t : Str) : dscLineOps (dscComment n t) = [.comment n t] := by
  simp only [dscLineOps, dscComment, (C149_comment t).1, List.append_nil]

theorem dscLineOps_rule (n : Nat) (x : Str) (ts : List Str) (h : commentDescription x = none) : dscLineOps ⟨n, x, .rule ts⟩ = [.ends, .starts n ts] := by
  simp only [dscLineOps, h, List.nil_append]

/-- **C149** (negative) A comment of two lines before a rule: its first line becomes the description of the rule before it, and replaces the one that rule had. -/
theorem C149_two_lines (A B1 B2 xa xb : Str) (a b : List Str) (n : Nat) (ha : commentDescription xa = none) (hb : commentDescription xb = none) (st : DscSt) :
    (dscRun st (dscFileOps [dscComment n A, ⟨n + 1, xa, .rule a⟩, dscComment (n + 2) B1, dscComment (n + 3) B2, ⟨n + 4, xb, .rule b⟩])).out =
      st.out ++ [(a, some B1), (b, some B2)] ∧
    descriptions none [dscComment n A, ⟨n + 1, xa, .rule a⟩, dscComment (n + 2) B1, dscComment (n + 3) B2, ⟨n + 4, xb, .rule b⟩] =
      [(a, some A), (b, some B2)] := by
  constructor
  · simp only [dscFileOps, List.flatMap_cons, List.flatMap_nil, dscLineOps_comment, dscLineOps_rule _ _ _ ha, dscLineOps_rule _ _ _ hb]
    simp [dscRun, dscOp, dscRecord]
  · simp [descriptions, dscComment, (C149_comment _).1, ha, hb]

example : commentDescription "all: prog".toList = none ∧ commentDescription "prog: main.o".toList = none := by decide +kernel

/-- **C149** (negative) The description of a rule in a branch of a conditional that is not taken goes to the next rule that is read. -/
theorem C149_ignored (T x xe xy : Str) (y : List Str) (n : Nat) (hx : commentDescription x = none) (he : commentDescription xe = none)
    (hy : commentDescription xy = none) (st : DscSt) :
    (dscRun st (dscFileOps [dscComment n T, ⟨n + 1, x, .other⟩, ⟨n + 2, xe, .other⟩, ⟨n + 3, xy, .rule y⟩])).out = st.out ++ [(y, some T)] := by
  have h1 : ∀ k z, commentDescription z = none → dscLineOps ⟨k, z, .other⟩ = [] := by
    intro k z hz
    simp only [dscLineOps, hz, List.append_nil]
  simp only [dscFileOps, List.flatMap_cons, List.flatMap_nil, dscLineOps_comment, dscLineOps_rule _ _ _ hy, h1 _ _ hx, h1 _ _ he]
  simp [dscRun, dscOp, dscRecord]

/-- **C149** (negative) In a text given to `eval` all lines have the same number (C146); each rule gets the description of the next one, and the last one has none. -/
theorem C149_eval (A B xa xb : Str) (a b : List Str) (n : Nat) (ha : commentDescription xa = none) (hb : commentDescription xb = none) (st : DscSt) :
    (dscRun st (dscFileOps [dscComment n A, ⟨n, xa, .rule a⟩, dscComment n B, ⟨n, xb, .rule b⟩])).out = st.out ++ [(a, some B), (b, none)] := by
  simp only [dscFileOps, List.flatMap_cons, List.flatMap_nil, dscLineOps_comment, dscLineOps_rule _ _ _ ha, dscLineOps_rule _ _ _ hb]
  simp [dscRun, dscOp, dscRecord]

/-- **C149** (negative) A rule whose line makes `eval` read something, even an assignment, loses its description. -/
theorem C149_rule_eval (A : Str) (a : List Str) (n : Nat) (st : DscSt) :
    (dscRun st [.enter, .comment n A, .ends, .enter, .ends, .leave, .starts (n + 1) a, .leave]).out = st.out ++ [(a, none)] := by
  simp [dscRun, dscOp, dscRecord]

/-- **C149** (negative) A description at the end of an included makefile, behind its last rule, goes to the next rule of the makefile that includes it, if that
rule stands further down in its file than the description in the other. -/
theorem C149_include (T xz : Str) (z m : List Str) (k n : Nat) (hk : k + 1 ≤ n) (hz : commentDescription xz = none) (st : DscSt) :
    (dscRun st (.enter :: .ends :: (dscFileOps [⟨k, xz, .rule z⟩, dscComment (k + 1) T] ++ [.ends, .starts n m, .leave]))).out =
      st.out ++ [(z, none), (m, some T)] := by
  simp only [dscFileOps, List.flatMap_cons, List.flatMap_nil, dscLineOps_comment, dscLineOps_rule _ _ _ hz]
  have h2 : ¬ n < k + 1 := by omega
  simp [dscRun, dscOp, dscRecord, h2]

/-- **C149** A target has the description of the last rule for it, so (negative) a later rule without one, which only adds prerequisites, takes it away. -/
theorem C149_again (out : List (List Str × Option Str)) (ts : List Str) (D : Option Str) (after : List (List Str × Option Str)) (t : Str) (ht : t ∈ ts)
    (hn : ∀ r ∈ after, t ∉ r.1) : dscDescription (out ++ (ts, D) :: after) t = D := by
  have key : ∀ (l : List (List Str × Option Str)) (acc : Option Str), (∀ r ∈ l, t ∉ r.1) →
      l.foldl (fun acc r => if t ∈ r.1 then r.2 else acc) acc = acc := by
    intro l
    induction l with
    | nil => intros; rfl
    | cons r l ih =>
      intro acc h
      rw [List.foldl_cons, if_neg (h r (by simp))]
      exact ih acc fun x hx => h x (by simp [hx])
  rw [dscDescription, List.foldl_append, List.foldl_cons, if_pos ht, key after _ hn]

example : dscDescription [(["a".toList], some "x".toList), (["a".toList], none)] "a".toList = none := by decide

theorem dscSorted_pairwise (fs : List DscFile) : (dscSorted fs).Pairwise fun a b => ¬ b.name < a.name := by
  have ht : ∀ a b c : DscFile, decide (strcmp a.name b.name ≤ 0) = true → decide (strcmp b.name c.name ≤ 0) = true →
      decide (strcmp a.name c.name ≤ 0) = true := by
    intro a b c h1 h2
    simp only [decide_eq_true_eq] at *
    have e : ∀ x y : Str, strcmp x y ≤ 0 ↔ ¬ y < x := by
      intro x y
      rw [← strcmp_lt_zero, ← strcmp_anti]
      omega
    rw [e] at *
    intro h
    exact absurd (List.le_trans (List.not_lt.1 h1) (List.not_lt.1 h2)) (List.not_le.2 h)
  have htot : ∀ a b : DscFile, (decide (strcmp a.name b.name ≤ 0) || decide (strcmp b.name a.name ≤ 0)) = true := by
    intro a b
    simp only [Bool.or_eq_true, decide_eq_true_eq]
    by_cases h : strcmp a.name b.name ≤ 0
    · exact .inl h
    · right
      have : strcmp a.name b.name > 0 := by omega
      rw [strcmp_anti] at this
      omega
  refine (List.pairwise_mergeSort ht htot fs).imp ?_
  intro a b h
  simp only [decide_eq_true_eq] at h
  rw [← strcmp_lt_zero, ← strcmp_anti]
  omega

/-- **C149** `--tasks` prints one line for every target that has a description and for no other: the name, blanks up to column 20 and one more, and the
description; the lines are in the order of the names. -/
theorem C149_tasks (fs : List DscFile) :
    ∃ l : List (Str × Str), l.Perm (fs.filterMap fun f => f.description.map fun d => (f.name, d)) ∧
      l.Pairwise (fun a b => ¬ b.1 < a.1) ∧
      dscTasks fs = l.map fun x => x.1 ++ List.replicate (20 - x.1.length) ' ' ++ [' '] ++ x.2 ++ ['\n'] := by
  refine ⟨(dscSorted fs).filterMap fun f => f.description.map fun d => (f.name, d), ?_, ?_, ?_⟩
  · exact (List.mergeSort_perm fs _).filterMap _
  · rw [List.pairwise_filterMap]
    refine (dscSorted_pairwise fs).imp ?_
    intro a b h x hx y hy
    cases ha : a.description with
    | none => simp [ha] at hx
    | some d =>
      cases hb : b.description with
      | none => simp [hb] at hy
      | some d' =>
        simp [ha] at hx
        simp [hb] at hy
        rw [← hx, ← hy]
        exact h
  · rw [dscTasks, List.map_filterMap]
    congr 1
    funext f
    cases f.description <;> simp [dscPad]

example : dscTasks [⟨"dist".toList, some "Build".toList⟩, ⟨"all".toList, some "Main".toList⟩, ⟨"x.o".toList, none⟩] =
    ["all                  Main\n".toList, "dist                 Build\n".toList] := by
  simp [dscTasks, dscSorted, List.mergeSort, List.merge, List.MergeSort.Internal.splitInTwo, strcmp, dscPad, List.replicate]

/-- **C149** `--targets` prints one line for every file that make knows, target or not, in the order of the names. -/
theorem C149_targets (fs : List DscFile) :
    ∃ l : List DscFile, l.Perm fs ∧ l.Pairwise (fun a b => ¬ b.name < a.name) ∧
      dscTargets fs = l.map fun f => ['\t'] ++ f.name ++ (match f.description with
        | some d => "\t# ".toList ++ d
        | none => []) ++ ['\n'] := by
  refine ⟨dscSorted fs, List.mergeSort_perm fs _, dscSorted_pairwise fs, ?_⟩
  rw [dscTargets]
  congr 1

example : dscTargets [⟨"dist".toList, some "Build".toList⟩, ⟨"a.c".toList, none⟩] =
    ["\ta.c\n".toList, "\tdist\t# Build\n".toList] := by
  simp [dscTargets, dscSorted, List.mergeSort, List.merge, List.MergeSort.Internal.splitInTwo, strcmp]

end Remake
