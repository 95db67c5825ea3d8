import Verif.Print.Lemmas2
set_option linter.unusedVariables false
set_option linter.unusedSimpArgs false
/-! C114: the printed variables can be read again. -/
namespace Remake
open Spec

section
variable {D : DefEnv} {E : RdEnv (Option DefState)} {ext : List (VarSet × Bool) → Str → List Str → Option Str} {fuel : Nat}

theorem expand_name (hx : ExpandsAs D ext (fuel + 2)) {n : Str} (h : PrintableName n) (st : DefState) :
    D.expand st n = (st, n) :=
  hx st n n fun x => C28_literal ext (fuel + 1) x n fun hm => (h.2 _ hm).1 rfl

theorem assign_recursive (hx : ExpandsAs D ext (fuel + 2)) {n t l : Str} (h : PrintableName n) (st : DefState)
    (ha : IsAssignment l n .recursive t) :
    assignLine D st {} l = some (finishDefinition D st n t .file true false false false) := by
  simp only [assignLine, Bool.false_eq_true, if_false, (C27_recognised _ _ _ _).mpr ha, expand_name hx h, if_neg h.1,
    doVariableDefinition, lineOrigin, Option.map_some]
  rw [applyModsIn_none _ _ _ _ rfl rfl]

theorem assign_simple (hx : ExpandsAs D ext (fuel + 2)) {n t v l : Str} (h : PrintableName n) (st : DefState)
    (ha : IsAssignment l n .simple t) (hv : ∀ x : XState, expand ext (fuel + 2) x t = .ok v x) :
    assignLine D st {} l = some (finishDefinition D st n v .file false false false false) := by
  simp only [assignLine, Bool.false_eq_true, if_false, (C27_recognised _ _ _ _).mpr ha, expand_name hx h, if_neg h.1,
    doVariableDefinition, lineOrigin, Option.map_some, hx st t v hv]
  rw [applyModsIn_none _ _ _ _ rfl rfl]

theorem define_recursive (hx : ExpandsAs D ext (fuel + 2)) {n b : Str} (h : PrintableName n) (st : DefState) :
    defineLine D st { defineV := true } n b = some (finishDefinition D st n b .file true false false false) := by
  have hno : parseVariableDefinition n = none := not_assigns fun hm => (h.2 _ hm).2.2.2.1 rfl
  simp only [defineLine, defineHead, hno, expand_name hx h, nextToken_plain h, if_neg h.1, chopBlanks_plain h,
    doVariableDefinition, lineOrigin, Bool.false_eq_true, if_false, Option.map_some]
  rw [applyModsIn_none _ _ _ _ rfl rfl]

/-- The line printed before a definition is a comment. -/
theorem comment_line (p : PrintedVar) (ho : p.var.origin ≠ .invalid)
    (hl : ∀ f n, p.loc = some (f, n) → '\n' ∉ f ∧ '\x00' ∉ f) :
    ∃ l, PrintedLine ('#' :: l) ∧ ∀ pre, printVariable pre p = some (('#' :: l) ++ '\n' :: pre ++ printDefinition p.name p.var) := by
  have hso : ∃ o, originWords p.var.origin = some o ∧ '\n' ∉ o ∧ '\x00' ∉ o ∧ o.getLast?.any (fun c => c ≠ '\\' ∧ c ≠ '\r') = true := by
    cases h : p.var.origin <;> first | (exact absurd h ho) | exact ⟨_, rfl, by decide, by decide, by decide⟩
  obtain ⟨o, e, o1, o2, o3⟩ := hso
  have key : ∀ a : Str, '\n' ∉ a → '\x00' ∉ a → a.getLast?.any (fun c => c ≠ '\\' ∧ c ≠ '\r') = true → PrintedLine ('#' :: a) := by
    intro a a1 a2 a3
    have hl : ('#' :: a).getLast? = a.getLast? := by
      cases a with
      | nil => simp at a3
      | cons c a => simp [List.getLast?_cons_cons]
    obtain ⟨c, hc⟩ : ∃ c, a.getLast? = some c := by
      cases h : a.getLast? with
      | none => rw [h] at a3; simp at a3
      | some c => exact ⟨c, rfl⟩
    rw [hc] at a3 hl
    simp only [Option.any_some, decide_eq_true_eq] at a3
    refine ⟨by simp [a1], by simp [a2], ?_, by rw [hl]; simpa using a3.2⟩
    have := trailingBs_append (a := '#' :: a) (n := 0) (by rw [hl]; simpa using a3.1)
    rw [endsOdd_iff]
    simp only [List.replicate_zero, List.append_nil] at this
    rw [this]; decide
  have lastApp : ∀ (a b : Str), b.getLast?.any (fun c => c ≠ '\\' ∧ c ≠ '\r') = true →
      (a ++ b).getLast?.any (fun c => c ≠ '\\' ∧ c ≠ '\r') = true := by
    intro a b hb
    rw [List.getLast?_append]
    cases h : b.getLast? with
    | none => rw [h] at hb; simp at hb
    | some c => rw [h] at hb; simpa using hb
  let priv : Str := if p.var.priv then " private".toList else []
  have p1 : '\n' ∉ priv ∧ '\x00' ∉ priv ∧ (priv = [] ∨ priv.getLast?.any (fun c => c ≠ '\\' ∧ c ≠ '\r') = true) := by
    simp only [priv]; split
    · exact ⟨by decide, by decide, Or.inr (by decide)⟩
    · exact ⟨by simp, by simp, Or.inl rfl⟩
  have hop : (' ' :: o ++ priv).getLast?.any (fun c => c ≠ '\\' ∧ c ≠ '\r') = true := by
    rcases p1.2.2 with h | h
    · rw [h, List.append_nil]; exact lastApp [' '] o o3
    · exact lastApp _ _ h
  cases hloc : p.loc with
  | none =>
    refine ⟨' ' :: o ++ priv, key _ ?_ ?_ hop, ?_⟩
    · simp [o1, p1.1]
    · simp [o2, p1.2.1]
    · intro pre
      have h2 : "# ".toList = ['#', ' '] := rfl
      simp only [printVariable, e, hloc, priv, Option.map_some, h2, List.append_assoc, List.cons_append, List.nil_append]
  | some q =>
    obtain ⟨f, n⟩ := q
    obtain ⟨f1, f2⟩ := hl f n hloc
    have d1 : ∀ c ∈ Nat.toDigits 10 n, c ≠ '\n' ∧ c ≠ '\x00' := by
      intro c hc
      have := Nat.isDigit_of_mem_toDigits (by omega) (by omega) hc
      constructor <;> (rintro rfl; revert this; decide)
    refine ⟨' ' :: o ++ priv ++ (" (from '".toList ++ f ++ "', line ".toList ++ Nat.toDigits 10 n ++ [')']), key _ ?_ ?_ ?_, ?_⟩
    · simp only [List.mem_append, List.mem_cons, not_or]
      exact ⟨⟨⟨by decide, o1⟩, p1.1⟩, ⟨⟨⟨⟨by decide, f1⟩, by decide⟩, fun h => (d1 _ h).1 rfl⟩, by decide⟩⟩
    · simp only [List.mem_append, List.mem_cons, not_or]
      exact ⟨⟨⟨by decide, o2⟩, p1.2.1⟩, ⟨⟨⟨⟨by decide, f2⟩, by decide⟩, fun h => (d1 _ h).2 rfl⟩, by decide⟩⟩
    · exact lastApp _ _ (lastApp _ _ (by decide))
    · intro pre
      have h2 : "# ".toList = ['#', ' '] := rfl
      simp only [printVariable, e, hloc, priv, Option.map_some, h2, List.append_assoc, List.cons_append, List.nil_append]

theorem lineText_append {a b : Str} (ha : '\n' ∉ a ∧ '\x00' ∉ a) (hlast : a.getLast?.any (fun c => c ≠ '\\' ∧ c ≠ '\r') = true)
    (hb : PrintedLine b) : PrintedLine (a ++ b) := by
  obtain ⟨b1, b2, b3, b4⟩ := hb
  refine ⟨by simp [ha.1, b1], by simp [ha.2, b2], ?_, ?_⟩
  · obtain ⟨x, n, rfl, hx⟩ := split_trailing_bs b
    rw [endsOdd_iff, trailingBs_append hx] at b3
    rw [endsOdd_iff, ← List.append_assoc, trailingBs_append ?_]
    · exact b3
    · rw [List.getLast?_append]
      cases hl : x.getLast? with
      | none =>
        intro h
        simp only [Option.none_or] at h
        rw [h] at hlast; simp at hlast
      | some c => rw [hl] at hx; simpa using hx
  · rw [List.getLast?_append]
    cases hl : b.getLast? with
    | none =>
      intro h
      simp only [Option.none_or] at h
      rw [h] at hlast; simp at hlast
    | some c => rw [hl] at b4; simpa using b4

theorem plain_clean {n : Str} (h : PrintableName n) : '\n' ∉ n ∧ '\x00' ∉ n ∧ '#' ∉ n ∧ '$' ∉ n :=
  ⟨fun hm => by have := (h.2 _ hm).2.2.2.2.2; revert this; decide, fun hm => (h.2 _ hm).2.2.2.2.1 rfl,
    fun hm => (h.2 _ hm).2.1 rfl, fun hm => (h.2 _ hm).1 rfl⟩

/-- The line of an assignment, read; `k` is what the comment leaves of the text. -/
theorem read_assignment_kept (hE : CarriesOut E D) {n op t k v : Str} {f : Flavor} {com : Option Str} (hn : PrintableName n) (ho : Op op f)
    (ho2 : '#' ∉ op ∧ '$' ∉ op ∧ '\n' ∉ op ∧ '\x00' ∉ op) (ht : PrintedLine t)
    (hc : CommentRead t k com) (hv : v = k.dropWhile isSpace) {d d' : DefState}
    (hd : ∀ l, IsAssignment l n f v → assignLine D d {} l = some d') :
    PrintedLine (n ++ ' ' :: op ++ ' ' :: t) ∧
    ∀ rest, evalLoop (readerEnv E) (atLine (some d)) [] false false ((n ++ ' ' :: op ++ ' ' :: t) :: rest) =
      evalLoop (readerEnv E) (atLine (some d')) [] false false rest := by
  obtain ⟨n1, n2, n3, n4⟩ := plain_clean hn
  obtain ⟨o1, o2, o3, o4⟩ := ho2
  have e : ∀ t : Str, n ++ ' ' :: op ++ ' ' :: t = (n ++ ' ' :: op ++ [' ']) ++ t := by simp
  have hl : PrintedLine (n ++ ' ' :: op ++ ' ' :: t) := by
    rw [e]
    refine lineText_append ?_ ?_ ht
    · constructor <;> simp [n1, n2, o3, o4]
    · rw [List.getLast?_append]; simp
  refine ⟨hl, fun rest => ?_⟩
  have hcr : CommentRead (n ++ ' ' :: op ++ ' ' :: t) (n ++ ' ' :: op ++ ' ' :: k) com := by
    rw [e, e k]
    refine commentRead_prefix hc _ _ (Nat.le_refl _) ?_ ?_ ?_
    · simp [n3, o1]
    · simp [n4, o2]
    · rw [List.getLast?_append]; simp
  have ha : IsAssignment (n ++ ' ' :: op ++ ' ' :: k) n f v :=
    printed_assignment hn ho (by rw [hv]; simp [show isSpace ' ' = true by decide])
  have hh : (n ++ ' ' :: op ++ ' ' :: k).head?.all (fun c => !isSpace c) = true := by
    rw [List.append_assoc]; exact plainName_head hn _
  have hne : ∀ t : Str, n ++ ' ' :: op ++ ' ' :: t ≠ [] := by simp
  have hp : parseVarAssignment (evalText E.posix (n ++ ' ' :: op ++ ' ' :: t)) = some ({}, n ++ ' ' :: op ++ ' ' :: k) := by
    rw [evalText_cut hl.1 hcr hh]; exact parse_printed ha hh (hne k)
  rw [atLine_assign _ _ _ _ _ (hne t) hp rfl, hE.assign, Option.bind_some, hd _ ha]

/-- The same without comment. -/
theorem read_assignment (hE : CarriesOut E D) {n op t v : Str} {f : Flavor} (hn : PrintableName n) (ho : Op op f)
    (ho2 : '#' ∉ op ∧ '$' ∉ op ∧ '\n' ∉ op ∧ '\x00' ∉ op) (ht : PrintedLine t)
    (hc : CommentRead t t none) (hv : v = t.dropWhile isSpace) {d d' : DefState}
    (hd : ∀ l, IsAssignment l n f v → assignLine D d {} l = some d') :
    PrintedLine (n ++ ' ' :: op ++ ' ' :: t) ∧
    ∀ rest, evalLoop (readerEnv E) (atLine (some d)) [] false false ((n ++ ' ' :: op ++ ' ' :: t) :: rest) =
      evalLoop (readerEnv E) (atLine (some d')) [] false false rest :=
  read_assignment_kept hE hn ho ho2 ht hc hv hd

theorem dropSpaces_id {t : Str} (h : t.head?.all (fun c => !isSpace c) = true) : t = t.dropWhile isSpace := by
  cases t with
  | nil => rfl
  | cons c t => simp only [List.head?_cons, Option.all_some, Bool.not_eq_true'] at h; simp [h]

theorem nextToken_nil_iff {v : Str} : nextToken v = [] ↔ ∀ c ∈ v, isSpace c = true := by
  induction v with
  | nil => simp [nextToken]
  | cons d v ih =>
    by_cases hd : isSpace d = true
    · have : nextToken (d :: v) = nextToken v := by simp [nextToken, hd]
      rw [this, ih]; simp [hd]
    · have : nextToken (d :: v) = d :: v := by simp [nextToken, hd]
      rw [this]; simp [hd]

theorem allBlank_iff {v : Str} : (v ≠ [] ∧ nextToken v = []) ↔ AllBlank v := by
  constructor
  · rintro ⟨h1, h2⟩
    exact ⟨h1, nextToken_nil_iff.mp h2⟩
  · rintro ⟨h1, h2⟩
    exact ⟨h1, nextToken_nil_iff.mpr h2⟩

theorem opText (r : Bool) : Op (if r = true then ['='] else [':', '=']) (if r = true then .recursive else .simple) := by
  cases r
  · exact .simple
  · exact .rec_

theorem opText_clean (r : Bool) : '#' ∉ (if r = true then ['='] else [':', '='] : Str) ∧
    '$' ∉ (if r = true then ['='] else [':', '='] : Str) ∧ '\n' ∉ (if r = true then ['='] else [':', '='] : Str) ∧
    '\x00' ∉ (if r = true then ['='] else [':', '='] : Str) := by cases r <;> decide

theorem printed_lines_join (ls : List Str) (h : ls ≠ []) :
    ['\n'].intercalate ls ++ ['\n'] = ls.flatMap (· ++ ['\n']) := by
  induction ls with
  | nil => exact absurd rfl h
  | cons l ls ih =>
    cases ls with
    | nil => simp [List.intercalate]
    | cons m ls =>
      have := ih (by simp)
      rw [List.flatMap_cons, ← this]
      simp [List.intercalate, List.intersperse]

theorem intercalate_nl_mem {ls : List Str} (h : 2 ≤ ls.length) : '\n' ∈ ['\n'].intercalate ls := by
  match ls, h with
  | a :: b :: ls, _ => simp [List.intercalate, List.intersperse]

theorem defineText_same {posix : Bool} {c : Char} {l : Str} (h1 : '\n' ∉ l) (h2 : Closes posix c l → '#' ∉ l) :
    defineText posix c l = l := by
  simp only [defineText, C17_no_newline posix l h1]
  split
  · rename_i h
    have hcl : Closes posix c l := by
      rw [← mark_closes]
      simp only [defineMark, C17_no_newline posix l h1, if_neg h.1]
      rw [if_neg, if_pos h.2]
      intro hd
      simp only [isDefineLine, isEndefLine, Bool.and_eq_true] at hd h
      have h1 := hd.1
      have h2 := h.2.1
      rw [List.isPrefixOf_iff_prefix] at h1 h2
      obtain ⟨x, hx⟩ := h1
      obtain ⟨y, hy⟩ := h2
      rw [← hx] at hy
      simp at hy
    have hno := h2 hcl
    have hsuf : ∃ w, l = w ++ nextToken l := ⟨l.takeWhile isSpace, (List.takeWhile_append_dropWhile).symm⟩
    obtain ⟨w, hw⟩ := hsuf
    obtain ⟨y, hy⟩ := List.isPrefixOf_iff_prefix.mp (Bool.and_eq_true_iff.mp h.2).1
    have hr : removeComments ((nextToken l).drop 5) = (nextToken l).drop 5 := by
      refine (C18_comments _ _ _ (commentRead_none fun hm => hno ?_)).1
      rw [hw]; exact List.mem_append_right _ (List.mem_of_mem_drop hm)
    rw [hr]
    have hlen : l.length - (nextToken l).length = w.length := by
      have := congrArg List.length hw
      rw [List.length_append] at this; omega
    rw [hlen]
    conv => lhs; arg 1; rw [hw]
    rw [List.take_append, List.append_assoc]
    rw [List.take_of_length_le (by omega), show w.length + 5 - w.length = 5 by omega, List.take_append_drop]
    exact hw.symm
  · rfl

/-- The lines of one variable, printed and read. -/
def ReadsBack (D : DefEnv) (E : RdEnv (Option DefState)) (p : PrintedVar) : Prop :=
    ∃ (ls : List Str) (t : Str), printVariable [] p = some (ls.flatMap (· ++ ['\n'])) ∧ (∀ l ∈ ls, PrintedLine l) ∧
      BackValue p.var t ∧
      ∀ st rest, evalLoop (readerEnv E) (atLine (some st)) [] false false (ls ++ rest) =
        evalLoop (readerEnv E) (atLine (some (finishDefinition D st p.name t .file p.var.recursive false false false)))
          [] false false rest

/-- One variable, printed and read. -/
theorem print_read_one (hE : CarriesOut E D) (hx : ExpandsAs D ext (fuel + 2)) (hs : SubstOk ext) {c : Char}
    (hc : ∀ s, E.cmdPrefix s = c) (hce : c ≠ 'e') (p : PrintedVar) (hp : Printable E.posix c p) :
    ReadsBack D E p := by
  obtain ⟨hn, ho, happ, hloc, hval⟩ := hp
  obtain ⟨cl, hcl, hpr⟩ := comment_line p ho hloc
  have hcom : ∀ st rest, evalLoop (readerEnv E) (atLine (some st)) [] false false (('#' :: cl) :: rest) =
      evalLoop (readerEnv E) (atLine (some st)) [] false false rest := fun st rest =>
    atLine_blank _ _ _ (Or.inr (evalText_comment fun h => hcl.1 (by simp [h])))
  -- the definitions on one line
  have one : ∀ (t u : Str), PrintedLine t → CommentRead t t none → u = t.dropWhile isSpace →
      printDefinition p.name p.var = p.name ++ ' ' :: (if p.var.recursive = true then ['='] else [':', '=']) ++ ' ' :: t ++ ['\n'] →
      (p.var.recursive = false → ∀ x : XState, expand ext (fuel + 2) x u = .ok p.var.value x) →
      BackValue p.var (if p.var.recursive = true then u else p.var.value) → ReadsBack D E p := by
    intro t u ht1 ht2 ht3 hdef hsim hback
    have hstep := fun st => read_assignment (D := D) (E := E) (d := st)
      (d' := finishDefinition D st p.name (if p.var.recursive = true then u else p.var.value) .file p.var.recursive false false false)
      hE hn (opText p.var.recursive) (opText_clean _) ht1 ht2 ht3 (by
        intro l hl
        cases hr : p.var.recursive with
        | true => rw [hr] at hl; exact assign_recursive hx hn st hl
        | false => rw [hr] at hl; exact assign_simple hx hn st hl (hsim hr))
    refine ⟨['#' :: cl, p.name ++ ' ' :: (if p.var.recursive = true then ['='] else [':', '=']) ++ ' ' :: t], _, ?_, ?_, hback, ?_⟩
    · rw [hpr, hdef]; simp
    · intro l hl
      simp only [List.mem_cons, List.not_mem_nil, or_false] at hl
      rcases hl with rfl | rfl
      · exact hcl
      · exact (hstep ⟨fun _ => .empty, []⟩).1
    · intro st rest
      rw [List.cons_append, hcom, List.cons_append, (hstep st).2, List.nil_append]
  by_cases hb : AllBlank p.var.value ∧ '\n' ∉ p.var.value
  · -- white space
    obtain ⟨hb1, hb2⟩ := hb
    have hclean : ∀ d, isSpace d = false → d ∉ p.var.value := fun d hd => space_no_dollar hb1.2 hd
    refine one ("$(subst ,,".toList ++ p.var.value ++ [')']) _ ?_ ?_ rfl ?_ ?_ ?_
    · refine ⟨?_, ?_, ?_, ?_⟩
      · simp [hb2]
      · simp [hclean _ (show isSpace '\x00' = false by decide)]
      · have := trailingBs_append (a := "$(subst ,,".toList ++ p.var.value ++ [')']) (n := 0)
          (by rw [List.getLast?_append]; simp)
        rw [endsOdd_iff]
        simp only [List.replicate_zero, List.append_nil] at this
        rw [this]; decide
      · rw [List.getLast?_append]; simp
    · exact commentRead_none (by simp [hclean _ (show isSpace '#' = false by decide)])
    · have hcond : ¬ (p.var.recursive = true ∧ '\n' ∈ p.var.value) := fun h => hb2 h.2
      rw [printDefinition, if_neg hcond, if_pos (allBlank_iff.mpr hb1)]
      cases p.var.recursive <;> simp [happ]
    · intro _ x
      rw [← dropSpaces_id (by simp; decide)]
      exact expand_subst hs fuel x hb1.2
    · cases hr : p.var.recursive with
      | true =>
        refine ⟨fun h => absurd ⟨hr, hb1, hb2⟩ h, fun _ => ?_⟩
        rw [if_pos rfl, ← dropSpaces_id (by simp; decide)]
      | false => exact ⟨fun _ => by simp, fun h => by rw [hr] at h; cases h.1⟩
  · rcases hval with h | ⟨ht, hh, hcm⟩ | ⟨⟨hr, ls, h2, hv, hls, hnest⟩, hodd⟩
    · exact absurd h hb
    · -- one line
      have hback : BackValue p.var p.var.value := ⟨fun _ => rfl, fun h => absurd h.2 hb⟩
      have hnb : ¬ (p.var.value ≠ [] ∧ nextToken p.var.value = []) := by
        intro h; exact hb ⟨allBlank_iff.mp h, ht.1⟩
      have hcond : ¬ (p.var.recursive = true ∧ '\n' ∈ p.var.value) := fun h => ht.1 h.2
      cases hr : p.var.recursive with
      | true =>
        rw [hr, if_pos rfl] at hcm
        have := one p.var.value p.var.value ht hcm (dropSpaces_id hh) (by
          rw [printDefinition, if_neg hcond, if_neg hnb]
          simp [hr, happ]) (by intro h; rw [hr] at h; cases h) (by simpa using hback)
        exact this
      | false =>
        rw [hr] at hcm
        simp only [Bool.false_eq_true, if_false] at hcm
        have := one (doubleDollars p.var.value) (doubleDollars p.var.value)
          ⟨by rw [doubleDollars_mem]; exact ht.1, by rw [doubleDollars_mem]; exact ht.2.1,
            doubleDollars_endsOdd ht.2.2.1, by rw [doubleDollars_getLast]; exact ht.2.2.2⟩
          (commentRead_none (by rw [doubleDollars_mem]; exact hcm)) (dropSpaces_id (by rw [doubleDollars_head]; exact hh))
          (by rw [printDefinition, if_neg hcond, if_neg hnb]; simp [hr])
          (fun _ x => expand_doubled (fuel + 1) x _) (by simpa [hr] using hback)
        exact this
    · -- `define`
      have hnl : '\n' ∈ p.var.value := by rw [hv]; exact intercalate_nl_mem h2
      obtain ⟨n1, n2, n3, n4⟩ := plain_clean hn
      have hne : ls ≠ [] := by rintro rfl; simp at h2
      have hlast : PrintedLine ("define ".toList ++ p.name) := by
        refine lineText_append ⟨by decide, by decide⟩ (by decide) ⟨n1, n2, hodd, ?_⟩
        intro hl
        have := (hn.2 _ (List.mem_of_getLast? hl)).2.2.2.2.2
        revert this; decide
      have hend : PrintedLine "endef".toList := by
        refine ⟨by decide, by decide, ?_, by decide⟩
        rw [endsOdd_iff]; decide
      refine ⟨['#' :: cl, "define ".toList ++ p.name] ++ ls ++ ["endef".toList], p.var.value, ?_, ?_, ?_, ?_⟩
      · rw [hpr, printDefinition, if_pos ⟨hr, hnl⟩]
        have := printed_lines_join ls hne
        rw [List.flatMap_append, List.flatMap_append, ← this, ← hv]
        simp
      · intro l hl
        simp only [List.mem_append, List.mem_cons, List.not_mem_nil, or_false] at hl
        rcases hl with ((rfl | rfl) | hl) | rfl
        · exact hcl
        · exact hlast
        · exact (hls l hl).1
        · exact hend
      · exact ⟨fun _ => rfl, fun h => absurd hnl h.2.2⟩
      · intro st rest
        have hev : evalText E.posix ("define ".toList ++ p.name) = "define ".toList ++ p.name :=
          evalText_kept hlast.1 (commentRead_none (by simp [n3])) (by simp; decide)
        have hcloses : Closes E.posix c "endef".toList := by
          refine ⟨[], [], ?_, by simp, Or.inl rfl, ?_⟩
          · rw [C17_no_newline _ _ (by decide)]; simp
          · rw [C17_no_newline _ _ (by decide)]
            intro h
            have : 'e' = c := by simpa using h
            exact hce this.symm
        have htake : takeDefine E.posix (E.cmdPrefix (some st)) 1 (ls ++ "endef".toList :: rest) = some (ls, rest) := by
          rw [hc, C21_define_partial]
          refine ⟨ls, _, rfl, hnest, hcloses, ?_⟩
          conv => lhs; rw [← List.map_id ls]
          apply List.map_congr_left
          intro l hl
          exact (defineText_same (hls l hl).1.1 (hls l hl).2).symm
        rw [show (['#' :: cl, "define ".toList ++ p.name] ++ ls ++ ["endef".toList]) ++ rest =
          ('#' :: cl) :: ("define ".toList ++ p.name) :: (ls ++ "endef".toList :: rest) by simp, hcom,
          atLine_define (m := { defineV := true }) (q := p.name) _ _ _ _ _ (by simp) (by rw [hev]; exact parse_define hn) rfl htake,
          hE.define, Option.bind_some, define_recursive hx hn, defineValue, ← hv, hr]

/-- The printed definitions of several variables. -/
theorem print_read_all (hE : CarriesOut E D) (hx : ExpandsAs D ext (fuel + 2)) (hs : SubstOk ext) {c : Char}
    (hc : ∀ s, E.cmdPrefix s = c) (hce : c ≠ 'e') (ps : List PrintedVar) (hp : ∀ p ∈ ps, Printable E.posix c p)
    (hnd : ps.Pairwise fun p q => p.name ≠ q.name) :
    ∃ ls : List Str, printVariables [] ps = some (ls.flatMap (· ++ ['\n'])) ∧ (∀ l ∈ ls, PrintedLine l) ∧
      ∀ st, ∃ st' : DefState, st'.chain = st.chain ∧
        (∀ p ∈ ps, ∃ t, BackValue p.var t ∧
          Assigned D.envOv (st.sets 0 p.name) (st'.sets 0 p.name) t .file p.var.recursive) ∧
        (∀ j n, ¬ (j = 0 ∧ ∃ p ∈ ps, p.name = n) → st'.sets j n = st.sets j n) ∧
        ∀ rest, evalLoop (readerEnv E) (atLine (some st)) [] false false (ls ++ rest) =
          evalLoop (readerEnv E) (atLine (some st')) [] false false rest := by
  induction ps with
  | nil => exact ⟨[], rfl, by simp, fun st => ⟨st, rfl, by simp, by simp, by simp⟩⟩
  | cons p ps ih =>
    obtain ⟨ls, t, h1, h2, h3, h4⟩ := print_read_one hE hx hs hc hce p (hp p (by simp))
    obtain ⟨hn1, hn2⟩ := List.pairwise_cons.mp hnd
    obtain ⟨ls', g1, g2, g3⟩ := ih (fun q hq => hp q (by simp [hq])) hn2
    refine ⟨ls ++ ls', ?_, ?_, ?_⟩
    · simp [printVariables, h1, g1]
    · intro l hl
      rcases List.mem_append.mp hl with hl | hl
      · exact h2 l hl
      · exact g2 l hl
    · intro st
      have hfa := finish_assigned D st p.name t .file p.var.recursive false false false
      have hfs := finish_same D st p.name t .file p.var.recursive false false false
      generalize hst1 : finishDefinition D st p.name t .file p.var.recursive false false false = st1 at *
      have hdest : destination st false = 0 := by simp [destination]
      rw [hdest] at hfa hfs
      obtain ⟨st', k1, k2, k3, k4⟩ := g3 st1
      refine ⟨st', k1.trans hfs.1, ?_, ?_, ?_⟩
      · intro q hq
        rcases List.mem_cons.mp hq with rfl | hq
        · refine ⟨t, h3, ?_⟩
          rw [k3 0 q.name ?_]
          · exact hfa
          · rintro ⟨-, r, hr, hrn⟩
            exact hn1 r hr hrn.symm
        · obtain ⟨u, u1, u2⟩ := k2 q hq
          refine ⟨u, u1, ?_⟩
          rw [hfs.2 0 q.name (fun h => hn1 q hq h.2.symm)] at u2
          exact u2
      · intro j n hj
        rw [k3 j n, hfs.2 j n]
        · rintro ⟨rfl, rfl⟩; exact hj ⟨rfl, p, by simp, rfl⟩
        · rintro ⟨rfl, q, hq, rfl⟩; exact hj ⟨rfl, q, by simp [hq], rfl⟩
      · intro rest
        rw [List.append_assoc, h4, hst1, k4]

/-- C114 (partial): the global variables as `--print-data-base` prints them can be read again as a makefile.
Afterwards every variable has its value and flavour, as if assigned in the makefile; other variables are not
changed.  Partial: names and values must be such as `Printable` says; see `C114_hash`, `C114_leading_blanks` and
`C114_newline` for values that are not. -/
theorem C114_read_back_partial (hE : CarriesOut E D) (hx : ExpandsAs D ext (fuel + 2)) (hs : SubstOk ext) {c : Char}
    (hc : ∀ s, E.cmdPrefix s = c) (hce : c ≠ 'e') (ps : List PrintedVar) (hp : ∀ p ∈ ps, Printable E.posix c p)
    (hnd : ps.Pairwise fun p q => p.name ≠ q.name) (stats : Str) (hst : PrintedLine ('#' :: ' ' :: stats)) (st : DefState) :
    ∃ text cs, printGlobals stats ps = some text ∧ readFile text = some cs ∧
      ∃ st' : DefState, readMakefile E (some st) (cs.map (·.1)) = .done (some st') ∧ st'.chain = st.chain ∧
        (∀ p ∈ ps, ∃ t, BackValue p.var t ∧
          Assigned D.envOv (st.sets 0 p.name) (st'.sets 0 p.name) t .file p.var.recursive) ∧
        (∀ j n, ¬ (j = 0 ∧ ∃ p ∈ ps, p.name = n) → st'.sets j n = st.sets j n) := by
  obtain ⟨ls, h1, h2, h3⟩ := print_read_all hE hx hs hc hce ps hp hnd
  obtain ⟨st', k1, k2, k3, k4⟩ := h3 st
  have hall : ∀ l ∈ [[], "# Variables".toList, []] ++ ls ++ ["# variable set hash-table stats:".toList, '#' :: ' ' :: stats],
      PrintedLine l := by
    have lit : PrintedLine [] ∧ PrintedLine "# Variables".toList ∧ PrintedLine "# variable set hash-table stats:".toList := by
      refine ⟨⟨by decide, by decide, by rw [endsOdd_iff]; decide, by decide⟩,
        ⟨by decide, by decide, by rw [endsOdd_iff]; decide, by decide⟩,
        ⟨by decide, by decide, by rw [endsOdd_iff]; decide, by decide⟩⟩
    intro l hl
    simp only [List.mem_append, List.mem_cons, List.not_mem_nil, or_false] at hl
    rcases hl with ((h | h | h) | h) | h | h
    · rw [h]; exact lit.1
    · rw [h]; exact lit.2.1
    · rw [h]; exact lit.1
    · exact h2 l h
    · rw [h]; exact lit.2.2
    · rw [h]; exact hst
  obtain ⟨cs, c1, c2⟩ := readFile_lines _ hall
  refine ⟨_, cs, ?_, c1, st', ?_, k1, k2, k3⟩
  · simp only [printGlobals, h1, Option.map_some, Option.some.injEq, List.flatMap_append, List.flatMap_cons, List.flatMap_nil,
      List.append_nil]
    simp
  · rw [c2]
    have hb : skipBom ([[], "# Variables".toList, []] ++ ls ++ ["# variable set hash-table stats:".toList, '#' :: ' ' :: stats]) =
        [] :: "# Variables".toList :: [] :: (ls ++ ["# variable set hash-table stats:".toList, '#' :: ' ' :: stats]) := by
      simp [skipBom]
    have e1 : evalText E.posix "# Variables".toList = [] := evalText_comment (l := " Variables".toList) (by decide)
    have e2 : evalText E.posix "# variable set hash-table stats:".toList = [] :=
      evalText_comment (l := " variable set hash-table stats:".toList) (by decide)
    have e3 : evalText E.posix ('#' :: ' ' :: stats) = [] := evalText_comment fun h => hst.1 (by simp at h; simp [h])
    have hr : evalLines (readerEnv E) { env := some st } ([] :: "# Variables".toList :: [] ::
        (ls ++ ["# variable set hash-table stats:".toList, '#' :: ' ' :: stats])) = .done (atLine (some st')) := by
      show evalLoop (readerEnv E) (atLine (some st)) [] false false _ = _
      rw [atLine_blank _ _ _ (Or.inl rfl), atLine_blank _ _ _ (Or.inr e1), atLine_blank _ _ _ (Or.inl rfl), k4,
        atLine_blank _ _ _ (Or.inr e2), atLine_blank _ _ _ (Or.inr e3), evalLoop, if_pos rfl]
    rw [readMakefile, hb, hr]
    simp [atLine, flush]

/-- C114: and a text that was all white space expands to it. -/
theorem C114_blank (hs : SubstOk ext) (x : XState) (v : Var) (h : AllBlank v.value) (hnl : '\n' ∉ v.value)
    (hr : v.recursive = true) (t : Str) (ht : BackValue v t) : expand ext (fuel + 2) x t = .ok v.value x := by
  rw [ht.2 ⟨hr, h, hnl⟩]
  exact expand_subst hs fuel x h.2

end
end Remake
