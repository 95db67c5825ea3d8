import Verif.Files.ArSpec
import Verif.Files.Props
import Verif.Misc.Props
/-!
# C92: groups of archive members
-/
set_option linter.unusedVariables false
set_option linter.unusedSimpArgs false
namespace Remake
open Remake.Spec

theorem quoted_self {find : Char → Bool} {e : Bool} {w : Str} (h : ∀ c ∈ w, find c = false ∧ c ≠ '\\') : Quoted find e w w := by
  induction w with
  | nil => exact .nil
  | cons c cs ih =>
    have := h c (by simp)
    exact Quoted.char (k := 0) this.1 this.2 (ih fun x hx => h x (by simp [hx]))

theorem arWord_char {find : Char → Bool} {m : Str} (h : ArWord find m) : ∀ c ∈ m, find c = false ∧ c ≠ '\\' := by
  intro c hc
  have := h.2.1 c hc
  refine ⟨this.1, ?_⟩
  rintro rfl
  exact this.2.2 (by decide)

theorem seqName_self {w : Str} (h : ¬ ['.', '/'] <+: w) (hn : w ≠ []) : seqName w = w := by
  unfold seqName
  rw [(strip_other h).1, if_neg hn]

theorem not_dot_append {m t : Str} {c : Char} (h : ¬ ['.', '/'] <+: m) (hc : c ≠ '/') (hd : c ≠ '.') : ¬ ['.', '/'] <+: m ++ c :: t := by
  rintro ⟨r, hr⟩
  match m, h with
  | [], _ => simp at hr; exact hd hr.1.symm
  | [x], _ => simp at hr; exact hc hr.2.1.symm
  | x :: y :: m, h =>
    simp at hr
    exact h ⟨m, by rw [← hr.1, ← hr.2.1]; rfl⟩

theorem takeWhile_word {find : Char → Bool} {e : Bool} {w rest : Str} (hw : ∀ c ∈ w, find c = false) (hf : Follows find e rest) :
    (w ++ rest).takeWhile (fun c => !find c) = w ∧ (w ++ rest).dropWhile (fun c => !find c) = rest := by
  induction w with
  | nil =>
    rcases hf with ⟨_, c, r, rfl, hc⟩ | ⟨_, rfl⟩
    · simp [hc]
    · simp
  | cons c cs ih =>
    have := hw c (by simp)
    have ih := ih fun x hx => hw x (by simp [hx])
    simp [this, ih.1, ih.2]

theorem nextToken_blanks {sp rest : Str} (h : Blanks sp) : nextToken (sp ++ rest) = nextToken rest :=
  nextToken_spaces fun c hc => by simp [isSpace, h c hc]

theorem nextToken_arWord {find : Char → Bool} {m rest : Str} (h : ArWord find m) : nextToken (m ++ rest) = m ++ rest := by
  obtain ⟨h1, h2, _⟩ := h
  cases m with
  | nil => exact absurd rfl h1
  | cons c cs => exact nextToken_begin (h2 c (by simp)).2.1

theorem follows_blank {find : Char → Bool} (hb : ∀ c, isBlank c = true → find c = true) {b : Char} (h : isBlank b = true) (r : Str) :
    Follows find false (b :: r) := .inl ⟨rfl, b, r, rfl, hb b h⟩

theorem arWord_last {find : Char → Bool} {m : Str} (h : ArWord find m) : m.getLast? ≠ some ')' := by
  intro hl
  have := h.2.1 ')' (List.mem_of_getLast? hl)
  exact this.2.2 (by decide)

theorem blanks_append {a b : Str} (h1 : Blanks a) (h2 : Blanks b) : Blanks (a ++ b) := by
  intro c hc
  rcases List.mem_append.mp hc with h | h
  · exact h1 c h
  · exact h2 c h

theorem spaces_append {a b : Str} (h1 : Spaces a) (h2 : Spaces b) : Spaces (a ++ b) := by
  intro c hc
  rcases List.mem_append.mp hc with h | h
  · exact h1 c h
  · exact h2 c h

theorem blanks_cons {b : Char} {sp : Str} (hb : isBlank b = true) (h : Blanks sp) : Blanks (b :: sp) := by
  intro c hc
  rcases List.mem_cons.mp hc with rfl | hc
  · exact hb
  · exact h c hc

theorem row_closes {find : Char → Bool} (hb : ∀ c, isBlank c = true → find c = true) (hp : find ')' = false) {e : Bool} {ms : List Str} {r rest : Str}
    (h : MemberRow find ms r) (hf : Follows find e rest) :
    ∀ sp, Blanks sp → groupCloses find (sp ++ (r ++ ')' :: rest)) = true := by
  have one : ∀ w sp, Blanks sp → (∀ c ∈ w, find c = false) → nextToken (w ++ ')' :: rest) = w ++ ')' :: rest →
      groupCloses find (sp ++ (w ++ ')' :: rest)) = true := by
    intro w sp hsp hw hn
    have hw' : ∀ c ∈ w ++ [')'], find c = false := by
      intro c hc
      rcases List.mem_append.mp hc with hc | hc
      · exact hw c hc
      · rw [List.mem_singleton.mp hc]; exact hp
    obtain ⟨k1, k2⟩ := takeWhile_word hw' hf
    rw [List.append_assoc, List.singleton_append] at k1 k2
    rw [groupCloses, nextToken_blanks hsp, hn, k1, k2, dif_neg, if_pos]
    · simp
    · simp; omega
  induction h with
  | @nil sp0 h0 =>
    intro sp hsp
    have := one [] (sp ++ sp0) (blanks_append hsp h0) (by simp)
      (nextToken_begin (by decide))
    simpa [List.append_assoc] using this
  | @last sp0 m h0 hm =>
    intro sp hsp
    have := one m (sp ++ sp0) (blanks_append hsp h0)
      (fun c hc => (arWord_char hm c hc).1) (nextToken_arWord hm)
    simpa [List.append_assoc] using this
  | @cons sp0 m r b ms h0 hm hbl _ ih =>
    intro sp hsp
    have e : sp ++ (sp0 ++ m ++ b :: r ++ ')' :: rest) = (sp ++ sp0) ++ (m ++ b :: (r ++ ')' :: rest)) := by simp
    have hsp' : Blanks (sp ++ sp0) := blanks_append hsp h0
    obtain ⟨k1, k2⟩ := takeWhile_word (fun c hc => (arWord_char hm c hc).1) (follows_blank hb hbl (r ++ ')' :: rest))
    have hmlen : 0 < m.length := List.length_pos_iff.mpr hm.1
    rw [e, groupCloses, nextToken_blanks hsp', nextToken_arWord hm, k1, k2, dif_neg, if_neg (arWord_last hm), if_neg (by simp)]
    · exact ih [b] (by intro c hc; rw [List.mem_singleton.mp hc]; exact hbl)
    · simp; omega

theorem consNames_cons (x : Str) (l : List Str) (r : Option (List Str × Str)) :
    consNames (some [x]) (consNames (some l) r) = consNames (some (x :: l)) r := by
  cases r <;> simp [consNames]

theorem consNames_nil (r : Option (List Str × Str)) : consNames (some []) r = r := by
  cases r <;> simp [consNames]

section
variable {env : FsEnv} {stop : Char → Bool}

/-- What follows a word, as a function of the element it gives. -/
def groupStep (env : FsEnv) (stop : Char → Bool) (e : Option Str × Option Str) (rest : Str) : Option (List Str × Str) :=
  match e.2 with
  | none => parseSeqGo env {} none stop e.1 rest
  | some x => consNames (elementNames env {} none x) (parseSeqGo env {} none stop e.1 rest)

theorem parseSeq_step {grp : Option Str} {p cs : Str} {c : Char} (h : nextToken p = c :: cs) (hs : stop c = false)
    {w rest : Str} (hw : seqWord (findMap {} stop) (c :: cs) = (w, rest)) :
    parseSeqGo env {} none stop grp p =
      groupStep env stop (groupElement (groupOpen (findMap {} stop) {} grp (seqName w) rest).1
        (groupOpen (findMap {} stop) {} grp (seqName w) rest).2) rest := by
  rw [parseSeq_word h hs hw]
  simp only [Bool.false_eq_true, if_false]
  rfl

/-- A word inside a group. -/
theorem parse_inside (hb : stop '\\' = false) {pre w rest sp : Str} {e : Bool}
    (hsp : Blanks sp) (hw : ∀ c ∈ w, findMap {} stop c = false ∧ c ≠ '\\') (hh : Begins w)
    (hd : ¬ ['.', '/'] <+: w) (hf : Follows (findMap {} stop) e rest) :
    parseSeqGo env {} none stop (some pre) (sp ++ (w ++ rest)) =
      groupStep env stop (groupElement (some pre) w) rest := by
  obtain ⟨c, cs, rfl, hc⟩ := hh
  have hb' : findMap {} stop '\\' = false := by simp [findMap, hb, isBlank]
  have hs : stop c = false := by
    have := (hw c (by simp)).1
    cases hsc : stop c with
    | false => rfl
    | true => simp [findMap, hsc] at this
  rw [parseSeq_step (c := c) (cs := cs ++ rest) (w := c :: cs) (rest := rest)
    (by rw [nextToken_blanks hsp, List.cons_append, nextToken_begin hc]) hs
    (by rw [← List.cons_append]; exact seqWord_quoted hb' (quoted_self hw) hf)]
  simp [groupOpen, seqName_self hd]

variable (hb : stop '\\' = false) (hp : stop ')' = false)
include hb hp

omit hb in
theorem find_paren : findMap {} stop ')' = false := by simp [findMap, hp, isBlank]

omit hb hp in
theorem find_blank : ∀ c, isBlank c = true → findMap {} stop c = true := by
  intro c hc; simp [findMap, hc]

theorem parse_row {pre rest : Str} {e : Bool} {ms : List Str} {r : Str} (h : MemberRow (findMap {} stop) ms r)
    (hf : Follows (findMap {} stop) e rest)
    (hel : ∀ m ∈ ms, elementNames env {} none (pre ++ m ++ [')']) = some [pre ++ m ++ [')']]) :
    ∀ sp, Blanks sp → parseSeqGo env {} none stop (some pre) (sp ++ (r ++ ')' :: rest)) =
      consNames (some (ms.map fun m => pre ++ m ++ [')'])) (parseSeqGo env {} none stop none rest) := by
  have hpf := find_paren hp
  induction h with
  | @nil sp0 h0 =>
    intro sp hsp
    have e1 : sp ++ (sp0 ++ ')' :: rest) = (sp ++ sp0) ++ ([')'] ++ rest) := by simp
    rw [e1, parse_inside hb (blanks_append hsp h0)
      (by intro c hc; rw [List.mem_singleton.mp hc]; exact ⟨hpf, by decide⟩) ⟨_, _, rfl, by decide⟩ (by decide) hf]
    simp [groupStep, groupElement, consNames_nil]
  | @last sp0 m h0 hm =>
    intro sp hsp
    have e1 : sp ++ (sp0 ++ m ++ ')' :: rest) = (sp ++ sp0) ++ ((m ++ [')']) ++ rest) := by simp
    have hbeg : Begins (m ++ [')']) := by
      obtain ⟨h1, h2, _⟩ := hm
      cases m with
      | nil => exact absurd rfl h1
      | cons c cs => exact ⟨c, cs ++ [')'], rfl, (h2 c (by simp)).2.1⟩
    rw [e1, parse_inside hb (blanks_append hsp h0)
      (by intro c hc; rcases List.mem_append.mp hc with h | h
          · exact arWord_char hm c h
          · rw [List.mem_singleton.mp h]; exact ⟨hpf, by decide⟩) hbeg
      (not_dot_append hm.2.2 (by decide) (by decide)) hf]
    have hne : m ++ [')'] ≠ [] := by simp
    have hl : (m ++ [')']).length ≠ 1 := by simp; exact hm.1
    have := hel m (by simp)
    simp only [groupStep, groupElement, hne, if_false, List.getLast?_concat, if_true, hl]
    rw [← List.append_assoc, this]
    rfl
  | @cons sp0 m r b ms h0 hm hbl hrow ih =>
    intro sp hsp
    have e1 : sp ++ (sp0 ++ m ++ b :: r ++ ')' :: rest) = (sp ++ sp0) ++ (m ++ b :: (r ++ ')' :: rest)) := by simp
    have hbeg : Begins m := by
      obtain ⟨h1, h2, _⟩ := hm
      cases m with
      | nil => exact absurd rfl h1
      | cons c cs => exact ⟨c, cs, rfl, (h2 c (by simp)).2.1⟩
    rw [e1, parse_inside hb (blanks_append hsp h0)
      (arWord_char hm) hbeg hm.2.2 (follows_blank find_blank hbl _)]
    have := hel m (by simp)
    have ih := ih (fun x hx => hel x (by simp [hx])) [b] (by intro c hc; rw [List.mem_singleton.mp hc]; exact hbl)
    rw [List.singleton_append] at ih
    simp only [groupStep, groupElement, hm.1, if_false, arWord_last hm]
    rw [this, ih, consNames_cons]
    rfl

variable (ho : stop '(' = false)
include ho

/-- A whole group. -/
theorem parse_group {lib rest : Str} {e : Bool} {ms : List Str} {r sp : Str} (hlib : ArWord (findMap {} stop) lib)
    (h : MemberRow (findMap {} stop) ms r) (hr : r ≠ []) (hf : Follows (findMap {} stop) e rest) (hsp : Spaces sp)
    (hel : ∀ m ∈ ms, elementNames env {} none (lib ++ '(' :: m ++ [')']) = some [lib ++ '(' :: m ++ [')']]) :
    parseSeqGo env {} none stop none (sp ++ (lib ++ '(' :: r ++ [')']) ++ rest) =
      consNames (some (ms.map fun m => lib ++ '(' :: m ++ [')'])) (parseSeqGo env {} none stop none rest) := by
  have hpf := find_paren hp
  have hof : findMap {} stop '(' = false := by simp [findMap, ho, isBlank]
  have hb' : findMap {} stop '\\' = false := by simp [findMap, hb, isBlank]
  have hlp : '(' ∉ lib := fun hc => (hlib.2.1 _ hc).2.2 (by decide)
  obtain ⟨c, cs, hlc, hc⟩ : Begins lib := by
    obtain ⟨h1, h2, _⟩ := hlib
    cases lib with
    | nil => exact absurd rfl h1
    | cons c cs => exact ⟨c, cs, rfl, (h2 c (by simp)).2.1⟩
  have hcp : c ≠ '(' := by rintro rfl; exact hlp (by simp [hlc])
  have hs : stop c = false := by
    have := (hlib.2.1 c (by simp [hlc])).1
    cases hsc : stop c with
    | false => rfl
    | true => simp [findMap, hsc] at this
  -- the first word
  have word : ∀ w rest' e', (∀ x ∈ w, findMap {} stop x = false ∧ x ≠ '\\') → Follows (findMap {} stop) e' rest' →
      parseSeqGo env {} none stop none (sp ++ (lib ++ '(' :: (w ++ rest'))) =
        groupStep env stop (groupElement (groupOpen (findMap {} stop) {} none (lib ++ '(' :: w) rest').1
          (groupOpen (findMap {} stop) {} none (lib ++ '(' :: w) rest').2) rest' := by
    intro w rest' e' hw hf'
    have hall : ∀ x ∈ lib ++ '(' :: w, findMap {} stop x = false ∧ x ≠ '\\' := by
      intro x hx
      rcases List.mem_append.mp hx with hx | hx
      · exact arWord_char hlib x hx
      · rcases List.mem_cons.mp hx with rfl | hx
        · exact ⟨hof, by decide⟩
        · exact hw x hx
    rw [parseSeq_step (c := c) (cs := cs ++ '(' :: (w ++ rest')) (w := lib ++ '(' :: w) (rest := rest')
      (by rw [nextToken_spaces hsp, hlc, List.cons_append, nextToken_begin hc]) hs
      (by
        have := seqWord_quoted hb' (quoted_self hall) hf'
        rw [hlc] at this ⊢
        simpa using this)]
    rw [seqName_self (not_dot_append hlib.2.2 (by decide) (by decide)) (by simp)]
  have head : (lib ++ '(' :: ([] : Str)).head? ≠ some '(' := by simp [hlc, hcp]
  have td := fun w => takeDrop_paren lib w hlp
  -- a group that starts with a blank
  have spaced : ∀ b y, r = b :: y → isBlank b = true →
      parseSeqGo env {} none stop none (sp ++ (lib ++ '(' :: r ++ [')']) ++ rest) =
      consNames (some (ms.map fun m => lib ++ '(' :: m ++ [')'])) (parseSeqGo env {} none stop none rest) := by
    intro b y hy hbl
    have e1 : sp ++ (lib ++ '(' :: r ++ [')']) ++ rest = sp ++ (lib ++ '(' :: ([] ++ (r ++ ')' :: rest))) := by simp
    rw [e1, word [] (r ++ ')' :: rest) false (by simp) (by rw [hy]; exact follows_blank find_blank hbl _)]
    have hcl := row_closes find_blank hpf h hf [] (by intro c hc; cases hc)
    rw [List.nil_append] at hcl
    have hopen : groupOpen (findMap {} stop) {} none (lib ++ '(' :: []) (r ++ ')' :: rest) = (some (lib ++ ['(']), []) := by
      unfold groupOpen
      rw [if_pos ⟨rfl, rfl, head, by simp, by simp, hcl⟩, (td []).1, (td []).2]
      rfl
    rw [hopen]
    simp only [groupStep, groupElement, if_true]
    have := parse_row (env := env) hb hp (pre := lib ++ ['(']) h hf (by simpa using hel) [] (by intro c hc; cases hc)
    rw [List.nil_append] at this
    rw [this]
    simp
  cases h with
  | nil h0 =>
    cases r with
    | nil => exact absurd rfl hr
    | cons b y => exact spaced b y rfl (h0 b (by simp))
  | @last sp0 m h0 hm =>
    cases sp0 with
    | cons b y => exact spaced b (y ++ m) rfl (h0 b (by simp))
    | nil =>
      have e1 : sp ++ (lib ++ '(' :: ([] ++ m) ++ [')']) ++ rest = sp ++ (lib ++ '(' :: ((m ++ [')']) ++ rest)) := by simp
      rw [e1, word (m ++ [')']) rest e (by
        intro x hx; rcases List.mem_append.mp hx with hx | hx
        · exact arWord_char hm x hx
        · rw [List.mem_singleton.mp hx]; exact ⟨hpf, by decide⟩) hf]
      have hopen : groupOpen (findMap {} stop) {} none (lib ++ '(' :: (m ++ [')'])) rest = (none, lib ++ '(' :: (m ++ [')'])) := by
        unfold groupOpen
        rw [if_neg]
        rintro ⟨_, _, _, h4, _⟩
        exact h4 (by
          rw [show lib ++ '(' :: (m ++ [')']) = (lib ++ '(' :: m) ++ [')'] by simp, List.getLast?_append]; rfl)
      rw [hopen]
      have := hel m (by simp)
      simp only [groupStep, groupElement, List.append_eq_nil_iff, List.cons_ne_nil, and_false, if_false]
      have e2 : lib ++ '(' :: (m ++ [')']) = lib ++ '(' :: m ++ [')'] := by simp
      rw [e2, this]
      rfl
  | @cons sp0 m r b ms h0 hm hbl hrow =>
    cases sp0 with
    | cons b' y => exact spaced b' (y ++ m ++ b :: r) rfl (h0 b' (by simp))
    | nil =>
      have e1 : sp ++ (lib ++ '(' :: ([] ++ m ++ b :: r) ++ [')']) ++ rest = sp ++ (lib ++ '(' :: (m ++ (b :: (r ++ ')' :: rest)))) := by simp
      rw [e1, word m (b :: (r ++ ')' :: rest)) false (arWord_char hm) (follows_blank find_blank hbl _)]
      have hblk : Blanks [b] := by intro c hc; rw [List.mem_singleton.mp hc]; exact hbl
      have hcl := row_closes find_blank hpf hrow hf [b] hblk
      rw [List.singleton_append] at hcl
      have hmlast : (lib ++ '(' :: m).getLast? ≠ some ')' := by
        have := arWord_last hm
        cases m with
        | nil => exact absurd rfl hm.1
        | cons x xs =>
          rw [List.getLast?_append, List.getLast?_cons_cons]
          intro h
          apply this
          cases hx : (x :: xs).getLast? with
          | none => simp at hx
          | some y => rw [hx] at h; simpa using h
      have hopen : groupOpen (findMap {} stop) {} none (lib ++ '(' :: m) (b :: (r ++ ')' :: rest)) = (some (lib ++ ['(']), m) := by
        unfold groupOpen
        rw [if_pos ⟨rfl, rfl, by simp [hlc, hcp], hmlast, by simp, hcl⟩, (td m).1, (td m).2]
        rfl
      rw [hopen]
      have hel1 := hel m (by simp)
      have := parse_row (env := env) hb hp (pre := lib ++ ['(']) hrow hf (by
        intro x hx; have := hel x (by simp [hx]); simpa using this) [b] hblk
      rw [List.singleton_append] at this
      simp only [groupStep, groupElement, hm.1, if_false, arWord_last hm]
      rw [this]
      have e2 : lib ++ ['('] ++ m ++ [')'] = lib ++ '(' :: m ++ [')'] := by simp
      rw [e2, hel1, consNames_cons]
      simp

omit hb hp ho in
/-- The name of a member stands for itself. -/
theorem elementNames_member {lib m : Str} (hlib : ArWord (findMap {} stop) lib) (hm : ArWord (findMap {} stop) m)
    (hg : env.arGlob lib m = []) : elementNames env {} none (lib ++ '(' :: m ++ [')']) = some [lib ++ '(' :: m ++ [')']] := by
  have hlp : '(' ∉ lib := fun hc => (hlib.2.1 _ hc).2.2 (by decide)
  have hform : ArForm (lib ++ '(' :: m ++ [')']) lib m := ⟨rfl, hlp, hlib.1, hm.1⟩
  have hyes : arName (lib ++ '(' :: m ++ [')']) = .yes := (C59_recognised_partial _).1.2 ⟨lib, m, hform, by
    rintro ⟨x, hx⟩
    exact (hm.2.1 '(' (by rw [hx]; simp)).2.2 (by decide)⟩
  have hparse := C59_parse _ _ _ hform
  have htilde : (lib ++ '(' :: m ++ [')']).head? ≠ some '~' := by
    obtain ⟨h1, h2, _⟩ := hlib
    cases lib with
    | nil => exact absurd rfl h1
    | cons c cs =>
      intro h
      simp only [List.cons_append, List.head?_cons, Option.some.injEq] at h
      exact (h2 c (by simp)).2.2 (by rw [h]; decide)
  have hany : lib.any (fun c => c == '?' || c == '*' || c == '[') = false := by
    rw [List.any_eq_false]
    intro x hx
    have := (hlib.2.1 x hx).2.2
    simp only [List.mem_cons, List.not_mem_nil, or_false, not_or] at this
    simp [this]
  unfold elementNames
  simp only [Bool.false_eq_true, if_false, htilde, hyes, hparse, hany, Bool.not_false, Bool.and_self, if_true]
  simp [hg]

/-- **C92** (partial: plain words, archives and members, without quoting inside the parentheses) In a list of names `lib(a b c)`
stands for `lib(a) lib(b) lib(c)`, with any blanks inside the parentheses, whatever stands before and after it. -/
theorem C92_members_partial (hg : ∀ n m, (∀ c ∈ m, c ≠ '?' ∧ c ≠ '*' ∧ c ≠ '[') → env.arGlob n m = [])
    {e : Bool} {items : List ArItem} {text rest : Str} (h : ArListing (findMap {} stop) e items text) (hr : StopsAt stop e rest) :
    ∃ f : Str → Str, (∀ w, Stripped w (f w)) ∧
      parseFileSeq env {} none stop (text ++ rest) = some (items.flatMap (·.names f), rest) := by
  refine ⟨lookupName, lookupName_stripped, ?_⟩
  suffices hs : ∀ sp, Spaces sp → parseSeqGo env {} none stop none (sp ++ (text ++ rest)) =
      some (items.flatMap (·.names lookupName), rest) by
    have := hs [] (by intro c hc; cases hc)
    rw [List.nil_append] at this
    exact this
  have item : ∀ {e' sp t i rest'}, ItemText (findMap {} stop) e' i t → Follows (findMap {} stop) e' rest' → Spaces sp →
      parseSeqGo env {} none stop none (sp ++ t ++ rest') =
        consNames (some (i.names lookupName)) (parseSeqGo env {} none stop none rest') := by
    intro e' sp t i rest' hi hf hsp
    cases hi with
    | word hw hbeg hq => rw [parse_one hb hsp hbeg hq hf hw.1, elementNames_plain hw]; rfl
    | @members lib r ms hl hrow hne =>
      refine parse_group hb hp ho hl hrow hne hf hsp ?_
      intro m hm
      have hmw : ArWord (findMap {} stop) m := by
        clear hne hf
        induction hrow with
        | nil => cases hm
        | last _ h => rw [List.mem_singleton.mp hm]; exact h
        | cons _ h _ _ ih =>
          rcases List.mem_cons.mp hm with rfl | hm
          · exact h
          · exact ih hm
      refine elementNames_member hl hmw (hg _ _ ?_)
      intro c hc
      have := (hmw.2.1 c hc).2.2
      simp only [List.mem_cons, List.not_mem_nil, or_false, not_or] at this
      exact ⟨this.2.2.2.2.1, this.2.2.2.2.2.1, this.2.2.2.2.2.2⟩
  induction h with
  | @nil sp0 h0 =>
    intro sp hsp
    rw [← List.append_assoc, hr.parse]
    · rfl
    · intro c hc; rcases List.mem_append.1 hc with hc | hc
      · exact hsp c hc
      · exact h0 c hc
  | @last sp0 t i h0 hi =>
    intro sp hsp
    have e1 : sp ++ (sp0 ++ t ++ rest) = (sp ++ sp0) ++ t ++ rest := by simp
    have h4 := hr.parse (env := env) (pfx := none) (sp := []) (by intro c hc; cases hc)
    rw [List.nil_append] at h4
    rw [e1, item hi hr.follows (spaces_append hsp h0), h4]
    simp [consNames]
  | @cons sp0 t r i b is h0 hi hbl _ ih =>
    intro sp hsp
    have e1 : sp ++ (sp0 ++ t ++ b :: r ++ rest) = (sp ++ sp0) ++ t ++ (b :: (r ++ rest)) := by simp
    have h5 := ih [b] (by intro c hc; rw [List.mem_singleton.mp hc]; simp [isSpace, hbl])
    rw [List.singleton_append] at h5
    rw [e1, item hi (follows_blank find_blank hbl _) (spaces_append hsp h0), h5]
    simp [consNames]

end

/-- `x lib( a b ) y | z` -/
example (env : FsEnv) (hg : ∀ n m, (∀ c ∈ m, c ≠ '?' ∧ c ≠ '*' ∧ c ≠ '[') → env.arGlob n m = []) : ∃ f : Str → Str, (∀ w, Stripped w (f w)) ∧
    parseFileSeq env {} none (· == '|') "x lib( a b) y | z".toList =
      some ([f "x".toList, "lib(a)".toList, "lib(b)".toList, f "y".toList], "| z".toList) := by
  have q : ∀ (e : Bool) (c : Char), findMap {} (· == '|') c = false → c ≠ '\\' → Quoted (findMap {} (· == '|')) e [c] [c] :=
    fun e c h1 h2 => Quoted.char (k := 0) (t := []) (w := []) h1 h2 .nil
  have w : ∀ e (c : Char), findMap {} (· == '|') c = false → c ≠ '\\' → PlainWord [c] → isSpace c = false →
      ItemText (findMap {} (· == '|')) e (.word [c]) [c] := fun e c h1 h2 h3 h4 => .word h3 ⟨c, [], rfl, h4⟩ (q e c h1 h2)
  have row : MemberRow (findMap {} (· == '|')) ["a".toList, "b".toList] " a b".toList :=
    .cons (sp := " ".toList) (m := "a".toList) (b := ' ') (r := "b".toList) (by unfold Blanks; decide) (by unfold ArWord; decide) (by decide)
      (.last (sp := []) (by unfold Blanks; decide) (by unfold ArWord; decide))
  have l : ArListing (findMap {} (· == '|')) false [.word "x".toList, .members "lib".toList ["a".toList, "b".toList], .word "y".toList]
      "x lib( a b) y ".toList :=
    .cons (sp := []) (t := "x".toList) (b := ' ') (rest := "lib( a b) y ".toList) (by unfold Spaces; decide)
      (w false 'x' (by decide) (by decide) (by unfold PlainWord; decide) (by decide)) (by decide)
      (.cons (sp := []) (t := "lib( a b)".toList) (b := ' ') (rest := "y ".toList) (by unfold Spaces; decide)
        (.members (lib := "lib".toList) (by unfold ArWord; decide) row (by decide)) (by decide)
        (.cons (sp := []) (t := "y".toList) (b := ' ') (rest := []) (by unfold Spaces; decide)
          (w false 'y' (by decide) (by decide) (by unfold PlainWord; decide) (by decide)) (by decide) (.nil (by unfold Spaces; decide))))
  exact C92_members_partial (env := env) (by decide) (by decide) (by decide) hg l (rest := "| z".toList) (.inl ⟨rfl, '|', " z".toList, rfl, by decide, by decide⟩)

end Remake
