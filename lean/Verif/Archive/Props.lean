import Verif.Archive.Lemmas
/-!
# Properties of archives
-/
set_option linter.unusedVariables false
set_option linter.unusedSimpArgs false
namespace Remake
open Spec

/-! ## Members (C101) -/

/-- A function that collects what it is told. -/
def collectVisits (s : List ArVisit) (v : ArVisit) : List ArVisit × Int := (s ++ [v], 0)

theorem run_collect (vs : List ArVisit) : ∀ s, runVisits collectVisits vs s = (s ++ vs, .code 0) := by
  induction vs with
  | nil => intro s; simp [runVisits]
  | cons v vs ih =>
    intro s
    have := ih (s ++ [v])
    simpa [runVisits, collectVisits] using this

theorem archive_visits {ms : List ArMember} {bytes : Str} (h : IsArchive ms bytes) :
    ∃ vs : List ArVisit, vs.filter (fun v => !isMark v) = ms.map visitOf ∧
      ∀ (σ : Type) (f : σ → ArVisit → σ × Int) (s : σ) (fuel : Nat), bytes.length ≤ fuel →
        arScan (some bytes) f fuel s = some (runVisits f vs s) := by
  obtain ⟨t, rfl, ht⟩ := h
  obtain ⟨vs, h1, h2, h3⟩ := arText_visits ht "!<arch>\n".toList rfl rfl
  refine ⟨vs, h1, ?_⟩
  intro σ f s fuel hf
  unfold arScan
  have e : ("!<arch>\n".toList ++ t).take 8 = arMagic := by
    rw [List.take_left' (by decide)]; rfl
  simp only [e, ne_eq, not_true_eq_false, if_false]
  refine h3 σ f s fuel ?_
  rw [List.length_append] at hf
  have : "!<arch>\n".toList.length = 8 := by decide
  omega

/-- C101: in every archive, of whatever size, the function given to the scan is told about each member, in order, with its name, place, size and date,
and about nothing else but the index and the table of names; the scan ends without an error. -/
theorem C101_members {ms : List ArMember} {bytes : Str} (h : IsArchive ms bytes) {fuel : Nat} (hf : bytes.length ≤ fuel) :
    ∃ vs, arScan (some bytes) collectVisits fuel [] = some (vs, .code 0) ∧
      vs.filter (fun v => !(v.truncated && (v.mem == [] || v.mem == ['/']))) =
        ms.map fun m => ⟨m.name, m.inHeader, m.pos, m.size, m.date⟩ := by
  obtain ⟨vs, h1, h2⟩ := archive_visits h
  refine ⟨vs, ?_, h1⟩
  rw [h2 _ _ _ _ hf, run_collect]; simp

theorem afterSlash_base {b name : Str} (h : IsBase b name) : afterSlash name = b := by
  have hb : ∀ c ∈ b.reverse, decide (c ≠ '/') = true := by
    intro c hc; simp; rintro rfl; exact h.1 (by simpa using hc)
  unfold afterSlash
  rcases h.2 with rfl | ⟨d, rfl⟩
  · rw [← List.append_nil name.reverse, List.takeWhile_append_of_pos hb]; simp
  · rw [List.reverse_append, List.reverse_cons, List.append_assoc, List.takeWhile_append_of_pos hb]
    simp

theorem equal_mark {b name : Str} {v : ArVisit} (hb : IsBase b name) (hne : b ≠ []) (hv : isMark v = true) :
    arNameEqual name v.mem v.truncated = false := by
  simp only [isMark, Bool.and_eq_true, Bool.or_eq_true, beq_iff_eq] at hv
  unfold arNameEqual
  rw [if_pos hv.1, afterSlash_base hb, beq_eq_false_iff_ne]
  rcases hv.2 with e | e <;> rw [e]
  · cases b with
    | nil => exact absurd rfl hne
    | cons c b => simp
  · intro h
    have : '/' ∈ b.take 15 := by rw [h]; decide
    exact hb.1 (List.mem_of_mem_take this)

theorem equal_visit {b name : Str} {m : ArMember} {ms : List ArMember} (hb : IsBase b name) (hu : Unambiguous ms b) (hm : m ∈ ms) :
    arNameEqual name (visitOf m).mem (visitOf m).truncated = decide (m.name = b) := by
  unfold arNameEqual visitOf
  simp only [afterSlash_base hb]
  cases hh : m.inHeader with
  | false =>
    simp only [Bool.false_eq_true, if_false]
    by_cases e : m.name = b
    · simp [e]
    · simp [e, Ne.symm e]
  | true =>
    simp only [if_true]
    by_cases e : m.name = b
    · simp [e]
    · have : b.take 15 ≠ m.name.take 15 := fun h => e (hu m hm hh h.symm)
      simp [e, this]

theorem run_date {b name : Str} {ms : List ArMember} (hb : IsBase b name) (hne : b ≠ []) :
    ∀ vs : List ArVisit, vs.filter (fun v => !isMark v) = ms.map visitOf → Unambiguous ms b →
      runVisits (arDateFunc name) vs none =
        match firstMember ms b with
        | none => (none, .code 0)
        | some m => (some (m.date : Int), .code 1) := by
  intro vs
  induction vs generalizing ms with
  | nil => intro h _; simp at h; subst h; rfl
  | cons v vs ih =>
    intro h hu
    rw [runVisits]
    cases hv : isMark v with
    | true =>
      have e : arDateFunc name none v = (none, 0) := by
        unfold arDateFunc; rw [equal_mark hb hne hv]; rfl
      rw [e]
      simp only [ne_eq, not_true_eq_false, if_false]
      refine ih ?_ hu
      rw [List.filter_cons, hv] at h; simpa using h
    | false =>
      rw [List.filter_cons, hv] at h
      cases ms with
      | nil => simp at h
      | cons m ms =>
        simp only [Bool.not_false, if_true, List.map_cons, List.cons.injEq] at h
        obtain ⟨rfl, h⟩ := h
        have e := equal_visit hb hu (List.mem_cons_self (a := m) (l := ms))
        unfold arDateFunc
        rw [e]
        unfold firstMember
        rw [List.find?_cons]
        by_cases hn : m.name = b
        · simp [hn]; rfl
        · simp only [hn, decide_false, Bool.false_eq_true, if_false, ne_eq, not_true_eq_false]
          exact ih h (fun x hx => hu x (List.mem_cons_of_mem _ hx))

theorem run_pos {b name : Str} {ms : List ArMember} (hb : IsBase b name) (hne : b ≠ []) :
    ∀ vs : List ArVisit, vs.filter (fun v => !isMark v) = ms.map visitOf → Unambiguous ms b → (∀ m ∈ ms, 0 < m.pos) →
      runVisits (arPosFunc name) vs () = ((), .code ((firstMember ms b).elim 0 fun m => m.pos)) := by
  intro vs
  induction vs generalizing ms with
  | nil => intro h _ _; simp at h; subst h; rfl
  | cons v vs ih =>
    intro h hu hp
    rw [runVisits]
    cases hv : isMark v with
    | true =>
      have e : arPosFunc name () v = ((), 0) := by
        unfold arPosFunc; rw [equal_mark hb hne hv]; rfl
      rw [e]
      simp only [ne_eq, not_true_eq_false, if_false]
      refine ih ?_ hu hp
      rw [List.filter_cons, hv] at h; simpa using h
    | false =>
      rw [List.filter_cons, hv] at h
      cases ms with
      | nil => simp at h
      | cons m ms =>
        simp only [Bool.not_false, if_true, List.map_cons, List.cons.injEq] at h
        obtain ⟨rfl, h⟩ := h
        have e := equal_visit hb hu (List.mem_cons_self (a := m) (l := ms))
        unfold arPosFunc
        rw [e]
        unfold firstMember
        rw [List.find?_cons]
        by_cases hn : m.name = b
        · have := hp m (by simp)
          simp only [hn, decide_true, if_true, visitOf, Option.elim_some]
          rw [if_pos (by omega)]
        · simp only [hn, decide_false, Bool.false_eq_true, if_false, ne_eq, not_true_eq_false]
          exact ih h (fun x hx => hu x (List.mem_cons_of_mem _ hx)) (fun x hx => hp x (List.mem_cons_of_mem _ hx))

/-- C101: the date of `lib(dir/b)` is the date of the first member named `b`, and the member does not exist if there is none - provided that no
member whose name is in its header agrees with `b` in the first 15 characters without being `b` (missing: see `C101_truncated`). -/
theorem C101_date_partial {ms : List ArMember} {bytes b name : Str} (h : IsArchive ms bytes) (hb : IsBase b name) (hne : b ≠ [])
    (hu : Unambiguous ms b) {fuel : Nat} (hf : bytes.length ≤ fuel) :
    arMemberDate fuel (some bytes) name = .val ((firstMember ms b).map fun m => (m.date : Int)) := by
  obtain ⟨vs, h1, h2⟩ := archive_visits h
  unfold arMemberDate
  rw [h2 _ _ _ _ hf, run_date hb hne vs h1 hu]
  cases firstMember ms b <;> rfl

/-- C101: an archive that does not exist, or a file that is no archive, has no members. -/
theorem C101_none {file : Option Str} (h : ∀ bytes, file = some bytes → ¬ "!<arch>\n".toList <+: bytes) {fuel : Nat} {name : Str} :
    arMemberDate fuel file name = .val none := by
  unfold arMemberDate arScan
  cases file with
  | none => rfl
  | some bytes =>
    have : bytes.take 8 ≠ arMagic := by
      intro e
      have := List.take_append_drop 8 bytes
      rw [e] at this
      exact h bytes rfl (show arMagic <+: bytes from ⟨_, this⟩)
    simp [this]

/-! An archive with an index, a table, a member with its name in the header, one with its name in the table and one with its name before
its contents. -/

/-- The owner in the headers of the example. -/
def exOwner : Str := "0     0     644     ".toList

/-- The table of names in the example. -/
def exTable : Str := "a_long_member_name.o/\nanother_long_name.o/\n".toList

/-- The example. -/
def exArchive : Str :=
  "!<arch>\n".toList ++ (arHead ['/'] "0".toList exOwner 3 ++ "sym".toList ++ ['\n'] ++
    (arHead ['/', '/'] [] (List.replicate 20 ' ') 43 ++ exTable ++ ['\n'] ++
      (arHead "main.o/".toList (Nat.toDigits 10 1700000000) exOwner 4 ++ "code".toList ++ [] ++
        (arHead ('/' :: Nat.toDigits 10 22) (Nat.toDigits 10 1700000001) exOwner 1 ++ "x".toList ++ ['\n'] ++
          (arHead (['#', '1', '/'] ++ Nat.toDigits 10 (3 + 1)) (Nat.toDigits 10 5) exOwner 6 ++ ("b.o".toList ++ List.replicate 1 (Char.ofNat 0) ++ "yz".toList) ++ [] ++ [])))))

theorem exArchive_is : IsArchive
    [⟨"main.o".toList, true, 176, 4, 1700000000⟩, ⟨"another_long_name.o".toList, false, 240, 1, 1700000001⟩, ⟨"b.o".toList, false, 302, 6, 5⟩]
    exArchive := by
  refine ⟨_, rfl, ?_⟩
  refine .index (data := "sym".toList) (fill := ['\n']) ⟨by decide, by decide, by decide, by decide⟩ (by decide) ?_
  refine .table (data := exTable) (fill := ['\n']) ⟨by decide, by decide, by decide, by decide⟩ (by decide) (by decide) (by decide) ?_
  refine .short (n := "main.o".toList) (field := "main.o/".toList) (owner := exOwner) (date := 1700000000) (data := "code".toList) (fill := []) ⟨by decide, by decide, by decide, by decide, by decide⟩ (.inr ⟨by decide, by decide⟩)
    ⟨by decide, by decide, by decide, by decide⟩ (by decide) (by decide) ?_
  refine .long (data := "x".toList) (fill := ['\n']) ⟨by decide, by decide, by decide, "a_long_member_name.o/\n".toList, [], by decide, .inl (by decide)⟩ (by decide)
    ⟨by decide, by decide, by decide, by decide⟩ (by decide) (by decide) ?_
  exact .bsd (data := "yz".toList) (fill := []) (n := "b.o".toList) (nuls := 1) (by decide) (by decide) (by decide)
    ⟨by decide, by decide, by decide, by decide⟩ (by decide) (by decide) .nil

example : arMemberDate 1000 (some exArchive) "dir/another_long_name.o".toList = .val (some 1700000001) := by
  rw [C101_date_partial (b := "another_long_name.o".toList) exArchive_is ⟨by decide, .inr ⟨"dir".toList, by decide⟩⟩ (by decide)
    (by unfold Unambiguous; decide) (by decide +kernel)]
  decide

/-- C101 fails for names of more than 15 characters: a member with a name of 15 characters is taken for a member with a longer name that
starts with those, though archives with a table of names have room for the longer name. -/
theorem C101_truncated : ∃ (ms : List ArMember) (bytes name : Str), IsArchive ms bytes ∧ (∀ m ∈ ms, m.name ≠ name) ∧
    arMemberDate 1000 (some bytes) name = .val (some 7) := by
  refine ⟨[⟨"123456789012345".toList, true, 8, 0, 7⟩],
    "!<arch>\n".toList ++ (arHead "123456789012345/".toList (Nat.toDigits 10 7) exOwner 0 ++ [] ++ [] ++ []),
    "1234567890123456.o".toList, ⟨_, rfl, ?_⟩, by decide, by decide +kernel⟩
  exact .short (n := "123456789012345".toList) (field := "123456789012345/".toList) (owner := exOwner) (date := 7) (data := []) (fill := []) ⟨by decide, by decide, by decide, by decide, by decide⟩ (.inr ⟨by decide, by decide⟩)
    ⟨by decide, by decide, by decide, by decide⟩ (by decide) (by decide) .nil

/-! ## Touching a member (C102) -/

/-- The date field of the header at `q` replaced. -/
def stampAt (t : Str) (q date : Nat) : Str := t.take (q + 16) ++ arField 12 (Nat.toDigits 10 date) ++ t.drop (q + 28)

theorem arText_pos {table : Option Str} {pos : Nat} {ms : List ArMember} {t : Str} (h : ArText table pos ms t) :
    ∀ m ∈ ms, pos ≤ m.pos := by
  induction h with
  | nil => simp
  | index _ _ _ ih => intro m hm; have := ih m hm; omega
  | table _ _ _ _ _ ih => intro m hm; have := ih m hm; omega
  | short _ _ _ _ _ _ ih =>
    intro m hm
    rcases List.mem_cons.1 hm with rfl | hm
    · exact Nat.le_refl _
    · have := ih m hm; omega
  | long _ _ _ _ _ _ ih =>
    intro m hm
    rcases List.mem_cons.1 hm with rfl | hm
    · exact Nat.le_refl _
    · have := ih m hm; omega
  | bsd _ _ _ _ _ _ _ ih =>
    intro m hm
    rcases List.mem_cons.1 hm with rfl | hm
    · exact Nat.le_refl _
    · have := ih m hm; omega

/-- A stamp behind a prefix. -/
theorem stampAt_append {a b : Str} {q date : Nat} (h : a.length ≤ q) : stampAt (a ++ b) q date = a ++ stampAt b (q - a.length) date := by
  unfold stampAt
  rw [List.take_append, List.drop_append, List.take_of_length_le (by omega), List.drop_eq_nil_of_le (by omega)]
  have e1 : q + 16 - a.length = q - a.length + 16 := by omega
  have e2 : q + 28 - a.length = q - a.length + 28 := by omega
  rw [e1, e2]; simp

/-- A stamp on a header. -/
theorem stampAt_head {name date owner rest : Str} {size d : Nat} (h : HeadFits name date owner size) :
    stampAt (arHead name date owner size ++ rest) 0 d = arHead name (Nat.toDigits 10 d) owner size ++ rest := by
  unfold stampAt arHead
  have e1 := arField_length h.name
  have e2 := arField_length h.date
  simp only [List.append_assoc, Nat.zero_add]
  rw [List.take_left' e1, ← List.append_assoc (arField 16 name) (arField 12 date), List.drop_left' (by simp [e1, e2])]

theorem arText_stamp {table : Option Str} {pos : Nat} {ms : List ArMember} {t : Str} (h : ArText table pos ms t) {m : ArMember} {d : Nat}
    (hd : d < 10 ^ 11) (hm : m ∈ ms) : ArText table pos (redated ms m d) (stampAt t (m.pos - pos) d) := by
  have hlen : (Nat.toDigits 10 d).length ≤ 12 := by have := toDigits_len 10 d (by omega); omega
  have keep : ∀ {q : Nat} {l : List ArMember}, (∀ x ∈ l, q < x.pos) → ∀ x : ArMember, x.pos = q → redated l x d = l := by
    intro q l hl x hx
    unfold redated
    conv => rhs; rw [← List.map_id l]
    refine List.map_congr_left fun y hy => ?_
    have := hl y hy
    rw [if_neg (by omega)]; rfl
  induction h with
  | nil => simp at hm
  | @index table pos ms t date owner data fill hf hfill hr ih =>
    have hp := arText_pos hr m hm
    have := ih hm
    rw [stampAt_append (by simp [arHead_length hf]; omega)]
    have e : m.pos - pos - (arHead ['/'] date owner data.length ++ data ++ fill).length = m.pos - (pos + 60 + data.length + fill.length) := by
      simp [arHead_length hf]; omega
    rw [e]
    exact .index hf hfill this
  | @table table pos ms t date owner data fill hf hfill hsz hnl hr ih =>
    have hp := arText_pos hr m hm
    have := ih hm
    rw [stampAt_append (by simp [arHead_length hf]; omega)]
    have e : m.pos - pos - (arHead ['/', '/'] date owner data.length ++ data ++ fill).length = m.pos - (pos + 60 + data.length + fill.length) := by
      simp [arHead_length hf]; omega
    rw [e]
    exact .table hf hfill hsz hnl this
  | @short table pos date ms t n field owner data fill hn hfield hf hdate hfill hr ih =>
    have hp := arText_pos hr
    rcases List.mem_cons.1 hm with rfl | hm
    · have : redated (⟨n, true, pos, data.length, date⟩ :: ms) ⟨n, true, pos, data.length, date⟩ d = ⟨n, true, pos, data.length, d⟩ :: ms := by
        have := keep (q := pos) (l := ms) (fun x hx => by have := hp x hx; omega) ⟨n, true, pos, data.length, date⟩ rfl
        unfold redated at this ⊢
        rw [List.map_cons, this, if_pos rfl]
      rw [this, List.append_assoc, List.append_assoc]
      simp only [Nat.sub_self]
      rw [stampAt_head hf, ← List.append_assoc, ← List.append_assoc]
      exact .short hn hfield ⟨hf.name, hlen, hf.owner, hf.size⟩ hd hfill hr
    · have hp := hp m hm
      have := ih hm
      rw [stampAt_append (by simp [arHead_length hf]; omega)]
      have e : m.pos - pos - (arHead field (Nat.toDigits 10 date) owner data.length ++ data ++ fill).length = m.pos - (pos + 60 + data.length + fill.length) := by
        simp [arHead_length hf]; omega
      rw [e, redated, List.map_cons, if_neg (by simp only []; omega)]
      exact .short hn hfield hf hdate hfill this
  | @long table off pos date ms t n owner data fill hn ho hf hdate hfill hr ih =>
    have hp := arText_pos hr
    rcases List.mem_cons.1 hm with rfl | hm
    · have : redated (⟨n, false, pos, data.length, date⟩ :: ms) ⟨n, false, pos, data.length, date⟩ d = ⟨n, false, pos, data.length, d⟩ :: ms := by
        have := keep (q := pos) (l := ms) (fun x hx => by have := hp x hx; omega) ⟨n, false, pos, data.length, date⟩ rfl
        unfold redated at this ⊢
        rw [List.map_cons, this, if_pos rfl]
      rw [this, List.append_assoc, List.append_assoc]
      simp only [Nat.sub_self]
      rw [stampAt_head hf, ← List.append_assoc, ← List.append_assoc]
      exact .long hn ho ⟨hf.name, hlen, hf.owner, hf.size⟩ hd hfill hr
    · have hp := hp m hm
      have := ih hm
      rw [stampAt_append (by simp [arHead_length hf]; omega)]
      have e : m.pos - pos - (arHead ('/' :: Nat.toDigits 10 off) (Nat.toDigits 10 date) owner data.length ++ data ++ fill).length = m.pos - (pos + 60 + data.length + fill.length) := by
        simp [arHead_length hf]; omega
      rw [e, redated, List.map_cons, if_neg (by simp only []; omega)]
      exact .long hn ho hf hdate hfill this
  | @bsd table pos date nuls ms t n owner data fill hn1 hn2 hlen2 hf hdate hfill hr ih =>
    have hp := arText_pos hr
    have hl := arHead_length hf
    rcases List.mem_cons.1 hm with rfl | hm
    · have : redated (⟨n, false, pos, (n ++ List.replicate nuls (Char.ofNat 0) ++ data).length, date⟩ :: ms)
          ⟨n, false, pos, (n ++ List.replicate nuls (Char.ofNat 0) ++ data).length, date⟩ d =
          ⟨n, false, pos, (n ++ List.replicate nuls (Char.ofNat 0) ++ data).length, d⟩ :: ms := by
        have := keep (q := pos) (l := ms) (fun x hx => by have := hp x hx; omega)
          ⟨n, false, pos, (n ++ List.replicate nuls (Char.ofNat 0) ++ data).length, date⟩ rfl
        unfold redated at this ⊢
        rw [List.map_cons, this, if_pos rfl]
      rw [this]
      simp only [Nat.sub_self]
      have e := ArText.bsd hn1 hn2 hlen2 ⟨hf.name, hlen, hf.owner, hf.size⟩ hd hfill hr
      generalize (n ++ List.replicate nuls (Char.ofNat 0) ++ data) = D at *
      rw [List.append_assoc, List.append_assoc] at e ⊢
      rw [stampAt_head hf]
      exact e
    · have hp := hp m hm
      have := ih hm
      have hlen' : (arHead (['#', '1', '/'] ++ Nat.toDigits 10 (n.length + nuls)) (Nat.toDigits 10 date) owner
          (n ++ List.replicate nuls (Char.ofNat 0) ++ data).length ++ (n ++ List.replicate nuls (Char.ofNat 0) ++ data) ++ fill).length
          = 60 + (n ++ List.replicate nuls (Char.ofNat 0) ++ data).length + fill.length := by
        rw [List.length_append, List.length_append, hl]
      rw [stampAt_append (by omega), hlen']
      have e : m.pos - pos - (60 + (n ++ List.replicate nuls (Char.ofNat 0) ++ data).length + fill.length) =
          m.pos - (pos + 60 + (n ++ List.replicate nuls (Char.ofNat 0) ++ data).length + fill.length) := by omega
      rw [e, redated, List.map_cons, if_neg (by simp only []; omega)]
      exact .bsd hn1 hn2 hlen2 hf hdate hfill this

theorem archive_stamp {ms : List ArMember} {bytes : Str} (h : IsArchive ms bytes) {m : ArMember} (hm : m ∈ ms) {d : Nat} (hd : d < 10 ^ 11) :
    IsArchive (redated ms m d) (stampAt bytes m.pos d) := by
  obtain ⟨t, rfl, ht⟩ := h
  refine ⟨_, ?_, arText_stamp ht hd hm⟩
  have := arText_pos ht m hm
  have e : "!<arch>\n".toList.length = 8 := by decide
  rw [stampAt_append (by rw [e]; exact this), e]

/-- A header is inside the archive. -/
theorem arText_inside {table : Option Str} {pos : Nat} {ms : List ArMember} {t : Str} (h : ArText table pos ms t) :
    ∀ m ∈ ms, m.pos + 60 ≤ pos + t.length := by
  induction h with
  | nil => simp
  | index hf _ _ ih => intro m hm; have := ih m hm; simp [arHead_length hf]; omega
  | table hf _ _ _ _ ih => intro m hm; have := ih m hm; simp [arHead_length hf]; omega
  | short _ _ hf _ _ _ ih =>
    intro m hm
    rcases List.mem_cons.1 hm with rfl | hm
    · simp [arHead_length hf]
    · have := ih m hm; simp [arHead_length hf]; omega
  | long _ _ hf _ _ _ ih =>
    intro m hm
    rcases List.mem_cons.1 hm with rfl | hm
    · simp [arHead_length hf]
    · have := ih m hm; simp [arHead_length hf]; omega
  | bsd _ _ _ hf _ _ _ ih =>
    intro m hm
    have hl := arHead_length hf
    have hlen : ∀ h d f r : Str, (h ++ d ++ f ++ r).length = h.length + d.length + f.length + r.length := by
      intro h d f r; simp; omega
    rw [hlen, hl]
    rcases List.mem_cons.1 hm with rfl | hm
    · simp only []; omega
    · have := ih m hm
      omega

theorem stamp_bytes {bytes : Str} {pos : Nat} {mtime : Int} (h0 : 0 ≤ mtime) (h1 : mtime < 10 ^ 11) (hl : pos + 60 ≤ bytes.length) :
    ∃ h', stampHeader (readAt bytes pos 60) mtime = some h' ∧ bytes.take pos ++ h' ++ bytes.drop (pos + 60) = stampAt bytes pos mtime.toNat := by
  have e : (mtime % 2 ^ 64).toNat = mtime.toNat := by rw [Int.emod_eq_of_lt h0 (by omega)]
  have hd : (Nat.toDigits 10 mtime.toNat).length ≤ 11 := toDigits_len 10 _ (by omega)
  unfold stampHeader
  simp only [e]
  rw [if_neg (by omega)]
  refine ⟨_, rfl, ?_⟩
  have a1 : (readAt bytes pos 60).take 16 = (bytes.drop pos).take 16 := by
    unfold readAt; rw [List.take_take]; rfl
  have a2 : (readAt bytes pos 60).drop 28 = (bytes.drop (pos + 28)).take 32 := by
    unfold readAt; rw [List.drop_take, List.drop_drop]
  have a3 : bytes.take pos ++ (bytes.drop pos).take 16 = bytes.take (pos + 16) := by
    rw [List.take_add]
  have a4 : (bytes.drop (pos + 28)).take 32 ++ bytes.drop (pos + 60) = bytes.drop (pos + 28) := by
    have := List.take_append_drop 32 (bytes.drop (pos + 28))
    rw [List.drop_drop] at this
    exact this
  unfold stampAt arField
  rw [a1, a2, ← a3]
  conv => rhs; rw [← a4]
  simp only [List.append_assoc]

/-- C102: touching `lib(dir/b)` gives the first member named `b` the time of the last change of the archive as its date.  The result is the same archive, with the same
members and dates otherwise, and only the date field of that member is written.  (Missing: members that do not exist or have ambiguous names; dates
beyond the year 5138.) -/
theorem C102_touch_partial {ms : List ArMember} {bytes b name : Str} {m : ArMember} (h : IsArchive ms bytes) (hb : IsBase b name) (hne : b ≠ [])
    (hu : Unambiguous ms b) (hm : firstMember ms b = some m) {mtime : Int} (h0 : 0 ≤ mtime) (h1 : mtime < 10 ^ 11)
    {fuel : Nat} (hf : bytes.length ≤ fuel) :
    ∃ bytes', arTouch fuel (some bytes) true mtime name = .val (true, some bytes') ∧
      IsArchive (redated ms m mtime.toNat) bytes' ∧ bytes'.length = bytes.length ∧
      ∀ k, k < m.pos + 16 ∨ m.pos + 28 ≤ k → bytes'[k]? = bytes[k]? := by
  have hmem : m ∈ ms := List.mem_of_find?_eq_some hm
  have hpos : ∀ x ∈ ms, 0 < x.pos := by
    obtain ⟨t, rfl, ht⟩ := h
    intro x hx; have := arText_pos ht x hx; omega
  have hin : m.pos + 60 ≤ bytes.length := by
    obtain ⟨t, rfl, ht⟩ := h
    have := arText_inside ht m hmem
    have e : "!<arch>\n".toList.length = 8 := by decide
    rw [List.length_append, e]; exact this
  have hlen : (stampAt bytes m.pos mtime.toNat).length = bytes.length := by
    have hd : (Nat.toDigits 10 mtime.toNat).length ≤ 11 := toDigits_len 10 _ (by omega)
    simp [stampAt, arField_length (show (Nat.toDigits 10 mtime.toNat).length ≤ 12 by omega)]; omega
  refine ⟨stampAt bytes m.pos mtime.toNat, ?_, archive_stamp h hmem (by omega), hlen, ?_⟩
  · obtain ⟨vs, g1, g2⟩ := archive_visits h
    obtain ⟨h', s1, s2⟩ := stamp_bytes h0 h1 hin
    have hp := hpos m hmem
    have hread : (readAt bytes m.pos 60).length = 60 := by simp [readAt]; omega
    unfold arTouch arMemberTouch
    rw [g2 _ _ _ _ hf, run_pos hb hne vs g1 hu hpos, hm]
    simp only [Option.elim_some, Option.getD_some, Int.toNat_natCast, Bool.not_true, Bool.false_eq_true, if_false, hread, s1, s2,
      ne_eq, not_true_eq_false]
    rw [if_neg (by omega), if_neg (by omega)]
    rfl
  · intro k hk
    have hd : (arField 12 (Nat.toDigits 10 mtime.toNat)).length = 12 :=
      arField_length (by have := toDigits_len 10 mtime.toNat (by omega); omega)
    have ht : (bytes.take (m.pos + 16)).length = m.pos + 16 := by simp; omega
    unfold stampAt
    rcases hk with hk | hk
    · rw [List.append_assoc, List.getElem?_append_left (by omega), List.getElem?_take_of_lt hk]
    · rw [List.getElem?_append_right (by simp [hd]; omega), List.getElem?_drop]
      congr 1
      rw [List.length_append, ht, hd]; omega

example : ∃ bytes', arTouch 1000 (some exArchive) true 1800000000 "main.o".toList = .val (true, some bytes') ∧
    IsArchive (redated [⟨"main.o".toList, true, 176, 4, 1700000000⟩, ⟨"another_long_name.o".toList, false, 240, 1, 1700000001⟩,
      ⟨"b.o".toList, false, 302, 6, 5⟩] ⟨"main.o".toList, true, 176, 4, 1700000000⟩ 1800000000) bytes' := by
  obtain ⟨b, h1, h2, _⟩ := C102_touch_partial (name := "main.o".toList) (b := "main.o".toList) 
    (m := ⟨"main.o".toList, true, 176, 4, 1700000000⟩) exArchive_is ⟨by decide, .inl rfl⟩ (by decide)
    (by unfold Unambiguous; decide) (by decide) (mtime := 1800000000) (by decide) (by decide) (fuel := 1000) (by decide +kernel)
  exact ⟨b, h1, h2⟩

/-- C102: after touching a member, its date is the time of the last change that the archive had before. -/
theorem C102_date_partial {ms : List ArMember} {bytes b name : Str} {m : ArMember} (h : IsArchive ms bytes) (hb : IsBase b name) (hne : b ≠ [])
    (hu : Unambiguous ms b) (hm : firstMember ms b = some m) {mtime : Int} (h0 : 0 ≤ mtime) (h1 : mtime < 10 ^ 11)
    {fuel : Nat} (hf : bytes.length ≤ fuel) :
    ∃ bytes', arTouch fuel (some bytes) true mtime name = .val (true, some bytes') ∧
      arMemberDate fuel (some bytes') name = .val (some mtime) := by
  obtain ⟨bytes', g1, g2, g3, _⟩ := C102_touch_partial h hb hne hu hm h0 h1 hf
  refine ⟨bytes', g1, ?_⟩
  have hu' : Unambiguous (redated ms m mtime.toNat) b := by
    intro x hx
    unfold redated at hx
    obtain ⟨y, hy, rfl⟩ := List.mem_map.1 hx
    have := hu y hy
    split <;> exact this
  rw [C101_date_partial g2 hb hne hu' (by omega)]
  have : (firstMember (redated ms m mtime.toNat) b).map (fun m => (m.date : Int)) = some mtime := by
    unfold firstMember redated at *
    rw [List.find?_map]
    have e : ((fun m : ArMember => decide (m.name = b)) ∘ fun x : ArMember => if x.pos = m.pos then { x with date := mtime.toNat } else x) =
        fun x => decide (x.name = b) := by
      funext x; simp only [Function.comp]; split <;> rfl
    rw [e, hm]
    simp; omega
  rw [this]

/-- C102 fails for the current time: if the archive already has its time of change as the date of the member, touching the member changes nothing, however old
the archive is. -/
theorem C102_no_effect : ∃ bytes, (∃ ms, IsArchive ms bytes ∧ ms ≠ []) ∧
    arTouch 1000 (some bytes) true 7 "m".toList = .val (true, some bytes) := by
  refine ⟨"!<arch>\n".toList ++ (arHead "m/".toList (Nat.toDigits 10 7) exOwner 0 ++ [] ++ [] ++ []),
    ⟨[⟨"m".toList, true, 8, 0, 7⟩], ⟨_, rfl, ?_⟩, by decide⟩, by decide +kernel⟩
  exact .short (n := "m".toList) (field := "m/".toList) (owner := exOwner) (date := 7) (data := []) (fill := [])
    ⟨by decide, by decide, by decide, by decide, by decide⟩ (.inr ⟨by decide, by decide⟩)
    ⟨by decide, by decide, by decide, by decide⟩ (by decide) (by decide) .nil

/-- C102: a member that does not exist, or an archive that is none, cannot be touched, and nothing is written. -/
theorem C102_missing {ms : List ArMember} {bytes b name : Str} (h : IsArchive ms bytes) (hb : IsBase b name) (hne : b ≠ [])
    (hu : Unambiguous ms b) (hm : ∀ m ∈ ms, m.name ≠ b) {mtime : Int} {writable : Bool} {fuel : Nat} (hf : bytes.length ≤ fuel) :
    arTouch fuel (some bytes) writable mtime name = .val (false, some bytes) := by
  have hpos : ∀ x ∈ ms, 0 < x.pos := by
    obtain ⟨t, rfl, ht⟩ := h
    intro x hx; have := arText_pos ht x hx; omega
  obtain ⟨vs, g1, g2⟩ := archive_visits h
  have hn : firstMember ms b = none := by
    unfold firstMember; rw [List.find?_eq_none]; intro x hx; simpa using hm x hx
  unfold arTouch arMemberTouch
  rw [g2 _ _ _ _ hf, run_pos hb hne vs g1 hu hpos, hn]
  simp

end Remake
