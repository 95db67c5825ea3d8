import Verif.Misc.Spec
set_option linter.unusedSimpArgs false
/-!
# C48, C56, C59, C60, C61
-/
namespace Remake
open Spec

/-! ## C48 -/

theorem stampSec_max : stampSec ordinaryMax = 2 ^ 34 - 1 := by decide

theorem ordinaryMax_eq : ordinaryMax = (2 ^ 34 - 1) * 2 ^ 30 + 3 + 10 ^ 9 - 1 := by decide

theorem stampMod_eq : stampMod = 18446744073709551616 := rfl

theorem timestampCons_mod {st : Int} {s ns : Nat} (h : (st % (stampMod : Int)).toNat = s)
    (hs : s < 2 ^ 34) (hn : ns < 10 ^ 9) : timestampCons st ns = s * 2 ^ 30 + 3 + ns := by
  have hm := stampMod_eq
  have hmax := ordinaryMax_eq
  have hsec := stampSec_max
  have h2 : s * 2 ^ 30 % stampMod = s * 2 ^ 30 := Nat.mod_eq_of_lt (by omega)
  have h3 : (s * 2 ^ 30 + (ordinaryMin + ns)) % stampMod = s * 2 ^ 30 + 3 + ns := by
    rw [show s * 2 ^ 30 + (ordinaryMin + ns) = s * 2 ^ 30 + 3 + ns by
      have : ordinaryMin = 3 := rfl
      omega]
    exact Nat.mod_eq_of_lt (by omega)
  unfold timestampCons
  simp only [h, h2, h3]
  rw [if_pos ⟨by omega, by omega, by omega⟩]

theorem timestampCons_ok {s ns : Nat} (hs : s < 2 ^ 34) (hn : ns < 10 ^ 9) :
    timestampCons (s : Int) ns = s * 2 ^ 30 + 3 + ns := by
  refine timestampCons_mod ?_ hs hn
  rw [stampMod_eq]
  omega

theorem timestampCons_big {st : Int} {ns : Nat} (h : 2 ^ 34 ≤ (st % (stampMod : Int)).toNat) :
    timestampCons st ns = ordinaryMax := by
  have hsec := stampSec_max
  have ho : oldMtime = 2 := rfl
  unfold timestampCons
  simp only
  rw [if_neg (by omega), if_neg (by omega)]

/-- **C48** For representable times the internal order is the order of the times. -/
theorem C48_order_partial (a b : Time) (ha : a.inRange) (hb : b.inRange) :
    timestampCons a.sec a.ns < timestampCons b.sec b.ns ↔ a.before b := by
  obtain ⟨as, an, hna⟩ := a
  obtain ⟨bs, bn, hnb⟩ := b
  obtain ⟨h1, h2⟩ := ha
  obtain ⟨h3, h4⟩ := hb
  simp only [Time.before] at *
  obtain ⟨s, rfl⟩ := Int.eq_ofNat_of_zero_le h1
  obtain ⟨t, rfl⟩ := Int.eq_ofNat_of_zero_le h3
  rw [timestampCons_ok (by omega) hna, timestampCons_ok (by omega) hnb]
  omega

/-- **C48** Seconds and nanoseconds of a representable time can be recovered. -/
theorem C48_round_trip (a : Time) (h : a.inRange) :
    (stampSec (timestampCons a.sec a.ns) : Int) = a.sec ∧ stampNs (timestampCons a.sec a.ns) = a.ns := by
  obtain ⟨as, an, hn⟩ := a
  obtain ⟨h1, h2⟩ := h
  simp only at *
  obtain ⟨s, rfl⟩ := Int.eq_ofNat_of_zero_le h1
  rw [timestampCons_ok (by omega) hn]
  have : stampSub (s * 2 ^ 30 + 3 + an) ordinaryMin = s * 2 ^ 30 + an := by
    simp only [stampSub, stampMod, ordinaryMin, oldMtime]; omega
  simp only [stampSec, stampNs, this]
  omega

/-- **C48** No time whatever gets a special value: all lie above "does not exist" and "old" and
below "infinitely new". -/
theorem C48_special (a : Time) :
    unknownMtime < timestampCons a.sec a.ns ∧ nonexistentMtime < timestampCons a.sec a.ns ∧
      oldMtime < timestampCons a.sec a.ns ∧ timestampCons a.sec a.ns < newMtime := by
  have hn := a.ok
  by_cases h : 2 ^ 34 ≤ (a.sec % (stampMod : Int)).toNat
  · rw [timestampCons_big h]; decide
  · rw [timestampCons_mod rfl (by omega) a.ok]
    have hm := stampMod_eq
    generalize (a.sec % (stampMod : Int)).toNat = s at *
    simp only [unknownMtime, nonexistentMtime, oldMtime, newMtime]
    omega

/-- **C48** Times after the representable range are clamped to its end, which no other time
exceeds; so the order of times from 1970 on is never reversed. -/
theorem C48_clamped (a b : Time) (ha : 0 ≤ a.sec) (hb : b.sec < 2 ^ 63) (h : a.before b) :
    timestampCons a.sec a.ns ≤ timestampCons b.sec b.ns ∧
      (2 ^ 34 ≤ b.sec → timestampCons b.sec b.ns = ordinaryMax) := by
  have hbs : a.sec ≤ b.sec := by rcases h with h | h <;> omega
  have big : ∀ c : Time, 0 ≤ c.sec → 2 ^ 34 ≤ c.sec → c.sec < 2 ^ 63 →
      timestampCons c.sec c.ns = ordinaryMax := by
    intro c h0 h1 h2
    apply timestampCons_big
    simp only [stampMod]; omega
  refine ⟨?_, fun hb' => big b (by omega) hb' hb⟩
  by_cases hb' : 2 ^ 34 ≤ b.sec
  · rw [big b (by omega) hb' hb]
    by_cases ha' : 2 ^ 34 ≤ a.sec
    · rw [big a ha ha' (by omega)]; exact Nat.le_refl _
    · obtain ⟨s, hs⟩ := Int.eq_ofNat_of_zero_le ha
      have := a.ok
      rw [hs, timestampCons_ok (by omega) a.ok, ordinaryMax_eq]; omega
  · exact Nat.le_of_lt ((C48_order_partial a b ⟨ha, by omega⟩ ⟨by omega, by omega⟩).mpr h)

/-- **C48** (deviation) Times before 1970 are clamped to the wrong end: such a file counts as
newer than any other. -/
theorem C48_negative_newest (a b : Time) (ha : a.sec < 0) (ha' : -2 ^ 63 ≤ a.sec) (hb : b.inRange) :
    timestampCons a.sec a.ns = ordinaryMax ∧ timestampCons b.sec b.ns ≤ timestampCons a.sec a.ns := by
  have h1 : timestampCons a.sec a.ns = ordinaryMax := by
    apply timestampCons_big
    simp only [stampMod]; omega
  refine ⟨h1, ?_⟩
  obtain ⟨h2, h3⟩ := hb
  have := b.ok
  obtain ⟨s, hs⟩ := Int.eq_ofNat_of_zero_le h2
  rw [h1, hs, timestampCons_ok (by omega) b.ok, ordinaryMax_eq]; omega

/-- Two times a nanosecond apart, in range. -/
example : ∃ a b : Time, a.inRange ∧ b.inRange ∧ a.before b ∧ ¬ b.before a :=
  ⟨⟨1700000000, 5, by decide⟩, ⟨1700000000, 6, by decide⟩, ⟨by decide, by decide⟩, ⟨by decide, by decide⟩,
    .inr ⟨rfl, by decide⟩, by simp [Time.before]⟩

/-- A time in 1969 and one in 2023. -/
example : timestampCons 1700000000 0 < timestampCons (-1) 0 := by decide

/-! ## C56 -/

theorem writebufGo_spec (len : Nat) (msg : Str) (calls : List SysRes) :
    (writebufGo len msg calls).1 <+: msg ∧
    (∀ k : Int, 0 ≤ k → (writebufGo len msg calls).2 = .ret k →
      k = len ∧ (writebufGo len msg calls).1 = msg) ∧
    (∀ k : Int, k < 0 → (writebufGo len msg calls).2 = .ret k → SysRes.fail ∈ calls) := by
  induction calls generalizing msg with
  | nil =>
    cases msg with
    | nil => simp [writebufGo]; constructor <;> intros <;> omega
    | cons c cs => simp [writebufGo]
  | cons r rs ih =>
    cases msg with
    | nil => simp [writebufGo]; constructor <;> intros <;> omega
    | cons c cs =>
      cases r with
      | eintr =>
        obtain ⟨h1, h2, h3⟩ := ih (c :: cs)
        simp only [writebufGo]
        exact ⟨h1, h2, fun k hk h => List.mem_cons_of_mem _ (h3 k hk h)⟩
      | fail => simp [writebufGo]; intros; omega
      | bytes n =>
        obtain ⟨⟨t, ht⟩, h2, h3⟩ := ih ((c :: cs).drop n)
        simp only [writebufGo]
        refine ⟨⟨t, ?_⟩, ?_, fun k hk h => List.mem_cons_of_mem _ (h3 k hk h)⟩
        · rw [List.append_assoc, ht, List.take_append_drop]
        · intro k hk h
          obtain ⟨e1, e2⟩ := h2 k hk h
          refine ⟨e1, ?_⟩
          rw [e2, List.take_append_drop]

/-- **C56** `writebuf` writes the text from its start, in order and without gaps: always a
prefix, the whole text if it returns success, and it reports failure only after a failing
system call. -/
theorem C56_write (msg : Str) (calls : List SysRes) :
    (writebuf msg calls).1 <+: msg ∧
    (∀ k : Int, 0 ≤ k → (writebuf msg calls).2 = .ret k → k = msg.length ∧ (writebuf msg calls).1 = msg) ∧
    (∀ k : Int, k < 0 → (writebuf msg calls).2 = .ret k → SysRes.fail ∈ calls) :=
  writebufGo_spec _ _ _

/-- **C56** Interruptions and partial writes do not keep `writebuf` from completing. -/
theorem C56_write_completes (msg : Str) (calls : List SysRes) (hf : SysRes.fail ∉ calls)
    (h : msg.length ≤ transferred calls) : writebuf msg calls = (msg, .ret msg.length) := by
  have key : ∀ (calls : List SysRes) (len : Nat) (msg : Str), SysRes.fail ∉ calls →
      msg.length ≤ transferred calls → writebufGo len msg calls = (msg, .ret len) := by
    intro calls
    induction calls with
    | nil =>
      intro len msg _ h
      cases msg with
      | nil => rfl
      | cons c cs => simp [transferred] at h
    | cons r rs ih =>
      intro len msg hf h
      simp only [List.mem_cons, not_or] at hf
      cases msg with
      | nil => rfl
      | cons c cs =>
        cases r with
        | eintr => exact ih len _ hf.2 h
        | fail => exact absurd rfl hf.1
        | bytes n =>
          simp only [writebufGo]
          rw [ih len _ hf.2 (by simp only [transferred] at h; rw [List.length_drop]; omega)]
          rw [List.take_append_drop]
  exact key calls _ msg hf h

theorem readbufGo_spec (calls : List SysRes) : ∀ (len got : Nat) (src : Str), ReadOk len src calls →
    (readbufGo len got src calls).1 <+: src ∧ (readbufGo len got src calls).1.length ≤ len ∧
    (∀ k : Int, 0 ≤ k → (readbufGo len got src calls).2 = .ret k →
      k = got + (readbufGo len got src calls).1.length ∧
      ((readbufGo len got src calls).1.length = len ∨ (readbufGo len got src calls).1 = src)) ∧
    (∀ k : Int, k < 0 → (readbufGo len got src calls).2 = .ret k → SysRes.fail ∈ calls) := by
  induction calls with
  | nil =>
    intro len got src _
    cases len with
    | zero => simp [readbufGo]; constructor <;> intros <;> omega
    | succ len => simp [readbufGo]
  | cons r rs ih =>
    intro len got src hr
    cases len with
    | zero => simp [readbufGo]; constructor <;> intros <;> omega
    | succ len =>
      cases r with
      | eintr =>
        obtain ⟨h1, h2, h3, h4⟩ := ih (len + 1) got src hr
        simp only [readbufGo]
        exact ⟨h1, h2, h3, fun k hk h => List.mem_cons_of_mem _ (h4 k hk h)⟩
      | fail => simp [readbufGo]; intros; omega
      | bytes n =>
        obtain ⟨hn1, hn2, hn0, hr⟩ := hr
        simp only [readbufGo]
        by_cases h0 : n = 0
        · rw [if_pos h0]
          have hs : src = [] := by
            rcases hn0 h0 with h | h
            · exact h
            · omega
          subst hs
          simp; constructor <;> intros <;> omega
        · rw [if_neg h0]
          obtain ⟨⟨t, ht⟩, h2, h3, h4⟩ := ih (len + 1 - n) (got + n) (src.drop n) hr
          have hl : (src.take n).length = n := by rw [List.length_take]; omega
          refine ⟨⟨t, ?_⟩, ?_, ?_, fun k hk h => List.mem_cons_of_mem _ (h4 k hk h)⟩
          · rw [List.append_assoc, ht, List.take_append_drop]
          · simp only [List.length_append, hl]; omega
          · intro k hk h
            obtain ⟨e1, e2⟩ := h3 k hk h
            simp only [List.length_append, hl]
            refine ⟨by omega, ?_⟩
            rcases e2 with e2 | e2
            · left; omega
            · right; rw [e2, List.take_append_drop]

/-- **C56** `readbuf` fills the buffer with what comes, in order and without gaps: always a
prefix; a return value is the number of bytes read, which is what was asked for unless the input
ended before; it reports failure only after a failing system call. -/
theorem C56_read (len : Nat) (src : Str) (calls : List SysRes) (h : ReadOk len src calls) :
    (readbuf len src calls).1 <+: src ∧ (readbuf len src calls).1.length ≤ len ∧
    (∀ k : Int, 0 ≤ k → (readbuf len src calls).2 = .ret k →
      k = (readbuf len src calls).1.length ∧
      ((readbuf len src calls).1.length = len ∨ (readbuf len src calls).1 = src)) ∧
    (∀ k : Int, k < 0 → (readbuf len src calls).2 = .ret k → SysRes.fail ∈ calls) := by
  have := readbufGo_spec calls len 0 src h
  simpa [readbuf] using this

/-- A write in pieces, with interruptions. -/
example : writebuf "abcdef".toList [.eintr, .bytes 2, .eintr, .bytes 3, .bytes 1] =
    ("abcdef".toList, .ret 6) := by decide
/-- A read in pieces that stops at the end of the input. -/
example : ReadOk 10 "abcde".toList [.bytes 2, .eintr, .bytes 3, .bytes 0] ∧
    readbuf 10 "abcde".toList [.bytes 2, .eintr, .bytes 3, .bytes 0] = ("abcde".toList, .ret 5) := by
  constructor
  · simp [ReadOk]
  · decide

/-! ## C59 -/

theorem takeDrop_paren (lib m : Str) (h : '(' ∉ lib) :
    (lib ++ '(' :: m).takeWhile (· ≠ '(') = lib ∧ (lib ++ '(' :: m).dropWhile (· ≠ '(') = '(' :: m := by
  induction lib with
  | nil => simp
  | cons c cs ih =>
    simp only [List.mem_cons, not_or] at h
    have hc : (decide (c ≠ '(')) = true := by simpa using fun e => h.1 e.symm
    rw [List.cons_append, List.takeWhile_cons, List.dropWhile_cons, hc]
    exact ⟨congrArg (c :: ·) (ih h.2).1, (ih h.2).2⟩

/-- The form of an archive member name. -/
def Spec.ArForm (name lib m : Str) : Prop := name = lib ++ '(' :: m ++ [')'] ∧ '(' ∉ lib ∧ lib ≠ [] ∧ m ≠ []

/-- A member name in parentheses of its own, which make does not support. -/
def Spec.Doubled (m : Str) : Prop := ∃ x, m = '(' :: x ++ [')']

/-- **C59** A name is taken for an archive member reference exactly if it has the form
`lib(member)` with both parts not empty — except that `lib((entry))` is a fatal error. -/
theorem C59_recognised_partial (name : Str) :
    (arName name = .yes ↔ ∃ lib m, ArForm name lib m ∧ ¬ Doubled m) ∧
    (arName name = .unsupported ↔ ∃ lib m, ArForm name lib m ∧ Doubled m) := by
  have form : ∀ lib m, ArForm name lib m →
      (arName name = .unsupported ∧ Doubled m) ∨ (arName name = .yes ∧ ¬ Doubled m) := by
    rintro lib m ⟨rfl, h1, h2, h3⟩
    have hd := (takeDrop_paren lib (m ++ [')']) h1).2
    have e : lib ++ '(' :: m ++ [')'] = lib ++ '(' :: (m ++ [')']) := by simp
    simp only [arName, e, hd]
    have hne : ('(' :: (m ++ [')'])) ≠ lib ++ '(' :: (m ++ [')']) := by
      intro h
      have := congrArg List.length h
      simp at this
      exact h2 this
    rw [if_neg hne]
    have hlast : ('(' :: (m ++ [')'])).getLast? = some ')' := by
      rw [← List.cons_append, List.getLast?_concat]
    have hlen : (m ++ [')']).length ≠ 1 := by
      cases m with
      | nil => exact absurd rfl h3
      | cons a b => simp
    rw [if_neg (by rw [hlast]; exact fun h => h.elim (fun h => h rfl) hlen)]
    have hdl : (m ++ [')']).dropLast = m := by simp
    have hh : (m ++ [')']).head? = m.head? := by
      cases m with
      | nil => exact absurd rfl h3
      | cons a b => rfl
    rw [hdl, hh]
    by_cases hp : m.head? = some '(' ∧ m.getLast? = some ')'
    · left
      refine ⟨by rw [if_pos hp], ?_⟩
      obtain ⟨p1, p2⟩ := hp
      cases m with
      | nil => exact absurd rfl h3
      | cons a b =>
        simp only [List.head?_cons, Option.some.injEq] at p1
        subst p1
        rcases b.eq_nil_or_concat with rfl | ⟨x, y, rfl⟩
        · simp at p2
        · rw [List.concat_eq_append, ← List.cons_append, List.getLast?_concat] at p2
          simp only [Option.some.injEq] at p2
          exact ⟨x, by simp [p2]⟩
    · right
      refine ⟨by rw [if_neg hp], ?_⟩
      rintro ⟨x, rfl⟩
      exact hp ⟨rfl, by rw [List.getLast?_concat]⟩
  have inv : arName name ≠ .no → ∃ lib m, ArForm name lib m := by
    intro h
    simp only [arName] at h
    split at h
    · exact absurd rfl h
    · rename_i p r hd
      have hsplit : name.takeWhile (· ≠ '(') ++ p :: r = name := by
        rw [← hd]; exact List.takeWhile_append_dropWhile
      have hp : p = '(' := by
        have hh := List.head?_dropWhile_not (fun c => decide (c ≠ '(')) name
        rw [hd] at hh
        simpa using hh
      have hm : '(' ∉ name.takeWhile (· ≠ '(') := by
        intro hm
        have : ∀ l : Str, '(' ∉ l.takeWhile (· ≠ '(') := by
          intro l; induction l with
          | nil => simp
          | cons a l ih =>
            rw [List.takeWhile_cons]
            split
            · rename_i ha
              simp only [List.mem_cons, not_or]
              refine ⟨?_, ih⟩
              intro e; subst e; simp at ha
            · simp
        exact this _ hm
      split at h
      · exact absurd rfl h
      · rename_i hne
        split at h
        · exact absurd rfl h
        · rename_i hr
          simp only [not_or, Classical.not_not] at hr
          subst hp
          rcases r.eq_nil_or_concat with rfl | ⟨m, y, rfl⟩
          · simp at hr
          · have hy : y = ')' := by
              have := hr.1
              rw [List.concat_eq_append, ← List.cons_append, List.getLast?_concat] at this
              simpa using this
            subst hy
            refine ⟨name.takeWhile (· ≠ '('), m, ?_, hm, ?_, ?_⟩
            · simpa using hsplit.symm
            · intro h0; rw [h0] at hsplit; exact hne hsplit
            · rintro rfl; simp at hr
  constructor
  · constructor
    · intro h
      obtain ⟨lib, m, hf⟩ := inv (by rw [h]; decide)
      rcases form lib m hf with ⟨h', _⟩ | ⟨_, hd⟩
      · rw [h] at h'; cases h'
      · exact ⟨lib, m, hf, hd⟩
    · rintro ⟨lib, m, hf, hd⟩
      rcases form lib m hf with ⟨_, h'⟩ | ⟨h, _⟩
      · exact absurd h' hd
      · exact h
  · constructor
    · intro h
      obtain ⟨lib, m, hf⟩ := inv (by rw [h]; decide)
      rcases form lib m hf with ⟨_, hd⟩ | ⟨h', _⟩
      · exact ⟨lib, m, hf, hd⟩
      · rw [h] at h'; cases h'
    · rintro ⟨lib, m, hf, hd⟩
      rcases form lib m hf with ⟨h, _⟩ | ⟨_, h'⟩
      · exact h
      · exact absurd hd h'

/-- **C59** Taking such a name apart gives the two parts, which are determined by the name. -/
theorem C59_parse (name lib m : Str) (h : ArForm name lib m) : arParseName name = (lib, m) := by
  obtain ⟨rfl, h1, h2, h3⟩ := h
  have e : lib ++ '(' :: m ++ [')'] = lib ++ '(' :: (m ++ [')']) := by simp
  obtain ⟨ht, hd⟩ := takeDrop_paren lib (m ++ [')']) h1
  simp only [arParseName, e, ht, hd]
  simp

example : ArForm "libx.a(foo.o)".toList "libx.a".toList "foo.o".toList ∧
    arName "libx.a(foo.o)".toList = .yes ∧ arName "libx.a((foo.o))".toList = .unsupported ∧
    arName "libx.a()".toList = .no := by
  refine ⟨⟨by decide, by decide, by decide, by decide⟩, by decide, by decide, by decide⟩

/-! ## C60 -/

theorem jsonDecode_plain {c : Char} (cs : Str) (h1 : c ≠ '"') (h2 : c ≠ '\\') (h3 : ¬ c.toNat < 0x20) :
    jsonDecode (c :: cs) = (jsonDecode cs).map (c :: ·) := by
  cases cs with
  | nil => simp [jsonDecode, h1, h2, h3]
  | cons d ds => rw [jsonDecode, if_neg h2, if_neg (by simp [h1, h3])]

theorem jsonDecode_ctl {c : Char} (cs : Str) (h2 : c ≠ '\\') (h3 : c.toNat < 0x20) :
    jsonDecode (c :: cs) = none := by
  cases cs with
  | nil => simp [jsonDecode, h3]
  | cons d ds => rw [jsonDecode, if_neg h2, if_pos (Or.inr h3)]

theorem jsonDecode_esc {c : Char} (cs : Str) (h : c = '"' ∨ c = '\\') :
    jsonDecode ('\\' :: c :: cs) = (jsonDecode cs).map (c :: ·) := by
  rw [jsonDecode, if_pos rfl, if_pos (by rcases h with h | h <;> simp [h])]

/-- **C60** If the string has no control characters but backspace, tab, newline and return, the
printed text is a well-formed JSON string that stands for the string with these replaced by
blanks. -/
theorem C60_decodes_partial (s : Str) (h : ∀ c ∈ s, c.toNat < 0x20 → c ∈ softControl) :
    jsonDecode (escapePrint s) = some (s.map fun c => if c ∈ softControl then ' ' else c) := by
  induction s with
  | nil => rfl
  | cons c cs ih =>
    have ih := ih fun d hd => h d (List.mem_cons_of_mem _ hd)
    have hc := h c (List.mem_cons_self ..)
    have hm : c ∈ softControl ↔ (c = '\x08' ∨ c = '\t' ∨ c = '\n' ∨ c = '\r') := by simp [softControl]
    simp only [escapePrint, List.map_cons]
    by_cases h1 : c ∈ softControl
    · rw [if_pos (hm.mp h1), if_pos h1, jsonDecode_plain _ (by decide) (by decide) (by decide), ih]; rfl
    · rw [if_neg (fun e => h1 (hm.mpr e)), if_neg h1]
      by_cases h2 : c = '"' ∨ c = '\\'
      · rw [if_pos h2, jsonDecode_esc _ h2, ih]; rfl
      · rw [if_neg h2]
        simp only [not_or] at h2
        rw [jsonDecode_plain _ h2.1 h2.2 (fun h => h1 (hc h)), ih]; rfl

/-- **C60** (deviation) With any other control character in the string the output is not JSON. -/
theorem C60_invalid (s : Str) (c : Char) (hs : c ∈ s) (hc : c.toNat < 0x20) (hn : c ∉ softControl) :
    jsonDecode (escapePrint s) = none := by
  induction s with
  | nil => cases hs
  | cons d ds ih =>
    have hm : ∀ d, d ∈ softControl ↔ (d = '\x08' ∨ d = '\t' ∨ d = '\n' ∨ d = '\r') := by simp [softControl]
    simp only [escapePrint]
    simp only [List.mem_cons] at hs
    rcases hs with rfl | hs
    · have hq : ¬ (c = '"' ∨ c = '\\') := by
        rintro (rfl | rfl) <;> exact absurd hc (by decide)
      rw [if_neg (fun e => hn ((hm c).mpr e)), if_neg hq]
      simp only [not_or] at hq
      exact jsonDecode_ctl _ hq.2 hc
    · have ih := ih hs
      by_cases h1 : d = '\x08' ∨ d = '\t' ∨ d = '\n' ∨ d = '\r'
      · rw [if_pos h1, jsonDecode_plain _ (by decide) (by decide) (by decide), ih]; rfl
      · rw [if_neg h1]
        by_cases h2 : d = '"' ∨ d = '\\'
        · rw [if_pos h2, jsonDecode_esc _ h2, ih]; rfl
        · rw [if_neg h2]
          simp only [not_or] at h2
          by_cases h3 : d.toNat < 0x20
          · exact jsonDecode_ctl _ h2.2 h3
          · rw [jsonDecode_plain _ h2.1 h2.2 h3, ih]; rfl

example : escapePrint "a\"b\\c\td".toList = "a\\\"b\\\\c d".toList ∧
    jsonDecode "a\\\"b\\\\c d".toList = some "a\"b\\c d".toList := by decide
/-- An escape character in a file name. -/
example : jsonDecode (escapePrint "\x1b[m".toList) = none := by decide

/-! ## C61 -/

theorem raiseStates_eq (s : CmdState) (ds : List Nat) (st : Nat → CmdState) (g : Nat) :
    raiseStates s ds st g = if g ∈ ds ∧ (st g).rank < s.rank then s else st g := by
  induction ds generalizing st with
  | nil => simp [raiseStates]
  | cons d ds ih =>
    rw [raiseStates, ih]
    by_cases hgd : g = d
    · subst hgd
      by_cases h : (st g).rank < s.rank
      · simp [h]
      · simp [h]
    · simp [hgd]

/-- **C61** Setting the state of a target gives it that state; every other target made by the
same recipe gets at least that state and keeps a higher one; nothing else changes. -/
theorem C61_set (also : Nat → List Nat) (st : Nat → CmdState) (file : Nat) (s : CmdState) :
    setCommandState also st file s file = s ∧
    (∀ g ∈ also file, s.rank ≤ (setCommandState also st file s g).rank) ∧
    (∀ g, g ≠ file → (st g).rank ≤ (setCommandState also st file s g).rank) ∧
    (∀ g, g ≠ file → g ∉ also file → setCommandState also st file s g = st g) ∧
    (∀ g, g ≠ file → setCommandState also st file s g = st g ∨
      (st g).rank < s.rank ∧ setCommandState also st file s g = s) := by
  simp only [setCommandState, raiseStates_eq]
  refine ⟨by simp, ?_, ?_, ?_, ?_⟩
  · intro g hg
    generalize (if g = file then s else st g) = x
    by_cases h : x.rank < s.rank
    · rw [if_pos ⟨hg, h⟩]; exact Nat.le_refl _
    · rw [if_neg (fun e => h e.2)]; omega
  · intro g hg
    simp only [if_neg hg]
    split <;> rename_i h
    · omega
    · exact Nat.le_refl _
  · intro g hg hn
    simp [hg, hn]
  · intro g hg
    simp only [if_neg hg]
    by_cases h : g ∈ also file ∧ (st g).rank < s.rank
    · rw [if_pos h]; exact .inr ⟨h.2, rfl⟩
    · rw [if_neg h]; exact .inl rfl

/-- **C61** Through any sequence of such settings the state of a target that is not set directly
never goes down. -/
theorem C61_history (also : Nat → List Nat) (st : Nat → CmdState) (ops : List (Nat × CmdState)) (g : Nat)
    (hg : ∀ o ∈ ops, o.1 ≠ g) :
    (st g).rank ≤ (ops.foldl (fun st o => setCommandState also st o.1 o.2) st g).rank := by
  induction ops generalizing st with
  | nil => exact Nat.le_refl _
  | cons o ops ih =>
    have h1 := (C61_set also st o.1 o.2).2.2.1 g (fun e => hg o (List.mem_cons_self ..) e.symm)
    have h2 := ih (setCommandState also st o.1 o.2) fun o ho => hg o (List.mem_cons_of_mem _ ho)
    exact Nat.le_trans h1 h2

/-- Target 1 runs while target 0 of the same recipe waits for prerequisites. -/
example : setCommandState (fun f => if f = 0 then [1, 2] else []) (fun f => if f = 1 then .running else .notStarted)
    0 .depsRunning 1 = .running ∧
  setCommandState (fun f => if f = 0 then [1, 2] else []) (fun f => if f = 1 then .running else .notStarted)
    0 .depsRunning 2 = .depsRunning := by decide

end Remake
