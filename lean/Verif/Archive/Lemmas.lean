import Verif.Archive.Model
import Verif.Archive.Spec
import Verif.Text.Lemmas
import Verif.Output.Message
set_option linter.unusedVariables false
set_option linter.unusedSimpArgs false
namespace Remake
open Spec

/-! ## Strings and numbers -/

theorem cstr_append {n r : Str} (h : nulChar ∉ n) : cstr (n ++ nulChar :: r) = n := by
  unfold cstr
  rw [List.takeWhile_append_of_pos (by intro c hc; simpa using fun e : c = nulChar => h (e ▸ hc))]
  simp

theorem cstr_self {n : Str} (h : nulChar ∉ n) : cstr n = n := by
  unfold cstr
  induction n with
  | nil => rfl
  | cons c n ih =>
    simp only [List.mem_cons, not_or] at h
    rw [List.takeWhile_cons_of_pos (by simpa using fun e => h.1 e.symm), ih h.2]

theorem digit_not_sign {c : Char} (h : isDigitC c = true) : c ≠ '-' ∧ c ≠ '+' := by
  constructor <;> (rintro rfl; exact absurd h (by decide))

/-- Reading a number that something else follows. -/
theorem atol_digits {n : Nat} {r : Str} (hn : n < 2 ^ 63) (hr : (r.head?.map isDigitC).getD false = false) :
    atol (Nat.toDigits 10 n ++ r) = n := by
  have hd := toDigits_all_digit n
  have hv := digitsVal_toDigits n
  have hne := toDigits_ne_nil n
  generalize Nat.toDigits 10 n = ds at *
  have ht : (ds ++ r).takeWhile isDigitC = ds := by
    rw [List.takeWhile_append_of_pos hd]
    cases r with
    | nil => simp
    | cons c r => simp at hr; simp [hr]
  cases ds with
  | nil => exact absurd rfl hne
  | cons d ds =>
    have h1 := hd d (by simp)
    have h2 := digit_not_sign h1
    unfold atol
    rw [List.cons_append, List.dropWhile_cons_of_neg (by simp [isDigit_not_space h1])]
    rw [← List.cons_append]
    split
    · next heq => simp at heq; exact absurd heq.1 h2.1
    · next heq => simp at heq; exact absurd heq.1 h2.2
    · rw [ht, hv]; omega

theorem atoiSigned_digits {n : Nat} (hn : n < 2 ^ 31) : atoiSigned (Nat.toDigits 10 n) = n := by
  have hd := toDigits_all_digit n
  have hv := digitsVal_toDigits n
  have hne := toDigits_ne_nil n
  generalize Nat.toDigits 10 n = ds at *
  have ht : ds.takeWhile isDigitC = ds := by
    have := List.takeWhile_append_of_pos (l₂ := []) hd
    simpa using this
  have hs : ∀ d ds', ds = d :: ds' → isSpace d = false ∧ d ≠ '-' ∧ d ≠ '+' := by
    rintro d ds' rfl
    exact ⟨isDigit_not_space (hd d (by simp)), digit_not_sign (hd d (by simp))⟩
  cases ds with
  | nil => exact absurd rfl hne
  | cons d ds =>
    obtain ⟨h1, h2, h3⟩ := hs d ds rfl
    unfold atoiSigned
    rw [List.dropWhile_cons_of_neg (by simp [h1])]
    split
    · next heq => simp at heq; exact absurd heq.1 h2
    · next heq => simp at heq; exact absurd heq.1 h3
    · unfold atoi
      rw [List.dropWhile_cons_of_neg (by simp [h1]), ht, hv]
      simp only []
      have : min n (2 ^ 63 - 1) = n := by omega
      rw [this]
      unfold Int.bmod
      have e : ((n : Int) % ((2 ^ 32 : Nat) : Int)) = n := Int.emod_eq_of_lt (by omega) (by omega)
      simp only [e]
      rw [if_pos (by omega)]

/-! ## Headers -/

theorem arField_length {n : Nat} {s : Str} (h : s.length ≤ n) : (arField n s).length = n := by
  simp [arField]; omega

theorem trimBlanks_field {n : Nat} {s : Str} (h : s.getLast? ≠ some ' ') : trimBlanks (arField n s) = s := by
  unfold trimBlanks arField
  rw [List.reverse_append, List.reverse_replicate]
  have h1 : ∀ k (l : Str), l.head? ≠ some ' ' → (List.replicate k ' ' ++ l).dropWhile (· == ' ') = l := by
    intro k l hl
    induction k with
    | zero =>
      cases l with
      | nil => rfl
      | cons c l =>
        simp only [List.head?_cons, ne_eq, Option.some.injEq] at hl
        simp [hl]
    | succ k ih => simpa [List.replicate_succ] using ih
  rw [h1 _ _ (by simpa using h), List.reverse_reverse]

theorem arHead_length {name date owner : Str} {size : Nat} (h : HeadFits name date owner size) :
    (arHead name date owner size).length = 60 := by
  have h4 : (Nat.toDigits 10 size).length ≤ 10 := toDigits_len 9 size (by have := h.size; omega)
  simp [arHead, arField_length h.name, arField_length h.date, h.owner, arField_length h4]

theorem arHead_size {name date owner : Str} {size : Nat} (h : HeadFits name date owner size) :
    atol ((arHead name date owner size).drop 48) = size := by
  have : (arHead name date owner size).drop 48 = Nat.toDigits 10 size ++
      (List.replicate (10 - (Nat.toDigits 10 size).length) ' ' ++ ['`', '\n']) := by
    unfold arHead
    have e : (arField 16 name ++ arField 12 date ++ owner).length = 48 := by
      simp [arField_length h.name, arField_length h.date, h.owner]
    rw [List.append_assoc _ (arField 10 _), List.drop_left' e]
    simp [arField]
  rw [this, atol_digits (by have := h.size; omega)]
  cases 10 - (Nat.toDigits 10 size).length <;> simp [List.replicate_succ] <;> decide

theorem arHead_date {name owner : Str} {date size : Nat} (h : HeadFits name (Nat.toDigits 10 date) owner size) (hd : date < 10 ^ 11) :
    atol ((arHead name (Nat.toDigits 10 date) owner size).drop 16) = date := by
  have h4 : (Nat.toDigits 10 date).length ≤ 11 := toDigits_len 10 date (by omega)
  have : (arHead name (Nat.toDigits 10 date) owner size).drop 16 = Nat.toDigits 10 date ++
      (List.replicate (12 - (Nat.toDigits 10 date).length) ' ' ++ (owner ++ arField 10 (Nat.toDigits 10 size) ++ ['`', '\n'])) := by
    unfold arHead
    have e : (arField 16 name).length = 16 := arField_length h.name
    rw [List.append_assoc, List.append_assoc, List.append_assoc, List.drop_left' e]
    simp [arField]
  rw [this, atol_digits (by omega)]
  obtain ⟨k, hk⟩ : ∃ k, 12 - (Nat.toDigits 10 date).length = k + 1 := ⟨11 - (Nat.toDigits 10 date).length, by omega⟩
  rw [hk]; simp [List.replicate_succ]; decide

theorem arHead_name {name date owner : Str} {size : Nat} (h : HeadFits name date owner size) :
    (arHead name date owner size).take 16 = arField 16 name := by
  unfold arHead
  rw [List.append_assoc, List.append_assoc, List.append_assoc, List.take_left' (arField_length h.name)]

theorem arHead_magic {name date owner : Str} {size : Nat} (h : HeadFits name date owner size) :
    (arHead name date owner size).drop 58 = ['`', '\n'] := by
  have h4 : (Nat.toDigits 10 size).length ≤ 10 := toDigits_len 9 size (by have := h.size; omega)
  unfold arHead
  rw [List.drop_left' (by simp [arField_length h.name, arField_length h.date, h.owner, arField_length h4])]

theorem readAt_append {p q r : Str} {n : Nat} (h : q.length = n) : readAt (p ++ (q ++ r)) p.length n = q := by
  unfold readAt
  rw [List.drop_left' rfl, List.take_left' h]

/-- A name field that stands for the table of names. -/
def mapField (t : Str) : Bool := cstr t == ['/', '/'] || cstr t == "ARFILENAMES/".toList

/-- A header in the right format is read. -/
theorem arHeader_at {p name date owner rest : Str} {size : Nat} {map : Option Str} (h : HeadFits name date owner size)
    (hl : name.getLast? ≠ some ' ') :
    arHeader (p ++ (arHead name date owner size ++ rest)) map p.length =
      match arMemberName (p ++ (arHead name date owner size ++ rest)) map p.length (mapField name) (cstr (chopSlash name)) with
      | none => .invalid
      | some (n, long) => .found ⟨n, !long, p.length, size, atol ((arHead name date owner size).drop 16)⟩ (mapField name) := by
  unfold arHeader
  rw [if_neg (by omega)]
  simp only [Int.toNat_natCast]
  have hlen := arHead_length h
  have hne : arHead name date owner size ≠ [] := by intro e; rw [e] at hlen; simp at hlen
  simp only [readAt_append hlen, if_neg hne, hlen, arHead_magic h, arHead_name h, trimBlanks_field hl, arHead_size h]
  rfl

/-! ## The table of names -/

theorem clearMap_length (s : Str) : (clearMap s).length = s.length := by
  fun_induction clearMap s <;> simp_all

theorem clearMap_id {s : Str} (h : '\n' ∉ s) : clearMap s = s := by
  fun_induction clearMap s with
  | case1 => rfl
  | case2 r ih => simp at h
  | case3 c r hx ih =>
    simp only [List.mem_cons, not_or] at h
    rw [ih h.2, if_neg (fun e => h.1 e.symm)]

theorem clearMap_append {a b : Str} (h : b.head? ≠ some '\n') : clearMap (a ++ b) = clearMap a ++ clearMap b := by
  fun_induction clearMap a with
  | case1 => rfl
  | case2 r ih => simp only [List.cons_append]; rw [clearMap, ih]
  | case3 c r hx ih =>
    rw [List.cons_append, clearMap, ih, List.cons_append]
    rintro r' e1 e2
    cases r with
    | nil => simp at e2; rw [e2] at h; simp at h
    | cons d r => simp at e2; exact hx r e1 (by rw [e2.1])

theorem table_has {table n : Str} {off : Nat} (h : TableHas table off n) :
    off < table.length ∧ cstr ((clearMap table).drop off) = n := by
  obtain ⟨h1, h2, h3, pre, post, rfl, h4⟩ := h
  have hh : ∀ r, (n ++ r).head? ≠ some '\n' := by
    intro r e
    cases n with
    | nil => exact h1 rfl
    | cons c n => simp at e; exact h3 (by simp [e])
  rcases h4 with rfl | ⟨h5, rfl⟩
  · refine ⟨by simp; omega, ?_⟩
    rw [List.append_assoc, clearMap_append (hh _), List.drop_left' (clearMap_length pre), clearMap_append (by simp), clearMap_id h3]
    rw [clearMap]
    exact cstr_append h2
  · refine ⟨by simp; omega, ?_⟩
    rw [List.append_assoc, clearMap_append (hh _), List.drop_left' (clearMap_length pre)]
    have h6 : ∀ m : Str, '\n' ∉ m → m.getLast? ≠ some '/' → ∀ r, clearMap (m ++ '\n' :: r) = m ++ nulChar :: clearMap r := by
      intro m hm hl r
      induction m with
      | nil => rw [List.nil_append, clearMap]; · simp
               rintro r' e; simp at e
      | cons c m ih =>
        simp only [List.mem_cons, not_or] at hm
        rw [List.cons_append, clearMap, ih hm.2, if_neg (fun e => hm.1 e.symm), List.cons_append]
        · cases m with
          | nil => simp
          | cons d m => simpa [List.getLast?_cons_cons] using hl
        · rintro r' e1 e2
          cases m with
          | nil => rw [e1] at hl; simp at hl
          | cons d m => simp at e2; exact hm.2 (by simp [e2.1])
    rw [h6 n h3 h5]
    exact cstr_append h2

/-! ## Members -/

/-- The entries that are not members: the index and the table. -/
def isMark (v : ArVisit) : Bool := v.truncated && (v.mem == [] || v.mem == ['/'])

/-- What is said about a member. -/
def visitOf (m : ArMember) : ArVisit := ⟨m.name, m.inHeader, m.pos, m.size, m.date⟩

/-- The function is called for each entry until it returns something other than zero. -/
def runVisits {σ : Type} (f : σ → ArVisit → σ × Int) : List ArVisit → σ → σ × ArResult
  | [], s => (s, .code 0)
  | v :: vs, s => if (f s v).2 ≠ 0 then ((f s v).1, .code (f s v).2) else runVisits f vs (f s v).1

theorem arNext_plain {bytes : Str} {map : Option Str} {v : ArVisit} {pos size k : Nat} (hv : v.pos = pos) (hs : v.size = size)
    (hp : pos % 2 = 0) (hk : k = size % 2) : arNext bytes map v false = .go ((pos + 60 + size + k : Nat) : Int) map := by
  unfold arNext
  simp only [Bool.false_eq_true, if_false, hv, hs, ArNext.go.injEq, and_true]
  split <;> omega

theorem name_plain {bytes name : Str} {map : Option Str} {off : Nat} {isMap : Bool} (h1 : name.head? ≠ some ' ')
    (h2 : name.head? ≠ some '/' ∨ isMap = true) (h3 : ¬ ['#', '1', '/'] <+: name) :
    arMemberName bytes map off isMap name = some (name, false) := by
  unfold arMemberName
  have : (!isMap && (name.head? == some ' ' || name.head? == some '/')) = false := by
    rcases h2 with h2 | h2
    · simp [beq_eq_false_iff_ne.2 h1, beq_eq_false_iff_ne.2 h2]
    · simp [h2]
  rw [this]
  simp [h3]

theorem not_mapField {n : Str} (h : n.head? ≠ some '/') (h2 : cstr n ≠ "ARFILENAMES/".toList) : mapField n = false := by
  unfold mapField
  have : cstr n ≠ ['/', '/'] := by
    intro e
    unfold cstr at e
    cases n with
    | nil => simp at e
    | cons c n =>
      rw [List.takeWhile_cons] at e
      split at e
      · simp at e; simp [e.1] at h
      · simp at e
  rw [beq_eq_false_iff_ne.2 this, beq_eq_false_iff_ne.2 h2]; rfl

/-- One more entry. -/
theorem visits_cons {bytes : Str} {map map' : Option Str} {pos next : Int} {v : ArVisit} {isMap : Bool} {ms : List ArVisit} {k m : Nat}
    (hh : arHeader bytes map pos = .found v isMap) (hn : arNext bytes map v isMap = .go next map') (hk : k < m)
    (ih : ∃ vs : List ArVisit, vs.filter (fun v => !isMark v) = ms ∧ vs.length ≤ k ∧
        ∀ (σ : Type) (f : σ → ArVisit → σ × Int) (s : σ) (fuel : Nat), vs.length < fuel →
          arLoop bytes f fuel map' next s = some (runVisits f vs s)) :
    ∃ vs : List ArVisit, vs.filter (fun v => !isMark v) = (if isMark v then ms else v :: ms) ∧ vs.length ≤ m ∧
        ∀ (σ : Type) (f : σ → ArVisit → σ × Int) (s : σ) (fuel : Nat), vs.length < fuel →
          arLoop bytes f fuel map pos s = some (runVisits f vs s) := by
  obtain ⟨vs, h1, h2, h3⟩ := ih
  refine ⟨v :: vs, ?_, by simp; omega, ?_⟩
  · rw [List.filter_cons, h1]
    cases isMark v <;> simp
  · intro σ f s fuel hf
    obtain ⟨j, rfl⟩ : ∃ j, fuel = j + 1 := ⟨fuel - 1, by simp at hf; omega⟩
    rw [arLoop, hh, runVisits]
    simp only []
    by_cases hz : (f s v).2 ≠ 0
    · rw [if_pos hz, if_pos hz]
    · rw [if_neg hz, if_neg hz, hn]
      exact h3 σ f _ j (by simp at hf; omega)

theorem arText_visits {table : Option Str} {pos : Nat} {ms : List ArMember} {t : Str} (h : ArText table pos ms t) :
    ∀ p : Str, p.length = pos → pos % 2 = 0 →
      ∃ vs : List ArVisit, vs.filter (fun v => !isMark v) = ms.map visitOf ∧ vs.length ≤ t.length ∧
        ∀ (σ : Type) (f : σ → ArVisit → σ × Int) (s : σ) (fuel : Nat), vs.length < fuel →
          arLoop (p ++ t) f fuel (table.map clearMap) pos s = some (runVisits f vs s) := by
  induction h with
  | @nil table pos =>
    intro p hp he
    refine ⟨[], rfl, by simp, ?_⟩
    intro σ f s fuel hf
    obtain ⟨k, rfl⟩ : ∃ k, fuel = k + 1 := ⟨fuel - 1, by simp at hf; omega⟩
    rw [arLoop]
    have : arHeader (p ++ []) (table.map clearMap) pos = .eof := by
      unfold arHeader
      rw [if_neg (by omega), if_pos (by simp [readAt, hp])]
    rw [this]; rfl
  | @index table pos ms t date owner data fill hf hfill _ ih =>
    intro p hp he
    have hl := arHead_length hf
    have ih := ih (p ++ arHead ['/'] date owner data.length ++ data ++ fill) (by simp [hp, hl]; omega) (by omega)
    simp only [List.append_assoc] at ih ⊢
    have hh := arHeader_at (p := p) (rest := data ++ (fill ++ t)) (map := table.map clearMap) hf (by decide)
    rw [name_plain (by decide) (by decide) (by decide)] at hh
    simp only [hp] at hh
    have hm : mapField ['/'] = false := by decide
    rw [hm] at hh
    have := visits_cons hh (arNext_plain rfl rfl he hfill) (m := (arHead ['/'] date owner data.length ++ (data ++ (fill ++ t))).length)
      (by simp [hl]; omega) ih
    rw [if_pos (by rw [isMark, show cstr (chopSlash ['/']) = [] by decide]; rfl)] at this
    exact this
  | @table table pos ms t date owner data fill hf hfill hsz hnl _ ih =>
    intro p hp he
    have hl := arHead_length hf
    have ih := ih (p ++ arHead ['/', '/'] date owner data.length ++ data ++ fill) (by simp [hp, hl]; omega) (by omega)
    simp only [List.append_assoc] at ih ⊢
    have hh := arHeader_at (p := p) (rest := data ++ (fill ++ t)) (map := table.map clearMap) hf (by decide)
    have hm : mapField ['/', '/'] = true := by decide
    rw [hm, name_plain (by decide) (by decide) (by decide)] at hh
    simp only [hp] at hh
    have hn : arNext (p ++ (arHead ['/', '/'] date owner data.length ++ (data ++ (fill ++ t)))) (table.map clearMap)
        ⟨cstr (chopSlash ['/', '/']), !false, (pos : Int), (data.length : Int), atol ((arHead ['/', '/'] date owner data.length).drop 16)⟩ true
        = .go ((pos + 60 + data.length + fill.length : Nat) : Int) ((some data).map clearMap) := by
      have hr : readAt (p ++ (arHead ['/', '/'] date owner data.length ++ (data ++ (fill ++ t)))) ((pos : Int) + 60).toNat
          (data.length : Int).toNat = data := by
        have := readAt_append (p := p ++ arHead ['/', '/'] date owner data.length) (q := data) (r := fill ++ t) rfl
        simp only [List.append_assoc, List.length_append, hl, hp] at this
        have e : ((pos : Int) + 60).toNat = pos + 60 := by omega
        rw [e, Int.toNat_natCast]; exact this
      unfold arNext
      simp only [hr, if_true]
      rw [if_neg (by omega), if_neg (by omega), if_neg (by simp), if_neg hnl]
      simp only [ArNext.go.injEq, Option.map_some, and_true]
      split <;> omega
    have := visits_cons hh hn (m := (arHead ['/', '/'] date owner data.length ++ (data ++ (fill ++ t))).length)
      (by simp [hl]; omega) ih
    rw [if_pos (by rw [isMark, show cstr (chopSlash ['/', '/']) = ['/'] by decide]; rfl)] at this
    exact this
  | @short table pos date ms t n field owner data fill hn hfield hf hdate hfill _ ih =>
    intro p hp he
    have hl := arHead_length hf
    have ih := ih (p ++ arHead field (Nat.toDigits 10 date) owner data.length ++ data ++ fill) (by simp [hp, hl]; omega) (by omega)
    simp only [List.append_assoc] at ih ⊢
    have hfl : field.getLast? ≠ some ' ' := by
      rcases hfield with rfl | ⟨rfl, _⟩
      · exact hn.last.1
      · simp
    have hfn : field.head? = n.head? := by
      have := hn.nonempty
      rcases hfield with rfl | ⟨rfl, _⟩
      · rfl
      · cases n with
        | nil => exact absurd rfl this
        | cons c n => rfl
    have hfc : cstr (chopSlash field) = n := by
      rcases hfield with rfl | ⟨rfl, _⟩
      · rw [chopSlash, if_neg hn.last.2, cstr_self hn.noNul]
      · rw [chopSlash, if_pos (by simp), List.dropLast_concat, cstr_self hn.noNul]
    have hfm : mapField field = false := by
      refine not_mapField (by rw [hfn]; exact hn.first.2) ?_
      rcases hfield with rfl | ⟨rfl, h2⟩
      · rw [cstr_self hn.noNul]
        rintro rfl
        exact hn.last.2 (by decide)
      · rw [cstr_self (by simpa using ⟨hn.noNul, by decide⟩)]
        have e : "ARFILENAMES/".toList = "ARFILENAMES".toList ++ ['/'] := by decide
        rw [e]
        exact fun e => h2 (List.append_cancel_right e)
    have hh := arHeader_at (p := p) (rest := data ++ (fill ++ t)) (map := table.map clearMap) hf hfl
    rw [hfc, hfm, name_plain hn.first.1 (.inl hn.first.2) hn.plain, arHead_date hf hdate] at hh
    simp only [hp] at hh
    have := visits_cons hh (arNext_plain rfl rfl he hfill)
      (m := (arHead field (Nat.toDigits 10 date) owner data.length ++ (data ++ (fill ++ t))).length)
      (by simp [hl]; omega) ih
    rw [if_neg] at this
    · exact this
    · simp only [isMark, Bool.and_eq_true, Bool.or_eq_true, beq_iff_eq, not_and, not_or]
      intro _
      exact ⟨hn.nonempty, fun e => hn.first.2 (by rw [e]; rfl)⟩
  | @long table off pos date ms t n owner data fill hn ho hf hdate hfill _ ih =>
    intro p hp he
    have hl := arHead_length hf
    have ih := ih (p ++ arHead ('/' :: Nat.toDigits 10 off) (Nat.toDigits 10 date) owner data.length ++ data ++ fill)
      (by simp [hp, hl]; omega) (by omega)
    simp only [List.append_assoc] at ih ⊢
    obtain ⟨c, ds, hds⟩ : ∃ c ds, Nat.toDigits 10 off = ds ++ [c] :=
      ⟨_, _, (List.dropLast_concat_getLast (toDigits_ne_nil off)).symm⟩
    have hc : isDigitC c = true := toDigits_all_digit off c (by simp [hds])
    have hlast : ('/' :: Nat.toDigits 10 off).getLast? = some c := by
      rw [hds, ← List.cons_append, List.getLast?_concat]
    have hnul : nulChar ∉ '/' :: Nat.toDigits 10 off := by
      simp only [List.mem_cons, not_or]
      exact ⟨by decide, fun h => absurd (toDigits_all_digit off _ h) (by decide)⟩
    have hchop : cstr (chopSlash ('/' :: Nat.toDigits 10 off)) = '/' :: Nat.toDigits 10 off := by
      rw [chopSlash, if_neg, cstr_self hnul]
      rw [hlast]; rintro e
      simp at e; subst e; exact absurd hc (by decide)
    have hh := arHeader_at (p := p) (rest := data ++ (fill ++ t)) (map := (some table).map clearMap) hf
      (by rw [hlast]; rintro e; simp at e; subst e; exact absurd hc (by decide))
    have hm : mapField ('/' :: Nat.toDigits 10 off) = false := by
      unfold mapField
      rw [cstr_self hnul]
      have h1 : ∀ r, '/' :: Nat.toDigits 10 off ≠ r ++ ['/'] := by
        intro r e
        rw [e, List.getLast?_concat] at hlast
        simp at hlast; subst hlast; exact absurd hc (by decide)
      have h2 : ('/' :: Nat.toDigits 10 off == ['/', '/']) = false := beq_eq_false_iff_ne.2 (h1 ['/'])
      have h3 : ('/' :: Nat.toDigits 10 off == "ARFILENAMES/".toList) = false := beq_eq_false_iff_ne.2 (by
        rw [show "ARFILENAMES/".toList = "ARFILENAMES".toList ++ ['/'] by decide]; exact h1 _)
      rw [h2, h3]
      rfl
    obtain ⟨h3, h4⟩ := table_has hn
    have hname : ∀ bytes, arMemberName bytes ((some table).map clearMap) p.length false ('/' :: Nat.toDigits 10 off) = some (n, true) := by
      intro bytes
      unfold arMemberName
      simp only [Option.map_some, Bool.not_false, Bool.true_and, List.head?_cons, beq_self_eq_true, Bool.or_true, if_true, List.tail_cons,
        atoiSigned_digits ho, Int.toNat_natCast, h4, clearMap_length]
      rw [if_neg (by simp; omega), if_neg hn.1]
    rw [hm, hchop, hname, arHead_date hf hdate] at hh
    simp only [hp] at hh
    have := visits_cons hh (arNext_plain rfl rfl he hfill)
      (m := (arHead ('/' :: Nat.toDigits 10 off) (Nat.toDigits 10 date) owner data.length ++ (data ++ (fill ++ t))).length)
      (by simp [hl]; omega) ih
    rw [if_neg (by simp [isMark])] at this
    exact this
  | @bsd table pos date nuls ms t n owner data fill hn1 hn2 hlen hf hdate hfill _ ih =>
    intro p hp he
    have hl := arHead_length hf
    have ih := ih (p ++ arHead (['#', '1', '/'] ++ Nat.toDigits 10 (n.length + nuls)) (Nat.toDigits 10 date) owner
      (n ++ List.replicate nuls (Char.ofNat 0) ++ data).length ++ (n ++ List.replicate nuls (Char.ofNat 0) ++ data) ++ fill)
      (by rw [List.length_append, List.length_append, List.length_append, hp, hl]) (by omega)
    generalize hT : (n ++ List.replicate nuls (Char.ofNat 0) ++ data) = D at *
    simp only [List.append_assoc] at ih ⊢
    obtain ⟨c, ds, hds⟩ : ∃ c ds, Nat.toDigits 10 (n.length + nuls) = ds ++ [c] :=
      ⟨_, _, (List.dropLast_concat_getLast (toDigits_ne_nil _)).symm⟩
    have hc : isDigitC c = true := toDigits_all_digit (n.length + nuls) c (by simp [hds])
    have hlast : (['#', '1', '/'] ++ Nat.toDigits 10 (n.length + nuls)).getLast? = some c := by
      rw [hds, ← List.append_assoc, List.getLast?_concat]
    have hnul : nulChar ∉ ['#', '1', '/'] ++ Nat.toDigits 10 (n.length + nuls) := by
      rw [List.mem_append, not_or]
      exact ⟨by decide, fun h => absurd (toDigits_all_digit _ _ h) (by decide)⟩
    have hchop : cstr (chopSlash (['#', '1', '/'] ++ Nat.toDigits 10 (n.length + nuls))) = ['#', '1', '/'] ++ Nat.toDigits 10 (n.length + nuls) := by
      rw [chopSlash, if_neg, cstr_self hnul]
      rw [hlast]; rintro e
      simp at e; subst e; exact absurd hc (by decide)
    have hh := arHeader_at (p := p) (rest := D ++ (fill ++ t)) (map := table.map clearMap) hf
      (by rw [hlast]; rintro e; simp at e; subst e; exact absurd hc (by decide))
    have hm : mapField (['#', '1', '/'] ++ Nat.toDigits 10 (n.length + nuls)) = false :=
      not_mapField (by simp) (by
        rw [cstr_self hnul]; intro e
        have := congrArg List.head? e
        exact absurd this (by simp))
    have hpos : 1 ≤ n.length := by cases n with | nil => exact absurd rfl hn1 | cons c n => simp
    have hread : readAt (p ++ (arHead (['#', '1', '/'] ++ Nat.toDigits 10 (n.length + nuls)) (Nat.toDigits 10 date) owner D.length ++ (D ++ (fill ++ t))))
        (p.length + 60) (n.length + nuls) = n ++ List.replicate nuls nulChar := by
      have := readAt_append (p := p ++ arHead (['#', '1', '/'] ++ Nat.toDigits 10 (n.length + nuls)) (Nat.toDigits 10 date) owner D.length)
        (q := n ++ List.replicate nuls nulChar) (r := data ++ (fill ++ t)) (n := n.length + nuls) (by simp)
      rw [List.length_append, hl] at this
      rw [← this, ← hT]
      simp only [List.append_assoc]
      rfl
    have hname : arMemberName (p ++ (arHead (['#', '1', '/'] ++ Nat.toDigits 10 (n.length + nuls)) (Nat.toDigits 10 date) owner D.length ++ (D ++ (fill ++ t))))
        (table.map clearMap) p.length false (['#', '1', '/'] ++ Nat.toDigits 10 (n.length + nuls)) = some (n, true) := by
      unfold arMemberName
      have e1 : (!false && ((['#', '1', '/'] ++ Nat.toDigits 10 (n.length + nuls)).head? == some ' ' ||
          (['#', '1', '/'] ++ Nat.toDigits 10 (n.length + nuls)).head? == some '/')) = false := by simp
      rw [e1]
      simp only [Bool.false_eq_true, if_false]
      rw [if_pos (List.prefix_append _ _)]
      have e2 : (['#', '1', '/'] ++ Nat.toDigits 10 (n.length + nuls)).drop 3 = Nat.toDigits 10 (n.length + nuls) := rfl
      rw [e2, atoiSigned_digits hlen, if_neg (by omega), Int.toNat_natCast, hread, if_neg (by simp)]
      have e3 : cstr (n ++ List.replicate nuls nulChar) = n := by
        cases nuls with
        | zero => simpa using cstr_self hn2
        | succ k => rw [List.replicate_succ]; exact cstr_append hn2
      rw [e3]
    rw [hm, hchop, hname, arHead_date hf hdate] at hh
    simp only [hp] at hh
    have := visits_cons hh (arNext_plain rfl rfl he hfill)
      (m := (arHead (['#', '1', '/'] ++ Nat.toDigits 10 (n.length + nuls)) (Nat.toDigits 10 date) owner D.length ++ (D ++ (fill ++ t))).length)
      (k := t.length) (by rw [List.length_append, hl, List.length_append, List.length_append]; omega) ih
    rw [if_neg (by simp [isMark])] at this
    exact this

end Remake
