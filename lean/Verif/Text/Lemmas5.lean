import Verif.Text.Lemmas4
set_option linter.unusedVariables false
/-! Helper lemmas: file-name parts, trimming, newline folding, continuation lines. -/
namespace Remake
open Spec

theorem slash_mem_of_getLast {l : Str} {c : Char} (h : l.getLast? = some c) : c ∈ l :=
  List.mem_of_getLast? h

theorem dirSplit_backScan (w : Str) {stop : Char → Bool} (hs : ∀ c, stop c = (c == '/')) :
    DirSplit w (backScan stop w).1 (backScan stop w).2 := by
  refine ⟨(backScan_append _ w).symm, ?_, ?_⟩
  · intro h
    have := backScan_tail stop w _ h
    rw [hs] at this; simp at this
  · cases h : (backScan stop w).1.getLast? with
    | none => left; exact getLast?_none h
    | some c =>
      right
      have := backScan_last _ w c h
      rw [hs] at this
      simp at this
      rw [this]

theorem suffixSplit_backScan (w : Str) {stop : Char → Bool}
    (hs : ∀ c, stop c = (c == '/' || c == '.')) :
    (∃ hd tl, (backScan stop w).1 = hd ++ ['.'] ∧ (backScan stop w).2 = tl ∧
      SuffixSplit w hd ('.' :: tl)) ∨
    ((backScan stop w).1.getLast? ≠ some '.' ∧ SuffixSplit w w []) := by
  have happ := backScan_append stop w
  have htl : ∀ c ∈ (backScan stop w).2, c ≠ '/' ∧ c ≠ '.' := by
    intro c hc
    have := backScan_tail stop w _ hc
    rw [hs] at this
    simpa using this
  cases h : (backScan stop w).1.getLast? with
  | none =>
    right
    have hnil := getLast?_none h
    refine ⟨by simp, by simp, Or.inl ⟨rfl, [], w, ⟨rfl, ?_, Or.inl rfl⟩, ?_⟩⟩
    · intro hm; rw [← happ, hnil] at hm; exact (htl _ hm).1 rfl
    · intro hm; rw [← happ, hnil] at hm; exact (htl _ hm).2 rfl
  | some c =>
    have hc := backScan_last _ w c h
    rw [hs] at hc
    simp only [Bool.or_eq_true, beq_iff_eq] at hc
    rcases hc with rfl | rfl
    · right
      refine ⟨by simp, by simp, Or.inl ⟨rfl, _, _, ⟨happ.symm, ?_, Or.inr h⟩, ?_⟩⟩
      · exact fun hm => (htl _ hm).1 rfl
      · exact fun hm => (htl _ hm).2 rfl
    · left
      have hd := getLast?_dropLast h
      refine ⟨_, _, hd, rfl, ?_, Or.inr ⟨_, rfl, fun hm => (htl _ hm).2 rfl, fun hm => (htl _ hm).1 rfl⟩⟩
      conv => lhs; rw [← happ, hd]
      simp

theorem suffix_cons_unique {b t b' t' : Str} {x : Char} (h : b ++ x :: t = b' ++ x :: t')
    (ht : x ∉ t) (ht' : x ∉ t') : b = b' ∧ t = t' := by
  rcases List.append_eq_append_iff.mp h with ⟨y, hy, hz⟩ | ⟨y, hy, hz⟩
  · cases y with
    | nil => simp at hy hz; exact ⟨hy.symm, hz⟩
    | cons z zs =>
      simp only [List.cons_append, List.cons.injEq] at hz
      exact absurd (by rw [hz.2]; simp) ht
  · cases y with
    | nil => simp at hy hz; exact ⟨hy, hz.symm⟩
    | cons z zs =>
      simp only [List.cons_append, List.cons.injEq] at hz
      exact absurd (by rw [hz.2]; simp) ht'

theorem suffix_none_not_dot {w d n b t : Str} (hd : DirSplit w d n) (hn : '.' ∉ n)
    (h : w = b ++ '.' :: t) (ht : '/' ∉ t) : False := by
  obtain ⟨h1, h2, h3⟩ := hd
  rw [h1] at h
  rcases List.append_eq_append_iff.mp h with ⟨y, hy, hz⟩ | ⟨y, hy, hz⟩
  · exact hn (by rw [hz]; simp)
  · cases y with
    | nil => simp at hz; exact hn (by rw [← hz]; simp)
    | cons z zs =>
      rcases h3 with h | h
      · rw [h] at hy; simp at hy
      · rw [hy, List.getLast?_append] at h
        have hm : '/' ∈ (z :: zs) := by
          apply List.mem_of_getLast?
          rw [List.getLast?_eq_some_getLast (by simp)] at h ⊢
          simpa using h
        have : '/' ∈ ('.' :: t) := by rw [hz]; exact List.mem_append_left _ hm
        simp only [List.mem_cons] at this
        rcases this with h | h
        · cases h
        · exact ht h

theorem SuffixSplit_unique {w b x b' x' : Str} (h : SuffixSplit w b x) (h' : SuffixSplit w b' x') :
    b = b' ∧ x = x' := by
  obtain ⟨h1, h2⟩ := h
  obtain ⟨h1', h2'⟩ := h'
  rcases h2 with ⟨rfl, d, n, hd, hn⟩ | ⟨t, rfl, ht, ht2⟩ <;>
    rcases h2' with ⟨rfl, d', n', hd', hn'⟩ | ⟨t', rfl, ht', ht2'⟩
  · simp at h1 h1'; rw [← h1, ← h1']; exact ⟨rfl, rfl⟩
  · exact (suffix_none_not_dot hd hn h1' ht2').elim
  · exact (suffix_none_not_dot hd' hn' h1 ht2).elim
  · rw [h1] at h1'
    have := suffix_cons_unique h1' ht ht'
    exact ⟨this.1, by rw [this.2]⟩

/-! ### trimming -/

theorem head?_dropWhile_false {p : Char → Bool} {l : Str} {c : Char}
    (h : (l.dropWhile p).head? = some c) : p c = false := by
  have hne : l.dropWhile p ≠ [] := by intro h'; rw [h'] at h; simp at h
  have h1 := List.head_dropWhile_not p (l := l) hne
  rw [List.head?_eq_some_head hne] at h
  simp only [Option.some.injEq] at h
  rw [h] at h1; simpa using h1

theorem rtrim_split (p : Char → Bool) (l : Str) :
    ∃ b, l = (l.reverse.dropWhile p).reverse ++ b ∧ (∀ c ∈ b, p c = true) := by
  refine ⟨(l.reverse.takeWhile p).reverse, ?_, ?_⟩
  · rw [← List.reverse_append, List.takeWhile_append_dropWhile, List.reverse_reverse]
  · intro c hc; simp only [List.mem_reverse] at hc; exact mem_takeWhile_imp hc

theorem isTrim_strip (s : Str) : IsTrim s (stripWhitespace s) := by
  unfold stripWhitespace
  obtain ⟨b, hb, hb2⟩ := rtrim_split isSpace (s.dropWhile isSpace)
  refine ⟨s.takeWhile isSpace, b, ?_, fun c hc => mem_takeWhile_imp hc, hb2, ?_, ?_, ?_⟩
  · rw [List.append_assoc, ← hb, List.takeWhile_append_dropWhile]
  · intro c hc
    have : (s.dropWhile isSpace).head? = some c := by
      rw [hb]
      cases h : (List.dropWhile isSpace (List.dropWhile isSpace s).reverse).reverse with
      | nil => rw [h] at hc; simp at hc
      | cons x xs => rw [h] at hc; simpa using hc
    exact head?_dropWhile_false this
  · intro c hc
    rw [List.getLast?_reverse] at hc
    exact head?_dropWhile_false hc
  · intro h
    rw [h] at hb
    simp only [List.nil_append] at hb
    rw [← hb, List.takeWhile_append_dropWhile]

theorem dropWhile_all {p : Char → Bool} {l : Str} (h : ∀ c ∈ l, p c = true) : l.dropWhile p = [] := by
  induction l with
  | nil => rfl
  | cons c cs ih =>
    rw [List.dropWhile_cons_of_pos (h c (by simp))]
    exact ih (fun d hd => h d (by simp [hd]))

theorem isTrim_unique {s m m' : Str} (h : IsTrim s m) (h' : IsTrim s m') : m = m' := by
  have key : ∀ {m}, IsTrim s m → m = stripWhitespace s := by
    intro m ⟨a, b, hs, ha, hb, hh, hl, hn⟩
    by_cases hm : m = []
    · subst hm
      have hall : ∀ c ∈ s, isSpace c = true := by
        intro c hc; rw [hs] at hc; simp only [List.append_nil, List.mem_append] at hc
        rcases hc with h | h
        · exact ha c h
        · exact hb c h
      unfold stripWhitespace
      have : s.dropWhile isSpace = [] := dropWhile_all hall
      rw [this]; rfl
    · rw [hs, stripWhitespace_pad ha hb hm (hh _ (List.head?_eq_some_head hm))
        (hl _ (List.getLast?_eq_some_getLast hm))]
  rw [key h, key h']

/-! ### fold_newlines -/

theorem rtrimNl_cons (c : Char) (s : Str) :
    rtrimNl (c :: s) = if rtrimNl s = [] then (if c = '\n' then [] else [c]) else c :: rtrimNl s := by
  unfold rtrimNl
  simp only [List.reverse_cons, List.dropWhile_append, List.isEmpty_iff, List.reverse_eq_nil_iff]
  split
  · by_cases h : c = '\n' <;> simp [h]
  · simp

/-- Invariant of the copying loop. -/
theorem foldGo_eq (out : Str) (ln : Nat) (s : Str) (hn : '\x00' ∉ s) :
    foldGo out ln s = ((nlToSpace (dropCr s)).reverse ++ out,
      if rtrimNl (dropCr s) = [] then ln else out.length + (rtrimNl (dropCr s)).length) := by
  fun_induction foldGo out ln s with
  | case1 out ln => simp [dropCr, nlToSpace, rtrimNl]
  | case2 out ln cs ih =>
    rw [ih (by simp at hn ⊢; exact hn)]
    have : dropCr ('\r' :: '\n' :: cs) = dropCr ('\n' :: cs) := by
      rw [dropCr]; simp
    rw [this]
  | case3 out ln cs hnot => simp at hn
  | case4 out ln cs h0 hnot ih =>
    have hd : dropCr ('\n' :: cs) = '\n' :: dropCr cs := by rw [dropCr]; simp
    rw [ih (by simp at hn; exact hn), hd, rtrimNl_cons]
    simp only [nlToSpace, List.map_cons, if_true, List.reverse_cons, List.append_assoc,
      List.cons_append, List.nil_append, List.length_cons]
    split
    · simp
    · simp; omega
  | case5 out ln c cs hnot h0 hnl ih =>
    have hd : dropCr (c :: cs) = c :: dropCr cs := by
      rw [dropCr, if_neg]
      rintro ⟨rfl, hh⟩
      cases cs with
      | nil => simp at hh
      | cons x xs => simp at hh; subst hh; exact hnot _ rfl rfl
    rw [ih (by simp at hn; exact hn.2), hd, rtrimNl_cons]
    simp only [nlToSpace, List.map_cons, hnl, if_false, List.reverse_cons, List.append_assoc,
      List.cons_append, List.nil_append, List.length_cons]
    split
    · simp
    · simp; omega

theorem rtrimNl_prefix (s : Str) : ∃ k, s = rtrimNl s ++ List.replicate k '\n' := by
  obtain ⟨b, hb, hb2⟩ := rtrim_split (· == '\n') s
  refine ⟨b.length, ?_⟩
  have : b = List.replicate b.length '\n' :=
    List.eq_replicate_of_mem (fun c hc => by simpa using hb2 c hc)
  rw [← this]; exact hb

theorem rtrimNl_last (s : Str) : (rtrimNl s).getLast? ≠ some '\n' := by
  intro h
  unfold rtrimNl at h
  rw [List.getLast?_reverse] at h
  have := head?_dropWhile_false h
  simp at this

/-! ### collapse_continuations -/

theorem collapseGo_skip (posix : Bool) (out seg : Str) (s : Str) :
    collapseGo posix true out seg s = collapseGo posix false out seg (s.dropWhile isBlank) := by
  induction s with
  | nil => rfl
  | cons c cs ih =>
    rw [List.dropWhile_cons]
    cases h : isBlank c with
    | true =>
      rw [collapseGo]
      simp only [h, Bool.and_true, if_true]
      exact ih
    | false =>
      rw [collapseGo]
      conv => rhs; rw [if_neg (by simp), collapseGo]
      simp [h]

theorem collapseGo_seg (posix : Bool) (out : Str) : ∀ (l seg rest : Str), '\n' ∉ l →
    collapseGo posix false out seg (l ++ rest) = collapseGo posix false out (l.reverse ++ seg) rest
  | [], seg, rest, _ => by simp
  | c :: cs, seg, rest, h => by
    simp only [List.mem_cons, not_or] at h
    rw [List.cons_append, collapseGo]
    simp only [Bool.false_and, Bool.false_eq_true, if_false]
    rw [if_neg (Ne.symm h.1), collapseGo_seg posix out cs _ rest h.2]
    simp

theorem collapseGo_line (posix : Bool) {out a rest : Str} {n : Nat} (ha : '\n' ∉ a)
    (hl : a.getLast? ≠ some '\\') :
    collapseGo posix false out [] (a ++ List.replicate n '\\' ++ '\n' :: rest) =
      if n % 2 = 1 then
        collapseGo posix false
          (' ' :: (if posix then (a ++ List.replicate (n / 2) '\\').reverse ++ out
            else ((a ++ List.replicate (n / 2) '\\').reverse ++ out).dropWhile isBlank)) []
          (rest.dropWhile isBlank)
      else collapseGo posix false ('\n' :: ((a ++ List.replicate (n / 2) '\\').reverse ++ out)) [] rest := by
  have hno : '\n' ∉ a ++ List.replicate n '\\' := by
    simp only [List.mem_append, not_or]
    exact ⟨ha, fun h => by have := List.eq_of_mem_replicate h; simp at this⟩
  rw [collapseGo_seg posix out _ [] _ hno, collapseGo]
  simp only [List.reverse_append, List.reverse_replicate, List.append_nil, Bool.false_and,
    Bool.false_eq_true, if_false, if_true]
  have hh := head?_reverse_ne hl
  rw [bsCount_replicate_append hh, halveBs_replicate_append hh, collapseGo_skip]

theorem dropWhile_blank_append {x y : Str} (hy : ∀ c, y.head? = some c → isBlank c = false) :
    (x.reverse ++ y).dropWhile isBlank = (rtrimBlank x).reverse ++ y := by
  unfold rtrimBlank
  rw [List.reverse_reverse, List.dropWhile_append]
  split
  · rename_i h
    simp only [List.isEmpty_iff] at h
    rw [h]
    cases y with
    | nil => rfl
    | cons c cs => rw [List.dropWhile_cons_of_neg (by simp [hy c rfl])]; rfl
  · rfl

theorem rtrimBlank_last {x : Str} : ∀ c, (rtrimBlank x).getLast? = some c → isBlank c = false := by
  intro c hc
  unfold rtrimBlank at hc
  rw [List.getLast?_reverse] at hc
  exact head?_dropWhile_false hc

theorem head?_rtrimBlank {x : Str} (hx : rtrimBlank x ≠ []) : (rtrimBlank x).head? = x.head? := by
  obtain ⟨b, hb, -⟩ := rtrim_split isBlank x
  unfold rtrimBlank at hx ⊢
  conv => rhs; rw [hb]
  cases h : (List.dropWhile isBlank x.reverse).reverse with
  | nil => exact absurd h hx
  | cons y ys => simp

theorem head_nonblank_append {x y : Str} (hx : ∀ c, x.getLast? = some c → isBlank c = false)
    (hy : ∀ c, y.head? = some c → isBlank c = false) :
    ∀ c, (x.reverse ++ y).head? = some c → isBlank c = false := by
  intro c hc
  cases h : x.reverse with
  | nil => rw [h] at hc; exact hy c hc
  | cons z zs =>
    rw [h] at hc; simp at hc; subst hc
    apply hx
    rw [← List.head?_reverse, h]; rfl

theorem dropWhile_self {p : Char → Bool} {l : Str} (h : ∀ c, l.head? = some c → p c = false) :
    l.dropWhile p = l := by
  cases l with
  | nil => rfl
  | cons c cs => rw [List.dropWhile_cons_of_neg (by simp [h c rfl])]

theorem dropWhile_idem (p : Char → Bool) (l : Str) : (l.dropWhile p).dropWhile p = l.dropWhile p :=
  dropWhile_self (fun c hc => head?_dropWhile_false hc)

theorem collapseGo_posix {s r : Str} (h : Collapsed true s r) :
    ∀ out, collapseGo true false out [] s = out.reverse ++ r := by
  induction h with
  | last hl =>
    rename_i l
    intro out
    have := collapseGo_seg true out l [] [] hl
    simp only [List.append_nil] at this
    rw [this, collapseGo]; simp
  | plain ha hl _ ih =>
    rename_i a rest o k _
    intro out
    rw [collapseGo_line true ha hl, if_neg (by omega), ih]
    simp
  | cont ha hl _ ih =>
    rename_i a rest o k _
    intro out
    rw [collapseGo_line true ha hl, if_pos (by omega), ih]
    have : (2 * k + 1) / 2 = k := by omega
    simp [this]

theorem collapseGo_gnu {s r : Str} (h : Collapsed false s r) :
    (∀ out : Str, (∀ c, out.head? = some c → isBlank c = false) →
      collapseGo false false out [] s = out.reverse ++ r) ∧
    (∀ out : Str, (∀ c, out.head? = some c → isBlank c = false) →
      (∀ c, s.head? = some c → isBlank c = false) →
      collapseGo false false (' ' :: out) [] s = out.reverse ++ ' ' :: r.dropWhile isBlank) := by
  induction h with
  | last hl =>
    rename_i l
    have h1 : ∀ out, collapseGo false false out [] l = out.reverse ++ l := by
      intro out
      have := collapseGo_seg false out l [] [] hl
      simp only [List.append_nil] at this
      rw [this, collapseGo]; simp
    refine ⟨fun out _ => h1 out, fun out _ hh => ?_⟩
    rw [h1, dropWhile_self hh]; simp
  | plain ha hl _ ih =>
    rename_i a rest o k _
    have h1 : ∀ out, collapseGo false false out [] (a ++ List.replicate (2 * k) '\\' ++ '\n' :: rest)
        = out.reverse ++ (a ++ List.replicate k '\\' ++ '\n' :: o) := by
      intro out
      rw [collapseGo_line false ha hl, if_neg (by omega), ih.1 _ (by simp [isBlank])]
      simp
    refine ⟨fun out _ => h1 out, fun out _ hh => ?_⟩
    rw [h1, dropWhile_self (p := isBlank)]
    · simp
    · intro c hc
      cases a with
      | cons x xs => exact hh c (by simpa using hc)
      | nil =>
        cases k with
        | zero => simp at hc; subst hc; rfl
        | succ k => simp [List.replicate_succ] at hc; subst hc; rfl
  | cont ha hl _ ih =>
    rename_i a rest o k _
    have hk : (2 * k + 1) / 2 = k := by omega
    have step : ∀ out : Str, (∀ c, out.head? = some c → isBlank c = false) →
        collapseGo false false (' ' :: ((rtrimBlank (a ++ List.replicate k '\\')).reverse ++ out)) []
          (rest.dropWhile isBlank) = out.reverse ++ (rtrimBlank (a ++ List.replicate k '\\') ++
            ' ' :: o.dropWhile isBlank) := by
      intro out ho
      rw [ih.2 _ (head_nonblank_append rtrimBlank_last ho) (fun c hc => head?_dropWhile_false hc)]
      simp
    constructor
    · intro out ho
      rw [collapseGo_line false ha hl, if_pos (by omega), hk]
      simp only [Bool.false_eq_true, if_false]
      rw [dropWhile_blank_append ho, step out ho]
    · intro out ho hh
      rw [collapseGo_line false ha hl, if_pos (by omega), hk]
      simp only [Bool.false_eq_true, if_false]
      have e : ((a ++ List.replicate k '\\').reverse ++ ' ' :: out).dropWhile isBlank =
          if rtrimBlank (a ++ List.replicate k '\\') = [] then out
          else (rtrimBlank (a ++ List.replicate k '\\')).reverse ++ ' ' :: out := by
        unfold rtrimBlank
        rw [List.dropWhile_append]
        simp only [List.isEmpty_iff, List.reverse_eq_nil_iff, List.reverse_reverse]
        split
        · rw [List.dropWhile_cons_of_pos (by decide), dropWhile_self ho]
        · rfl
      rw [e]
      split
      · rename_i hnil
        have := step out ho
        rw [hnil] at this
        simp only [List.reverse_nil, List.nil_append] at this
        rw [this, hnil]
        simp only [List.nil_append]
        rw [List.dropWhile_cons_of_pos (by decide), dropWhile_idem]
      · rename_i hne
        have hhead : ∀ c, (rtrimBlank (a ++ List.replicate k '\\')).head? = some c → isBlank c = false := by
          intro c hc
          rw [head?_rtrimBlank hne] at hc
          cases a with
          | cons x xs => exact hh c (by simpa using hc)
          | nil =>
            cases k with
            | zero => simp at hc
            | succ k => simp [List.replicate_succ] at hc; subst hc; rfl
        rw [ih.2 _ (by
          intro c hc
          cases hr : (rtrimBlank (a ++ List.replicate k '\\')).reverse with
          | nil => simp at hr; exact absurd hr hne
          | cons z zs =>
            rw [hr] at hc; simp at hc; subst hc
            apply rtrimBlank_last (x := a ++ List.replicate k '\\')
            rw [← List.head?_reverse, hr]; rfl) (fun c hc => head?_dropWhile_false hc)]
        have : (rtrimBlank (a ++ List.replicate k '\\') ++ ' ' :: o.dropWhile isBlank).dropWhile isBlank
            = rtrimBlank (a ++ List.replicate k '\\') ++ ' ' :: o.dropWhile isBlank := by
          apply dropWhile_self
          intro c hc
          cases hr : rtrimBlank (a ++ List.replicate k '\\') with
          | nil => exact absurd hr hne
          | cons z zs => rw [hr] at hc; apply hhead; rw [hr]; simpa using hc
        rw [this]; simp

theorem Collapsed_exists (posix : Bool) (s : Str) : ∃ r, Collapsed posix s r := by
  generalize hn : s.length = n
  induction n using Nat.strongRecOn generalizing s with
  | _ n ih =>
    by_cases h : '\n' ∈ s
    · obtain ⟨a0, rest, rfl, ha0⟩ := split_first h
      obtain ⟨a, k, rfl, hl⟩ := split_trailing_bs a0
      have ha : '\n' ∉ a := fun h => ha0 (by simp [h])
      rcases Nat.mod_two_eq_zero_or_one k with hk | hk
      · obtain ⟨p, hp⟩ := ih rest.length (by rw [← hn]; simp; omega) rest rfl
        have : k = 2 * (k / 2) := by omega
        rw [this]
        exact ⟨_, .plain ha hl hp⟩
      · have hle := dropWhile_length_le isBlank rest
        obtain ⟨p, hp⟩ := ih (rest.dropWhile isBlank).length (by rw [← hn]; simp; omega) _ rfl
        have : k = 2 * (k / 2) + 1 := by omega
        rw [this]
        exact ⟨_, .cont ha hl hp⟩
    · exact ⟨_, .last h⟩

end Remake
