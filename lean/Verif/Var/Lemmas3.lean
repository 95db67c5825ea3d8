import Verif.Var.Spec
/-!
# Lemmas about recognising assignments
-/
set_option linter.unusedVariables false
set_option linter.unusedSimpArgs false
namespace Remake
open Spec

/-! ### References -/

theorem skipVarRef_matched {o c : Char} (hoc : o ≠ c) {b : Str} (h : Matched o c b) :
    ∀ n s, skipVarRef o c (n + 1) (b ++ s) = skipVarRef o c (n + 1) s := by
  induction h with
  | nil => intro n s; rfl
  | @char a t h1 h2 _ ih =>
    intro n s
    simp only [List.cons_append, skipVarRef, if_neg h1, if_neg h2]
    exact ih n s
  | @nest x y _ _ ih1 ih2 =>
    intro n s
    simp only [List.cons_append, List.append_assoc, skipVarRef, if_neg hoc, if_true]
    rw [ih1 (n + 1)]
    simp only [skipVarRef, if_true]
    rw [if_neg (by omega)]
    exact ih2 n s

/-- `x` closes `n + 1` open brackets, the last one at its end. -/
def ClosesAll (o c : Char) : Nat → Str → Prop
  | 0, x => ∃ b, Matched o c b ∧ x = b ++ [c]
  | n + 1, x => ∃ b y, Matched o c b ∧ ClosesAll o c n y ∧ x = b ++ c :: y

theorem closesAll_head {o c : Char} {n : Nat} {x : Str} (h : ClosesAll o c n x) :
    ∃ b y, Matched o c b ∧ x = b ++ c :: y ∧
      ∀ b', Matched o c b' → ClosesAll o c n (b' ++ c :: y) := by
  cases n with
  | zero =>
    obtain ⟨b, hb, rfl⟩ := h
    exact ⟨b, [], hb, rfl, fun b' hb' => ⟨b', hb', rfl⟩⟩
  | succ n =>
    obtain ⟨b, y, hb, hy, rfl⟩ := h
    exact ⟨b, y, hb, rfl, fun b' hb' => ⟨b', y, hb', hy, rfl⟩⟩

theorem skipVarRef_inv {o c : Char} : ∀ (p : Str) (n : Nat), skipVarRef o c (n + 1) p ≠ [] →
    ∃ x, p = x ++ skipVarRef o c (n + 1) p ∧ ClosesAll o c n x := by
  intro p
  induction p with
  | nil => intro n h; simp [skipVarRef] at h
  | cons a p ih =>
    intro n h
    by_cases hc : a = c
    · subst hc
      by_cases hn : n = 0
      · subst hn
        have : skipVarRef o a (0 + 1) (a :: p) = p := by simp [skipVarRef]
        rw [this]
        exact ⟨[a], rfl, [], .nil, rfl⟩
      · obtain ⟨m, rfl⟩ := Nat.exists_eq_succ_of_ne_zero hn
        have e : skipVarRef o a (m.succ + 1) (a :: p) = skipVarRef o a (m + 1) p := by
          simp [skipVarRef]
        rw [e] at h ⊢
        obtain ⟨x, hx, hcl⟩ := ih m h
        exact ⟨a :: x, by rw [List.cons_append, ← hx], [], x, .nil, hcl, rfl⟩
    · by_cases ho : a = o
      · subst ho
        have e : skipVarRef a c (n + 1) (a :: p) = skipVarRef a c (n + 1 + 1) p := by
          simp [skipVarRef, hc]
        rw [e] at h ⊢
        obtain ⟨x, hx, b, y, hb, hy, rfl⟩ := ih (n + 1) h
        refine ⟨a :: (b ++ c :: y), by rw [List.cons_append, ← hx], ?_⟩
        obtain ⟨b2, y2, hb2, rfl, hk⟩ := closesAll_head hy
        have := hk (a :: b ++ c :: b2) (.nest hb hb2)
        simpa using this
      · have e : skipVarRef o c (n + 1) (a :: p) = skipVarRef o c (n + 1) p := by
          simp [skipVarRef, hc, ho]
        rw [e] at h ⊢
        obtain ⟨x, hx, hcl⟩ := ih n h
        refine ⟨a :: x, by rw [List.cons_append, ← hx], ?_⟩
        obtain ⟨b, y, hb, rfl, hk⟩ := closesAll_head hcl
        exact hk (a :: b) (.char ho hc hb)

theorem skipVarRef_one {o c : Char} (hoc : o ≠ c) {b : Str} (h : Matched o c b) (s : Str) :
    skipVarRef o c 1 (b ++ c :: s) = s := by
  rw [skipVarRef_matched hoc h 0]
  simp [skipVarRef]

theorem skipVarRef_one_inv {o c : Char} {p : Str} (h : skipVarRef o c 1 p ≠ []) :
    ∃ b, Matched o c b ∧ p = b ++ c :: skipVarRef o c 1 p := by
  obtain ⟨x, hx, b, hb, rfl⟩ := skipVarRef_inv p 0 h
  refine ⟨b, hb, ?_⟩
  conv => lhs; rw [hx]
  simp

/-! ### Operators -/

theorem assignOp_op {op : Str} {f : Flavor} (h : Op op f) (rest : Str) :
    ∃ c p, op ++ rest = c :: p ∧ assignOp c p = some (some (f, rest)) ∧ c ≠ '#' ∧ c ≠ '$' ∧ isSpace c = false := by
  cases h <;> refine ⟨_, _, rfl, ?_, by decide, by decide, by decide⟩ <;> simp [assignOp]

theorem assignOp_inv {c : Char} {p : Str} {f : Flavor} {rest : Str} (h : assignOp c p = some (some (f, rest))) :
    ∃ op, Op op f ∧ c :: p = op ++ rest := by
  unfold assignOp at h
  split at h
  · rename_i hc
    simp only [Option.some.injEq, Prod.mk.injEq] at h
    obtain ⟨rfl, rfl⟩ := h
    exact ⟨_, .rec_, by simp [hc]⟩
  · split at h
    · rename_i hp
      cases p with
      | nil => simp at hp
      | cons d p =>
        simp only [List.head?_cons, Option.some.injEq] at hp
        subst hp
        simp only [List.tail_cons] at h
        split at h
        · rename_i hc
          simp only [Option.some.injEq, Prod.mk.injEq] at h
          obtain ⟨rfl, rfl⟩ := h
          exact ⟨_, .simple, by simp [hc]⟩
        · split at h
          · rename_i hc
            simp only [Option.some.injEq, Prod.mk.injEq] at h
            obtain ⟨rfl, rfl⟩ := h
            exact ⟨_, .append, by simp [hc]⟩
          · split at h
            · rename_i hc
              simp only [Option.some.injEq, Prod.mk.injEq] at h
              obtain ⟨rfl, rfl⟩ := h
              exact ⟨_, .cond, by simp [hc]⟩
            · split at h
              · rename_i hc
                simp only [Option.some.injEq, Prod.mk.injEq] at h
                obtain ⟨rfl, rfl⟩ := h
                exact ⟨_, .shell, by simp [hc]⟩
              · simp at h
    · split at h
      · rename_i hc
        split at h
        · rename_i hp
          cases p with
          | nil => simp at hp
          | cons d p =>
            cases p with
            | nil => simp at hp
            | cons d' p =>
              simp only [List.head?_cons, List.tail_cons, Option.some.injEq] at hp
              simp only [List.tail_cons, Option.some.injEq, Prod.mk.injEq] at h
              obtain ⟨rfl, rfl⟩ := h
              exact ⟨_, .posix, by simp [hc, hp]⟩
        · simp at h
      · simp at h

theorem assignOp_none {c : Char} {p : Str} : assignOp c p = none ↔ ¬ StartsOp (c :: p) ∧ c ≠ ':' := by
  constructor
  · intro h
    constructor
    · rintro ⟨op, f, r, hop, he⟩
      obtain ⟨c', p', h1, h2, -⟩ := assignOp_op hop r
      rw [← he] at h1
      simp only [List.cons.injEq] at h1
      rw [h1.1, h1.2, h2] at h
      simp at h
    · rintro rfl
      unfold assignOp at h
      by_cases hp : p.head? = some '='
      · simp [hp] at h
      · simp only [hp, if_false] at h
        rw [if_neg (by decide)] at h
        split at h
        · split at h <;> simp at h
        · rename_i hh; exact hh trivial
  · rintro ⟨h1, h2⟩
    cases ha : assignOp c p with
    | none => rfl
    | some q =>
      cases q with
      | some fr =>
        obtain ⟨f, r⟩ := fr
        obtain ⟨op, hop, he⟩ := assignOp_inv ha
        exact absurd ⟨op, f, r, hop, he⟩ h1
      | none =>
        exfalso
        unfold assignOp at ha
        split at ha
        · simp at ha
        · split at ha
          · repeat (split at ha; · simp at ha)
            simp at ha
          · simp at ha

/-! ### The scan -/

/-- The part of an assignment from the name on. -/
def Parts (p s : Str) (f : Flavor) (rest : Str) : Prop :=
  ∃ gap op, p = s ++ gap ++ op ++ rest ∧
    (gap = [] ∨ ∃ b sp, gap = b :: sp ∧ isBlank b = true ∧ ∀ c ∈ sp, isSpace c = true) ∧
    NameText s (gap ++ op ++ rest) ∧ Op op f

theorem take_prefix (pre : Str) (c : Char) (p : Str) :
    (pre ++ c :: p).take ((pre ++ c :: p).length - (p.length + 1)) = pre := by
  have : (pre ++ c :: p).length - (p.length + 1) = pre.length := by simp
  rw [this]; simp

theorem nextToken_space {sp s : Str} (h : ∀ c ∈ sp, isSpace c = true) (hs : ∀ c, s.head? = some c → isSpace c = false) :
    nextToken (sp ++ s) = s := by
  unfold nextToken
  induction sp with
  | nil =>
    cases s with
    | nil => rfl
    | cons c s =>
      have := hs c rfl
      simp [List.dropWhile_cons, this]
  | cons a sp ih =>
    simp only [List.cons_append, List.dropWhile_cons, h a (by simp), if_true]
    exact ih (fun c hc => h c (by simp [hc]))

theorem parseVarGo_complete {s rest0 : Str} (hn : NameText s rest0) :
    ∀ (gap op rest pre : Str) (f : Flavor), rest0 = gap ++ op ++ rest →
    (gap = [] ∨ ∃ b sp, gap = b :: sp ∧ isBlank b = true ∧ ∀ c ∈ sp, isSpace c = true) → Op op f →
    parseVarGo (pre ++ (s ++ rest0)) (s ++ rest0) = some ⟨pre ++ s, f, nextToken rest⟩ := by
  induction hn with
  | @nil rest0 =>
    intro gap op rest pre f he hgap hop
    subst he
    obtain ⟨c, p, h1, h2, h3, h4, h5⟩ := assignOp_op hop rest
    rcases hgap with rfl | ⟨b, sp, rfl, hb, hsp⟩
    · simp only [List.nil_append, h1]
      rw [parseVarGo.eq_def]
      have hb : isBlank c = false := by
        cases h : isBlank c
        · rfl
        · simp [isSpace, h] at h5
      simp only [h3, h4, hb, if_false, h2, Bool.false_eq_true]
      rw [take_prefix]; simp
    · have hnt : nextToken (sp ++ (op ++ rest)) = c :: p := by
        rw [nextToken_space hsp (by rw [h1]; intro x hx; simp at hx; rw [← hx]; exact h5), h1]
      have h3 : b ≠ '#' := by rintro rfl; simp [isBlank] at hb
      have h4 : b ≠ '$' := by rintro rfl; simp [isBlank] at hb
      simp only [List.nil_append, List.cons_append, List.append_assoc]
      rw [parseVarGo.eq_def]
      simp only [h3, h4, hb, if_false, if_true, hnt, h2]
      rw [take_prefix]; simp
  | @paren b s rest0 hm _ ih =>
    intro gap op rest pre f he hgap hop
    have := ih gap op rest (pre ++ '$' :: '(' :: b ++ [')']) f he hgap hop
    simp only [List.append_assoc, List.cons_append, List.nil_append] at this ⊢
    rw [parseVarGo.eq_def]
    simp only [show ¬ ('$' : Char) = '#' by decide, if_false, if_true]
    rw [skipVarRef_one (by decide) hm]
    exact this
  | @brace b s rest0 hm _ ih =>
    intro gap op rest pre f he hgap hop
    have := ih gap op rest (pre ++ '$' :: '{' :: b ++ ['}']) f he hgap hop
    simp only [List.append_assoc, List.cons_append, List.nil_append] at this ⊢
    rw [parseVarGo.eq_def]
    simp only [show ¬ ('$' : Char) = '#' by decide, show ¬ ('{' : Char) = '(' by decide, if_false, if_true]
    rw [skipVarRef_one (by decide) hm]
    exact this
  | @dollar c s rest0 h1 h2 _ ih =>
    intro gap op rest pre f he hgap hop
    have := ih gap op rest (pre ++ ['$', c]) f he hgap hop
    simp only [List.append_assoc, List.cons_append, List.nil_append] at this ⊢
    rw [parseVarGo.eq_def]
    simp only [show ¬ ('$' : Char) = '#' by decide, h1, h2, if_false, if_true]
    exact this
  | @char c s rest0 h1 h2 h3 h4 h5 _ ih =>
    intro gap op rest pre f he hgap hop
    have := ih gap op rest (pre ++ [c]) f he hgap hop
    simp only [List.append_assoc, List.cons_append, List.nil_append] at this ⊢
    rw [parseVarGo.eq_def]
    have ho : assignOp c (s ++ rest0) = none := assignOp_none.mpr ⟨by simpa using h5, h3⟩
    simp only [h1, h2, h4, if_false, Bool.false_eq_true, ho]
    exact this

theorem parseVarGo_sound : ∀ (k : Nat) (p : Str), p.length ≤ k → ∀ (pre : Str) (a : Assignment),
    parseVarGo (pre ++ p) p = some a →
    ∃ s rest, Parts p s a.flavor rest ∧ a.name = pre ++ s ∧ a.value = rest.dropWhile isSpace := by
  intro k
  induction k with
  | zero =>
    intro p hp pre a h
    cases p with
    | nil => rw [parseVarGo.eq_def] at h; simp at h
    | cons c p => simp at hp
  | succ k ih =>
    intro p hp pre a h
    cases p with
    | nil => rw [parseVarGo.eq_def] at h; simp at h
    | cons c p =>
      simp only [List.length_cons] at hp
      rw [parseVarGo.eq_def] at h
      simp only at h
      by_cases h1 : c = '#'
      · simp [h1] at h
      rw [if_neg h1] at h
      by_cases h2 : c = '$'
      · rw [if_pos h2] at h
        subst h2
        cases p with
        | nil => simp at h
        | cons d p =>
          simp only [List.length_cons] at hp
          simp only at h
          -- the three kinds of reference
          have ref : ∀ (o cl : Char), skipVarRef o cl 1 p ≠ [] →
              parseVarGo (pre ++ '$' :: d :: p) (skipVarRef o cl 1 p) = some a →
              ∃ b, Matched o cl b ∧ p = b ++ cl :: skipVarRef o cl 1 p ∧
              ∃ s rest, Parts (skipVarRef o cl 1 p) s a.flavor rest ∧
                a.name = (pre ++ '$' :: d :: b ++ [cl]) ++ s ∧ a.value = rest.dropWhile isSpace := by
            intro o cl hne hh
            obtain ⟨b, hb, he⟩ := skipVarRef_one_inv hne
            have hlen := skipVarRef_length o cl 1 p
            have e : pre ++ '$' :: d :: p = (pre ++ '$' :: d :: b ++ [cl]) ++ skipVarRef o cl 1 p := by
              conv => lhs; rw [he]
              simp
            rw [e] at hh
            exact ⟨b, hb, he, ih _ (by omega) _ _ hh⟩
          have nonempty : ∀ l q, parseVarGo l q = some a → q ≠ [] := by
            rintro l q hq rfl
            rw [parseVarGo.eq_def] at hq; simp at hq
          by_cases hd : d = '('
          · rw [if_pos hd] at h
            obtain ⟨b, hb, he, s, rest, ⟨gap, op, hp1, hp2, hp3, hp4⟩, hn, hv⟩ := ref _ _ (nonempty _ _ h) h
            refine ⟨'$' :: '(' :: b ++ ')' :: s, rest, ⟨gap, op, ?_, hp2, .paren hb hp3, hp4⟩, ?_, hv⟩
            · rw [hd, he, hp1]; simp
            · rw [hn, hd]; simp
          · rw [if_neg hd] at h
            by_cases hd2 : d = '{'
            · rw [if_pos hd2] at h
              obtain ⟨b, hb, he, s, rest, ⟨gap, op, hp1, hp2, hp3, hp4⟩, hn, hv⟩ := ref _ _ (nonempty _ _ h) h
              refine ⟨'$' :: '{' :: b ++ '}' :: s, rest, ⟨gap, op, ?_, hp2, .brace hb hp3, hp4⟩, ?_, hv⟩
              · rw [hd2, he, hp1]; simp
              · rw [hn, hd2]; simp
            · rw [if_neg hd2] at h
              have e : pre ++ '$' :: d :: p = (pre ++ ['$', d]) ++ p := by simp
              rw [e] at h
              obtain ⟨s, rest, ⟨gap, op, hp1, hp2, hp3, hp4⟩, hn, hv⟩ := ih p (by omega) _ _ h
              refine ⟨'$' :: d :: s, rest, ⟨gap, op, ?_, hp2, .dollar hd hd2 hp3, hp4⟩, ?_, hv⟩
              · rw [hp1]; simp
              · rw [hn]; simp
      · rw [if_neg h2] at h
        by_cases hb : isBlank c = true
        · rw [if_pos hb] at h
          rw [take_prefix] at h
          cases hnt : nextToken p with
          | nil => rw [hnt] at h; simp at h
          | cons c' p' =>
            rw [hnt] at h
            simp only at h
            cases ha : assignOp c' p' with
            | none => rw [ha] at h; simp at h
            | some q =>
              cases q with
              | none => rw [ha] at h; simp at h
              | some fr =>
                obtain ⟨f, rest⟩ := fr
                rw [ha] at h
                simp only [Option.some.injEq] at h
                subst h
                obtain ⟨op, hop, he⟩ := assignOp_inv ha
                refine ⟨[], rest, ⟨c :: p.takeWhile isSpace, op, ?_, Or.inr ⟨c, _, rfl, hb, fun x hx => mem_takeWhile_imp hx⟩, .nil, hop⟩, by simp, rfl⟩
                have := List.takeWhile_append_dropWhile (p := isSpace) (l := p)
                unfold nextToken at hnt
                rw [hnt, he] at this
                simp [this]
        · simp only [Bool.not_eq_true] at hb
          rw [hb] at h
          simp only [Bool.false_eq_true, if_false] at h
          rw [take_prefix] at h
          cases ha : assignOp c p with
          | none =>
            rw [ha] at h
            simp only at h
            have e : pre ++ c :: p = (pre ++ [c]) ++ p := by simp
            rw [e] at h
            obtain ⟨s, rest, ⟨gap, op, hp1, hp2, hp3, hp4⟩, hn, hv⟩ := ih p (by omega) _ _ h
            obtain ⟨hns, hcol⟩ := assignOp_none.mp ha
            refine ⟨c :: s, rest, ⟨gap, op, ?_, hp2, .char h2 h1 hcol hb ?_ hp3, hp4⟩, ?_, hv⟩
            · rw [hp1]; simp
            · rw [hp1] at hns; simpa using hns
            · rw [hn]; simp
          | some q =>
            cases q with
            | none => rw [ha] at h; simp at h
            | some fr =>
              obtain ⟨f, rest⟩ := fr
              rw [ha] at h
              simp only [Option.some.injEq] at h
              subst h
              obtain ⟨op, hop, he⟩ := assignOp_inv ha
              exact ⟨[], rest, ⟨[], op, by simp [he], Or.inl rfl, .nil, hop⟩, by simp, rfl⟩

theorem op_ne_nil {op : Str} {f : Flavor} (h : Op op f) : op ≠ [] := by cases h <;> simp

theorem parse_iff (line name : Str) (f : Flavor) (value : Str) :
    parseVariableDefinition line = some ⟨name, f, value⟩ ↔ IsAssignment line name f value := by
  constructor
  · intro h
    obtain ⟨s, rest, ⟨gap, op, hp, hg, hn, hop⟩, hname, hval⟩ :=
      parseVarGo_sound _ (nextToken line) (Nat.le_refl _) [] _ h
    simp only [List.nil_append] at hname
    subst hname
    refine ⟨line.takeWhile isSpace, gap, op, rest, ?_, fun x hx => mem_takeWhile_imp hx, ?_, hg, hn, hop, hval⟩
    · have := List.takeWhile_append_dropWhile (p := isSpace) (l := line)
      unfold nextToken at hp
      rw [hp] at this
      simpa [List.append_assoc] using this.symm
    · have hne : name ++ gap ++ op ≠ [] := by simp [op_ne_nil hop]
      cases hh : name ++ gap ++ op with
      | nil => exact absurd hh hne
      | cons c t =>
        rw [hh] at hp
        have h1 : line.dropWhile isSpace ≠ [] := by
          unfold nextToken at hp; rw [hp]; simp
        have := List.head_dropWhile_not isSpace h1
        have e : (line.dropWhile isSpace).head h1 = c := by
          have : (line.dropWhile isSpace).head? = some c := by unfold nextToken at hp; rw [hp]; rfl
          rw [List.head?_eq_some_head h1] at this
          exact Option.some.inj this
        rw [e] at this
        simp [this]
  · rintro ⟨lead, gap, op, rest, hl, hlead, hhead, hg, hn, hop, rfl⟩
    have hnt : nextToken line = name ++ (gap ++ op ++ rest) := by
      rw [hl]
      have e : lead ++ name ++ gap ++ op ++ rest = lead ++ (name ++ gap ++ op ++ rest) := by simp
      rw [e, nextToken_space hlead]
      · simp
      · intro c hc
        cases hh : name ++ gap ++ op with
        | nil => simp [op_ne_nil hop] at hh
        | cons d t =>
          rw [hh] at hc hhead
          simp at hc hhead
          rw [← hc]; exact hhead
    rw [parseVariableDefinition, hnt]
    exact parseVarGo_complete hn gap op rest [] f rfl hg hop

end Remake
