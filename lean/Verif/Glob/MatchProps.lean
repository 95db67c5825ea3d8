import Verif.Glob.MatchMain
import Verif.Glob.MatchSafe
/-! # Wildcards (C123) -/
set_option linter.unusedVariables false
namespace Remake
open Spec

/-- C123.  A name matches a pattern exactly when it can be cut into pieces, one for each part of the pattern: a character for itself,
any one character for `?`, one of the set for a bracket, any text for `*`; a period at the start is matched only by a period.

Partial: for patterns whose brackets have plain characters and upward ranges, and, if slashes are special, for names without
them.  See `C123_class`, `C123_bracket`, `C123_slash` and `C123_beyond` for what is wrong otherwise. -/
theorem C123_match_partial (fl : FnFlags) (period : Bool) (ps : List GItem) (hp : ∀ p ∈ ps, p.plain fl.noescape) (n : Str)
    (hn : fl.pathname = false ∨ '/' ∉ n) :
    ∃ b, fnmatch fl period (patText ps) n = some b ∧ (b = true ↔ Matches fl.pathname period period ps n) := by
  obtain ⟨b, h1, h2⟩ := fnmatchFrom_spec fl period _ ps (Nat.le_refl _) hp period true n hn
  exact ⟨b, h1, by simpa using h2⟩

/-- The pattern `[!a-cx]*\*?.o`. -/
def exGlobPat : List GItem :=
  [.set true [.range 'a' 'c', .ch 'x'], .star, .lit true '*', .any, .lit false '.', .lit false 'o']

example : patText exGlobPat = "[!a-cx]*\\*?.o".toList := rfl

example : ∀ p ∈ exGlobPat, p.plain false := by
  intro p hp
  simp [exGlobPat] at hp
  rcases hp with rfl | rfl | rfl | rfl | rfl | rfl <;>
    simp [GItem.plain, SetItem.plain, plainInSet] <;> decide

/-- The name `main**c.o` matches it: `*` stands for `ain*`. -/
example : Matches false true true exGlobPat "main**c.o".toList :=
  .set _ 'm' _ _ _ _ (by simp) (by decide) (by decide) (.star _ "ain*".toList _ _ (by simp) (by simp) (.lit _ _ _ _ _
    (.any _ 'c' _ _ (by simp) (by simp) (.lit _ _ _ _ _ (.lit _ _ _ _ _ (.nil _))))))

example : fnmatch {} true (patText exGlobPat) "main**c.o".toList = some true := by decide +kernel
example : fnmatch {} true (patText exGlobPat) "aain**c.o".toList = some false := by decide +kernel
/-- A period at the start is not matched by a bracket. -/
example : fnmatch {} true (patText exGlobPat) ".ain**c.o".toList = some false := by decide +kernel
example : fnmatch {} false (patText exGlobPat) ".ain**c.o".toList = some true := by decide +kernel

/-- C123.  A pattern that does not end with a colon is never read beyond its end, whatever it has. -/
theorem C123_safe_partial (fl : FnFlags) (period : Bool) (p : Str) (hp : p.getLast? ≠ some ':') (n : Str) :
    ∃ b, fnmatch fl period p n = some b := by
  have : fnmatch fl period p n ≠ none := fnmatchFrom_safe fl period _ p (Nat.le_refl _)
    (fun ⟨t, ht⟩ => hp (by rw [← ht]; simp)) _ _ _
  cases h : fnmatch fl period p n with
  | none => exact absurd h this
  | some b => exact ⟨b, rfl⟩

example : ("*[a[:b:c".toList).getLast? ≠ some ':' := by decide

/-- C123.  `*` alone matches every name that does not start with a period, and no other. -/
theorem C123_star (n : Str) : fnmatch {} true "*".toList n = some (decide (n.head? ≠ some '.')) := by
  obtain ⟨b, h1, h2⟩ := C123_match_partial {} true [.star] (by simp [GItem.plain]) n (Or.inl rfl)
  have h1' : fnmatch {} true "*".toList n = some b := h1
  rw [h1']
  congr 1
  rw [Bool.eq_iff_iff, h2]
  simp only [decide_eq_true_eq]
  constructor
  · intro h hd
    cases h with
    | star _ u _ v g1 g2 g => exact g2 ⟨rfl, hd⟩
  · intro h
    have := Matches.star (slashes := false) (period := true) true n [] [] (by simp) (by simpa using h) (.nil _)
    simpa using this

/-- C123.  A name whose characters are escaped is matched by itself alone, periods at the start too. -/
theorem C123_escaped (period : Bool) (s n : Str) : fnmatch {} period (s.flatMap fun c => ['\\', c]) n = some (decide (n = s)) := by
  obtain ⟨b, h1, h2⟩ := C123_match_partial {} period (s.map (GItem.lit true)) (by simp [GItem.plain]) n (Or.inl rfl)
  have ht : patText (s.map (GItem.lit true)) = s.flatMap fun c => ['\\', c] := by
    simp [patText, List.flatMap_map, GItem.text]
  rw [ht] at h1
  rw [h1]
  congr 1
  rw [Bool.eq_iff_iff, h2]
  simp only [decide_eq_true_eq]
  have : ∀ (s n : Str) (bar : Bool), Matches false period bar (s.map (GItem.lit true)) n ↔ n = s := by
    intro s
    induction s with
    | nil =>
      intro n bar
      exact ⟨fun h => by cases h; rfl, fun h => by subst h; exact .nil _⟩
    | cons c s ih =>
      intro n bar
      constructor
      · intro h
        cases h with
        | lit _ _ _ _ t h => rw [(ih t _).1 h]
      · rintro rfl
        exact .lit _ _ _ _ _ ((ih s _).2 rfl)
  exact this s n _

/-- The deviations with classes: after a class the colon counts as a character of the bracket, a class that comes after the
one that matches makes the whole fail, and `xdigit` is taken as too long for the name of a class. -/
theorem C123_class :
    fnmatch {} true "[[:alpha:]]".toList ":".toList = some true ∧
    fnmatch {} true "[[:alpha:][:digit:]]".toList "a".toList = some false ∧
    fnmatch {} true "[[:alpha:][:digit:]]".toList "1".toList = some true ∧
    fnmatch {} true "[[:xdigit:]]".toList "a".toList = some false := by decide +kernel

/-- The deviations with brackets: a closing bracket cannot be the first character of a set, and cannot be escaped (it is skipped after a match); an escaped backslash at the end
escapes the closing bracket too; an empty range has
its first end. -/
theorem C123_bracket :
    fnmatch {} true "[]a]".toList "]".toList = some false ∧
    fnmatch {} true "[\\]]".toList "]".toList = some false ∧
    fnmatch {} true "[\\]a]".toList "a".toList = some false ∧
    fnmatch {} true "[a\\]]".toList "a".toList = some true ∧
    fnmatch {} true "[\\\\]".toList "]".toList = some true ∧
    fnmatch {} true "[z-a]".toList "z".toList = some true := by decide +kernel

/-- The deviations where slashes are special: two stars before a slash miss an empty piece, and a period after a slash is hidden
or not, as there is a star before. -/
theorem C123_slash :
    fnmatch { pathname := true } true "*/b".toList "/b".toList = some true ∧
    fnmatch { pathname := true } true "**/b".toList "/b".toList = some false ∧
    fnmatch { pathname := true } true "ab/?c".toList "ab/.c".toList = some false ∧
    fnmatch { pathname := true } true "*b/?c".toList "ab/.c".toList = some true := by decide +kernel

/-- The deviation with a class that is not closed: the pattern `*[a[:b:` is read beyond its end. -/
theorem C123_beyond : fnmatch {} true "*[a[:b:".toList "a".toList = none := by decide +kernel

/-- The classes of characters (ISO C, in the C locale). -/
def Spec.classHas (name : String) (c : Char) : Bool :=
  let ascii := c.toNat < 128
  match name with
  | "alnum" => c.isAlphanum
  | "alpha" => c.isAlpha
  | "blank" => c == ' ' || c == '\t'
  | "cntrl" => ascii && (c.toNat < ' '.toNat || c.toNat == 127)
  | "digit" => c.isDigit
  | "graph" => ascii && ' '.toNat < c.toNat && c.toNat != 127
  | "lower" => c.isLower
  | "print" => ascii && ' '.toNat ≤ c.toNat && c.toNat != 127
  | "punct" => ascii && ' '.toNat < c.toNat && c.toNat != 127 && !c.isAlphanum
  | "space" => c == ' ' || ('\t'.toNat ≤ c.toNat && c.toNat ≤ '\r'.toNat)
  | "upper" => c.isUpper
  | _ => false

/-- The named classes that are not too long. -/
def Spec.classNames : List String :=
  ["alnum", "alpha", "blank", "cntrl", "digit", "graph", "lower", "print", "punct", "space", "upper"]

theorem char_le_nat (a b : Char) : a ≤ b ↔ a.toNat ≤ b.toNat := Iff.rfl

theorem inClass_spec : ∀ name ∈ classNames, ∀ c, inClass name.toList c = classHas name c := by
  intro name hn c
  have hc : ∀ d : Char, (c == d) = (c.toNat == d.toNat) := by
    intro d
    rw [Bool.eq_iff_iff]
    simp only [beq_iff_eq]
    exact ⟨fun h => by rw [h], fun h => Char.toNat_inj.1 h⟩
  have e : ∀ a b : UInt32, (a ≤ b) ↔ a.toNat ≤ b.toNat := fun _ _ => Iff.rfl
  have hv : c.val.toNat = c.toNat := rfl
  simp only [classNames, List.mem_cons, List.not_mem_nil, or_false] at hn
  rcases hn with rfl | rfl | rfl | rfl | rfl | rfl | rfl | rfl | rfl | rfl | rfl <;>
    (rw [Bool.eq_iff_iff]
     simp [inClass, classHas, Char.isAlphanum, Char.isAlpha, Char.isDigit, Char.isUpper, Char.isLower, hc, e, hv]
     try omega)

/-- C123.  A named class alone in a bracket stands for the characters of the class, and for the colon (which is wrong). -/
theorem C123_class_one_partial (name : String) (hn : name ∈ classNames) (c : Char) (period : Bool) (hd : ¬ (period = true ∧ c = '.')) :
    fnmatch {} period ("[[:".toList ++ name.toList ++ ":]]".toList) [c] = some (classHas name c || c == ':') := by
  have hcl := inClass_spec name hn c
  have hb : bracket {} c ("[:".toList ++ name.toList ++ ":]]".toList) = if classHas name c || c == ':' then .at [] else .noMatch := by
    have hname : className [] (name.toList ++ ":]]".toList) = .name name.toList [']'] := by
      simp only [classNames, List.mem_cons, List.not_mem_nil, or_false] at hn
      rcases hn with rfl | rfl | rfl | rfl | rfl | rfl | rfl | rfl | rfl | rfl | rfl <;> decide +kernel
    have hstep : bracketStep false c '[' (":".toList ++ (name.toList ++ ":]]".toList)) =
        if classHas name c then .hit ':' [']'] else .next ':' [']'] := by
      unfold bracketStep
      rw [if_neg (by decide), if_pos (by simp)]
      have ht : (":".toList ++ (name.toList ++ ":]]".toList)).tail = name.toList ++ ":]]".toList := by simp
      rw [ht, hname]
      simp only [hcl]
    have hskip : ∀ x, x ≠ ']' → skipMatched false (some x) [']'] = .at [] := by
      intro x hx
      exact skipMatched_plain false [] [] x hx (by simp)
    have hl : "[:".toList ++ name.toList ++ ":]]".toList = '[' :: (":".toList ++ (name.toList ++ ":]]".toList)) := by simp
    rw [hl, bracket]
    have hnot : bracketNot {} ('[' :: (":".toList ++ (name.toList ++ ":]]".toList))) = false := by simp [bracketNot]
    rw [hnot]
    simp only [Bool.false_eq_true, if_false, bracketBody]
    cases hh : classHas name c with
    | true =>
      rw [hh, if_pos rfl] at hstep
      rw [bracketLoop.eq_def, hstep]
      simp only [Bool.true_or, if_true]
      rw [hskip ':' (by decide)]
    | false =>
      rw [hh, if_neg (by decide)] at hstep
      rw [bracketLoop.eq_def, hstep]
      simp only [Bool.false_or]
      rw [bracketLoop.eq_def]
      have h2 : bracketStep false c ':' [']'] = if ':' = c then .hit ':' [']'] else .miss [] := by
        unfold bracketStep
        rw [if_neg (by decide), if_neg (by decide)]
        unfold bracketChar
        by_cases h : ':' = c
        · rw [if_pos h, if_pos h]
        · rw [if_neg h, if_neg h, if_neg (by decide)]; rfl
      by_cases h : ':' = c
      · rw [if_pos h] at h2
        rw [h2, if_pos (by simp [h.symm])]
        simp only [hskip ':' (by decide)]
      · rw [if_neg h] at h2
        rw [h2, if_neg (by simpa using fun e : c = ':' => h e.symm)]
  have hl : "[[:".toList ++ name.toList ++ ":]]".toList = '[' :: ("[:".toList ++ name.toList ++ ":]]".toList) := by simp
  rw [fnmatch, hl, fnmatchFrom_bracket, hb]
  rw [if_neg (by simpa using fun h1 h2 => hd ⟨h1, h2⟩)]
  cases classHas name c || c == ':'
  · rfl
  · simp only [if_true]
    rw [fnmatchFrom.eq_def]; rfl

example : fnmatch {} true "[[:punct:]]".toList "_".toList = some true := C123_class_one_partial "punct" (by decide) '_' true (by decide)
example : fnmatch {} true "[[:space:]]".toList "a".toList = some false := C123_class_one_partial "space" (by decide) 'a' true (by decide)

/-- C123.  `^` negates a bracket as `!` does, whatever is in it, unless `POSIXLY_CORRECT` is set. -/
theorem C123_caret (fl : FnFlags) (hf : fl.posixly = false) (period : Bool) (p n : Str) :
    fnmatch fl period ('[' :: '^' :: p) n = fnmatch fl period ('[' :: '!' :: p) n := by
  rw [fnmatch, fnmatch]
  cases n with
  | nil => rw [fnmatchFrom.eq_def]; conv => rhs; rw [fnmatchFrom.eq_def]
           simp
  | cons x n =>
    rw [fnmatchFrom_bracket, fnmatchFrom_bracket]
    have : bracket fl x ('^' :: p) = bracket fl x ('!' :: p) := by
      simp [bracket, bracketNot, hf]
    rw [this]

example : fnmatch {} true "[^a-c]".toList "d".toList = some true := by
  rw [show "[^a-c]".toList = '[' :: '^' :: "a-c]".toList from rfl, C123_caret {} rfl]; decide +kernel
example : fnmatch { posixly := true } true "[^a-c]".toList "^".toList = some true := by decide +kernel

/-- Characters with backslashes. -/
def Spec.escapeAll (cs : Str) : Str := cs.flatMap fun d => ['\\', d]

theorem escapeAll_cons (c : Char) (cs : Str) : escapeAll (c :: cs) = '\\' :: c :: escapeAll cs := rfl

theorem skipMatched_escaped (rest : Str) : ∀ (cs : Str) (c : Char), c ≠ ']' → skipMatched false (some c) (escapeAll cs ++ ']' :: rest) = .at rest
  | [], c, hc => skipMatched_plain false rest [] c hc (by simp)
  | d :: cs, c, hc => by
    rw [skipMatched.eq_def]
    simp only [Option.some.injEq, hc, if_false, reduceCtorEq, escapeAll_cons, List.cons_append]
    rw [if_pos (by simp)]
    exact skipMatched_escaped rest cs '\\' (by decide)

theorem bracketLoop_escaped (x : Char) (rest : Str) : ∀ (cs : Str) (c : Char), (∀ d ∈ c :: cs, d ≠ ']' ∧ d ≠ '\\') →
    (x ∈ c :: cs → ∃ d p, bracketLoop false x '\\' (c :: (escapeAll cs ++ ']' :: rest)) = .hit d (escapeAll p ++ ']' :: rest) ∧ d ≠ ']') ∧
    (x ∉ c :: cs → bracketLoop false x '\\' (c :: (escapeAll cs ++ ']' :: rest)) = .miss rest)
  | cs, c, hc => by
    obtain ⟨hc1, hc2⟩ := hc c (by simp)
    have hstep : bracketStep false x '\\' (c :: (escapeAll cs ++ ']' :: rest)) =
        if c = x then .hit c (escapeAll cs ++ ']' :: rest) else .next c (escapeAll cs ++ ']' :: rest) := by
      unfold bracketStep
      rw [if_pos (by simp)]
      by_cases h : c = x
      · simp [h]
      · simp [h, hc1]
    by_cases h : c = x
    · rw [if_pos h] at hstep
      refine ⟨fun _ => ⟨c, cs, ?_, hc1⟩, fun hn => absurd (by simp [h]) hn⟩
      rw [bracketLoop.eq_def, hstep]
    · rw [if_neg h] at hstep
      have hhead : (escapeAll cs ++ ']' :: rest).head? ≠ some ':' ∧ (escapeAll cs ++ ']' :: rest).head? ≠ some '-' := by
        cases cs with
        | nil => simp [escapeAll]
        | cons d cs => simp [escapeAll]
      have hstep2 : bracketStep false x c (escapeAll cs ++ ']' :: rest) = bracketNext (escapeAll cs ++ ']' :: rest) := by
        unfold bracketStep
        rw [if_neg (by simp [hc2]), if_neg (fun g => hhead.1 g.2)]
        unfold bracketChar
        rw [if_neg h, if_neg (fun g => hhead.2 g.1)]
      have hl : bracketLoop false x '\\' (c :: (escapeAll cs ++ ']' :: rest)) = bracketLoop false x c (escapeAll cs ++ ']' :: rest) := by
        rw [bracketLoop.eq_def, hstep]
      rw [hl]
      cases cs with
      | nil =>
        have hb : bracketNext (escapeAll [] ++ ']' :: rest) = .miss rest := bracketNext_close rest
        rw [hb] at hstep2
        refine ⟨fun hm => ?_, fun _ => ?_⟩
        · simp at hm; exact absurd hm.symm h
        · rw [bracketLoop.eq_def, hstep2]
      | cons d cs =>
        have hb : bracketNext (escapeAll (d :: cs) ++ ']' :: rest) = .next '\\' (d :: (escapeAll cs ++ ']' :: rest)) := by
          simp [bracketNext, escapeAll_cons]
        rw [hb] at hstep2
        have hl2 : bracketLoop false x c (escapeAll (d :: cs) ++ ']' :: rest) = bracketLoop false x '\\' (d :: (escapeAll cs ++ ']' :: rest)) := by
          rw [bracketLoop.eq_def, hstep2]
        rw [hl2]
        have hx : x ∈ c :: d :: cs ↔ x ∈ d :: cs := by
          simp only [List.mem_cons]
          exact ⟨fun g => g.resolve_left fun e => h e.symm, .inr⟩
        rw [hx]
        exact bracketLoop_escaped x rest cs d fun y hy => hc y (by simp only [List.mem_cons] at hy ⊢; exact .inr hy)

/-- C123.  Escaped characters in a bracket stand for themselves: also `-`, `[`, `!` and `^`. -/
theorem C123_set_escaped_partial (c : Char) (cs : Str) (hc : ∀ d ∈ c :: cs, d ≠ ']' ∧ d ≠ '\\') (x : Char) (period : Bool)
    (hd : ¬ (period = true ∧ x = '.')) :
    fnmatch {} period ('[' :: escapeAll (c :: cs) ++ [']']) [x] = some (decide (x ∈ c :: cs)) ∧
    fnmatch {} period ('[' :: '!' :: escapeAll (c :: cs) ++ [']']) [x] = some (decide (x ∉ c :: cs)) := by
  have hend : ∀ nlp lead, fnmatchFrom {} period nlp lead [] [] = some true := by
    intro nlp lead; rw [fnmatchFrom.eq_def]; rfl
  have hdot : ¬ ((({} : FnFlags).pathname && x == '/') || (period && true && some x == some '.')) = true := by
    simpa using fun h1 h2 => hd ⟨h1, h2⟩
  obtain ⟨q1, q2⟩ := bracketLoop_escaped x [] cs c hc
  have hbody : ∀ neg, bracketBody false neg x (escapeAll (c :: cs) ++ [']']) =
      if (decide (x ∈ c :: cs)) = neg then .noMatch else .at [] := by
    intro neg
    rw [escapeAll_cons, List.cons_append, List.cons_append, bracketBody]
    by_cases hx : x ∈ c :: cs
    · obtain ⟨d, p, e1, e2⟩ := q1 hx
      rw [e1]
      simp only [skipMatched_escaped [] p d e2, hx, decide_true]
      cases neg <;> rfl
    · rw [q2 hx]
      simp only [hx, decide_false]
      cases neg <;> rfl
  constructor
  · rw [fnmatch, List.cons_append, fnmatchFrom_bracket, if_neg hdot]
    have : bracket {} x (escapeAll (c :: cs) ++ [']']) = bracketBody false false x (escapeAll (c :: cs) ++ [']']) := by
      simp [bracket, bracketNot, escapeAll_cons]
    rw [this, hbody]
    by_cases hx : x ∈ c :: cs
    · simp only [hx, decide_true]; exact hend _ _
    · simp only [hx, decide_false]; rfl
  · rw [fnmatch, List.cons_append, fnmatchFrom_bracket, if_neg hdot]
    have : bracket {} x ('!' :: escapeAll (c :: cs) ++ [']']) = bracketBody false true x (escapeAll (c :: cs) ++ [']']) := by
      simp [bracket, bracketNot, escapeAll_cons]
    rw [this, hbody]
    by_cases hx : x ∈ c :: cs
    · simp only [hx, decide_true]; rfl
    · simp only [hx, decide_false]; exact hend _ _

example : fnmatch {} true "[\\-\\!\\[]".toList "[".toList = some true := (C123_set_escaped_partial '-' ['!', '['] (by decide) '[' true (by decide)).1

/-- C123.  The end of a range may be escaped. -/
theorem C123_range_escaped (a b x : Char) (ha : plainInSet a) (ha2 : a.toNat < 128) (hab : a ≤ b) (hn : a ≠ '!' ∧ a ≠ '^')
    (period : Bool) (hd : ¬ (period = true ∧ x = '.')) :
    fnmatch {} period ['[', a, '-', '\\', b, ']'] [x] = some (decide (a ≤ x ∧ x ≤ b)) := by
  have hdot : ¬ ((({} : FnFlags).pathname && x == '/') || (period && true && some x == some '.')) = true := by
    simpa using fun h1 h2 => hd ⟨h1, h2⟩
  have hend : ∀ nlp lead, fnmatchFrom {} period nlp lead [] [] = some true := by
    intro nlp lead; rw [fnmatchFrom.eq_def]; rfl
  have hle : coldLe a x = decide (a ≤ x) := by simp [coldLe]; omega
  simp [plainInSet] at ha
  have hstep : bracketStep false x a ['-', '\\', b, ']'] = if a = x then .hit a ['-', '\\', b, ']'] else
      if a ≤ x ∧ x ≤ b then .hit '-' [']'] else .miss [] := by
    unfold bracketStep
    rw [if_neg (by simp [ha]), if_neg (by simp [ha])]
    unfold bracketChar
    by_cases h : a = x
    · rw [if_pos h, if_pos h]
    · rw [if_neg h, if_neg h, if_pos (by simp)]
      simp only [List.tail_cons]
      rw [if_pos (by simp), bracketRange, hle]
      by_cases h2 : a ≤ x ∧ x ≤ b
      · rw [if_pos (by simpa using h2), if_pos h2]
      · rw [if_neg (by simpa using h2), if_neg h2]; rfl
  rw [fnmatch, fnmatchFrom_bracket, if_neg hdot]
  have hnot : bracket {} x [a, '-', '\\', b, ']'] = bracketBody false false x [a, '-', '\\', b, ']'] := by
    have h1 : (a == '!') = false := by simp [hn]
    have h2 : (a == '^') = false := by simp [hn]
    simp [bracket, bracketNot, h1, h2]
  have hsk : skipMatched false (some a) ['-', '\\', b, ']'] = .at [] := by
    rw [skipMatched.eq_def]
    simp only [Option.some.injEq, ha.1, if_false, reduceCtorEq]
    rw [if_neg (by simp), if_neg (by simp)]
    exact skipMatched_escaped [] [b] '-' (by decide)
  rw [hnot, bracketBody]
  by_cases h : a = x
  · rw [if_pos h] at hstep
    rw [bracketLoop.eq_def, hstep]
    simp only [hsk]
    subst h
    rw [show decide (a ≤ a ∧ a ≤ b) = true from decide_eq_true ⟨Nat.le_refl _, hab⟩]
    exact hend _ _
  · rw [if_neg h] at hstep
    by_cases h2 : a ≤ x ∧ x ≤ b
    · rw [if_pos h2] at hstep
      rw [bracketLoop.eq_def, hstep]
      have : skipMatched false (some '-') [']'] = .at [] := skipMatched_plain false [] [] '-' (by decide) (by simp)
      simp only [this]
      rw [decide_eq_true h2]
      exact hend _ _
    · rw [if_neg h2] at hstep
      rw [bracketLoop.eq_def, hstep]
      rw [decide_eq_false h2]
      rfl

example : fnmatch {} true "[a-\\-]".toList "b".toList = some false := by decide +kernel
example : fnmatch {} true "[a-\\z]".toList "b".toList = some true :=
  C123_range_escaped 'a' 'z' 'b' (by simp [plainInSet]) (by decide) (by decide) (by decide) true (by decide)

/-- C123.  Where slashes are special, a slash is not matched by `?`, by a bracket or by `*` alone, whatever follows. -/
theorem C123_slash_only (fl : FnFlags) (hf : fl.pathname = true) (period : Bool) (p n : Str) :
    fnmatch fl period ('?' :: p) ('/' :: n) = some false ∧
    fnmatch fl period ('[' :: p) ('/' :: n) = some false ∧
    ('/' ∈ n → fnmatch fl period ['*'] n = some false) := by
  refine ⟨?_, ?_, ?_⟩
  · rw [fnmatch, fnmatchFrom.eq_def]; simp [hf]
  · rw [fnmatch, fnmatchFrom_bracket]; simp [hf]
  · intro hn
    rw [fnmatch, fnmatchFrom_star]
    split
    · rfl
    · simp only [starLoop]
      have : (n.any fun x => fl.pathname && x == '/') = true := by
        rw [List.any_eq_true]; exact ⟨'/', hn, by simp [hf]⟩
      rw [this]; rfl

end Remake
