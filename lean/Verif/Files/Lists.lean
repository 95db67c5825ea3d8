import Verif.Files.Names
import Verif.Quote.Lemmas
/-! Lemmas about lists of file names. -/
set_option linter.unusedSimpArgs false
namespace Remake
open Spec

/-! ## One word -/

theorem goPlain {find : Char → Bool} {c : Char} (h : find c = false) (rev cs : Str) :
    findMapUnquoteGo find false rev (c :: cs) = findMapUnquoteGo find false (c :: rev) cs := by
  rw [findMapUnquoteGo.eq_def]
  simp [h]

theorem goStop {find : Char → Bool} {c : Char} (h : find c = true) (rev cs : Str) :
    findMapUnquoteGo find false rev (c :: cs) =
      if bsCount rev = 0 then .found rev.reverse c cs
      else if bsCount rev % 2 = 0 then .found (halveBs rev).reverse c cs
      else findMapUnquoteGo find false (c :: halveBs rev) cs := by
  rw [findMapUnquoteGo.eq_def]
  simp [h]

theorem goBs {find : Char → Bool} (h : find '\\' = false) : ∀ (k : Nat) (rev rest : Str),
    findMapUnquoteGo find false rev (List.replicate k '\\' ++ rest) =
      findMapUnquoteGo find false (List.replicate k '\\' ++ rev) rest
  | 0, rev, rest => by simp
  | k + 1, rev, rest => by
    rw [List.replicate_succ, List.cons_append, goPlain h, goBs h k]
    rw [← List.singleton_append, ← List.append_assoc, ← List.replicate_succ', List.replicate_succ]

/-- The result of the search when the word is `w` and the text goes on with `rest`. -/
def wordResult (rev w : Str) : Str → Unq
  | [] => .none (rev.reverse ++ w)
  | c :: r => .found (rev.reverse ++ w) c r

/-- What may follow a word: a special character, or the end of the text. -/
def Follows (find : Char → Bool) (e : Bool) (rest : Str) : Prop :=
  (e = false ∧ ∃ c r, rest = c :: r ∧ find c = true) ∨ (e = true ∧ rest = [])

theorem quoted_go {find : Char → Bool} (hb : find '\\' = false) {e : Bool} {t w : Str}
    (h : Quoted find e t w) : ∀ {rest : Str}, Follows find e rest → ∀ rev : Str,
      rev.head? ≠ some '\\' →
      findMapUnquoteGo find false rev (t ++ rest) = wordResult rev w rest := by
  induction h with
  | nil =>
    intro rest hf rev hr
    rcases hf with ⟨-, c, r, rfl, hc⟩ | ⟨-, rfl⟩
    · have : bsCount rev = 0 := by
        have := bsCount_replicate_append (n := 0) hr
        simpa using this
      rw [List.nil_append, goStop hc, if_pos this]
      simp [wordResult]
    · rw [findMapUnquoteGo.eq_def]; simp [wordResult]
  | @char e k c t w h1 h2 hq ih =>
    intro rest hf rev hr
    rw [List.append_assoc, goBs hb, List.cons_append, goPlain h1, ih hf _ (by simpa using h2)]
    cases rest <;> simp [wordResult]
  | @quoted e k c t w h1 hq ih =>
    intro rest hf rev hr
    have hc : c ≠ '\\' := by rintro rfl; rw [hb] at h1; cases h1
    rw [List.append_assoc, goBs hb, List.cons_append, goStop h1, bsCount_replicate_append hr,
      halveBs_replicate_append hr, if_neg (by omega), if_neg (by omega),
      ih hf _ (by simpa using hc)]
    have : (2 * k + 1) / 2 = k := by omega
    cases rest <;> simp [wordResult, this]
  | @mid k =>
    intro rest hf rev hr
    rcases hf with ⟨-, c, r, rfl, hc⟩ | ⟨h, -⟩
    · rw [goBs hb, goStop hc, bsCount_replicate_append hr, halveBs_replicate_append hr]
      have : 2 * k / 2 = k := by omega
      split
      · have : k = 0 := by omega
        subst this; simp [wordResult]
      · rw [if_pos (by omega), this]; simp [wordResult]
    · cases h
  | @atEnd k =>
    intro rest hf rev hr
    rcases hf with ⟨h, -⟩ | ⟨-, rfl⟩
    · cases h
    · rw [goBs hb, findMapUnquoteGo.eq_def]; simp [wordResult]

theorem seqWord_quoted {find : Char → Bool} (hb : find '\\' = false) {e : Bool} {t w rest : Str}
    (h : Quoted find e t w) (hf : Follows find e rest) : seqWord find (t ++ rest) = (w, rest) := by
  unfold seqWord findMapUnquote
  rw [quoted_go hb h hf [] (by simp)]
  cases rest <;> simp [wordResult]

/-! ## The loop -/

theorem nextToken_spaces {sp rest : Str} (h : Spaces sp) : nextToken (sp ++ rest) = nextToken rest := by
  unfold nextToken
  induction sp with
  | nil => rfl
  | cons c cs ih =>
    rw [List.cons_append, List.dropWhile_cons_of_pos (h c (by simp))]
    exact ih fun x hx => h x (by simp [hx])

theorem nextToken_begin {c : Char} {cs : Str} (h : isSpace c = false) :
    nextToken (c :: cs) = c :: cs := by
  unfold nextToken
  rw [List.dropWhile_cons_of_neg (by simp [h])]

theorem stripSeq_suffix (s : Str) : stripSeq s <:+ s := by
  generalize hn : s.length = n
  induction n using Nat.strongRecOn generalizing s with
  | _ n ih =>
    by_cases h : ['.', '/'] <+: s
    · obtain ⟨t, rfl⟩ := h
      cases t with
      | nil => rw [List.append_nil, strip_two.1]; exact List.suffix_refl _
      | cons c t =>
        simp only [List.cons_append, List.nil_append] at *
        have := dropSlashes_length (c :: t)
        rw [stripSeq_dot]
        have h2 := ih _ (by simp at hn this ⊢; omega) (dropSlashes (c :: t)) rfl
        have h3 : dropSlashes (c :: t) <:+ c :: t := List.dropWhile_suffix _
        exact (h2.trans h3).trans ⟨['.', '/'], rfl⟩
    · rw [(strip_other h).1]; exact List.suffix_refl _

theorem mem_seqName {c : Char} {w : Str} (hc : c ≠ '.' ∧ c ≠ '/') (h : c ∉ w) : c ∉ seqName w := by
  unfold seqName
  split
  · simp [hc]
  · exact fun h' => h ((stripSeq_suffix w).subset h')

theorem seqName_ne_nil (w : Str) : seqName w ≠ [] := by
  unfold seqName
  split
  · simp
  · assumption

theorem parseSeq_end {env : FsEnv} {flags : SeqFlags} {pfx : Option Str} {stop : Char → Bool}
    {grp : Option Str} {p : Str} (h : nextToken p = []) :
    parseSeqGo env flags pfx stop grp p = some ([], []) := by
  rw [parseSeqGo.eq_def]
  split
  · rfl
  · rename_i h'; rw [h] at h'; cases h'

theorem parseSeq_stop {env : FsEnv} {flags : SeqFlags} {pfx : Option Str} {stop : Char → Bool}
    {grp : Option Str} {p cs : Str} {c : Char} (h : nextToken p = c :: cs) (hs : stop c = true) :
    parseSeqGo env flags pfx stop grp p = some ([], c :: cs) := by
  rw [parseSeqGo.eq_def]
  split
  · rename_i h'; rw [h] at h'; cases h'
  · rename_i h'; rw [h] at h'; cases h'; simp [hs]

/-- One step of the loop, as a function of the names found in the rest. -/
def consNames (names : Option (List Str)) (r : Option (List Str × Str)) :
    Option (List Str × Str) :=
  match names, r with
  | some names, some r => some (names ++ r.1, r.2)
  | _, _ => none

theorem parseSeq_word {env : FsEnv} {pfx : Option Str} {flags : SeqFlags} {stop : Char → Bool}
    {grp : Option Str} {p cs : Str} {c : Char} (h : nextToken p = c :: cs) (hs : stop c = false)
    {w rest : Str} (hw : seqWord (findMap flags stop) (c :: cs) = (w, rest)) :
    parseSeqGo env flags pfx stop grp p =
      (let g := groupOpen (findMap flags stop) flags grp (if flags.nostrip then w else seqName w) rest
       let e := groupElement g.1 g.2
       match e.2 with
       | none => parseSeqGo env flags pfx stop e.1 rest
       | some x => consNames (elementNames env flags pfx x) (parseSeqGo env flags pfx stop e.1 rest)) := by
  rw [parseSeqGo.eq_def]
  split
  · rename_i h'; rw [h] at h'; cases h'
  · rename_i h'; rw [h] at h'; cases h'
    simp only [hs, Bool.false_eq_true, dite_false, hw]
    split
    · simp_all
    · simp_all [consNames]; rfl

theorem parseSeq_plain {env : FsEnv} {pfx : Option Str} {stop : Char → Bool}
    {p cs : Str} {c : Char} (h : nextToken p = c :: cs) (hs : stop c = false)
    {w rest : Str} (hw : seqWord (findMap {} stop) (c :: cs) = (w, rest)) (hp : '(' ∉ w) :
    parseSeqGo env {} pfx stop none p =
      consNames (elementNames env {} pfx (seqName w)) (parseSeqGo env {} pfx stop none rest) := by
  rw [parseSeq_word h hs hw]
  have h1 : '(' ∉ seqName w := mem_seqName (by decide) hp
  simp [groupOpen, h1, groupElement, seqName_ne_nil]

/-- The names that a list of words stands for. -/
def collect (env : FsEnv) (pfx : Option Str) : List Str → Option (List Str)
  | [] => some []
  | w :: ws =>
    match elementNames env {} pfx (seqName w), collect env pfx ws with
    | some a, some b => some (a ++ b)
    | _, _ => none

/-- What may follow a list: the stop character, or the end. -/
def StopsAt (stop : Char → Bool) (e : Bool) (rest : Str) : Prop :=
  (e = false ∧ ∃ c r, rest = c :: r ∧ stop c = true ∧ isSpace c = false) ∨ (e = true ∧ rest = [])

theorem StopsAt.follows {stop : Char → Bool} {e : Bool} {rest : Str} (h : StopsAt stop e rest) :
    Follows (findMap {} stop) e rest := by
  rcases h with ⟨h1, c, r, h2, h3, -⟩ | h
  · exact .inl ⟨h1, c, r, h2, by simp [findMap, h3]⟩
  · exact .inr h

theorem StopsAt.parse {env : FsEnv} {pfx : Option Str} {stop : Char → Bool} {e : Bool}
    {sp rest : Str} (h : StopsAt stop e rest) (hsp : Spaces sp) :
    parseSeqGo env {} pfx stop none (sp ++ rest) = some ([], rest) := by
  rcases h with ⟨h1, c, r, rfl, h3, h4⟩ | ⟨-, rfl⟩
  · exact parseSeq_stop (by rw [nextToken_spaces hsp, nextToken_begin h4]) h3
  · exact parseSeq_end (by rw [nextToken_spaces hsp]; rfl)

/-- The first character of the text of a word does not stop the list. -/
theorem quoted_head {find : Char → Bool} (hb : find '\\' = false) {e : Bool} {c : Char} {t w : Str}
    (h : Quoted find e (c :: t) w) : find c = false := by
  generalize hs : c :: t = s at h
  cases h with
  | nil => cases hs
  | @char _ k d t w h1 h2 hq =>
    cases k with
    | zero => simp at hs; rw [hs.1]; exact h1
    | succ k => rw [List.replicate_succ] at hs; simp at hs; rw [hs.1]; exact hb
  | @quoted _ k d t w h1 hq =>
    rw [List.replicate_succ] at hs; simp at hs; rw [hs.1]; exact hb
  | @mid k =>
    cases k with
    | zero => cases hs
    | succ k =>
      rw [show 2 * (k + 1) = (2 * k + 1) + 1 by omega, List.replicate_succ] at hs
      simp at hs; rw [hs.1]; exact hb
  | @atEnd k =>
    cases k with
    | zero => cases hs
    | succ k => rw [List.replicate_succ] at hs; simp at hs; rw [hs.1]; exact hb

theorem parse_one {env : FsEnv} {pfx : Option Str} {stop : Char → Bool} (hb : stop '\\' = false)
    {e : Bool} {sp t w rest : Str} (hsp : Spaces sp) (ht : Begins t)
    (hq : Quoted (findMap {} stop) e t w) (hf : Follows (findMap {} stop) e rest) (hw : '(' ∉ w) :
    parseSeqGo env {} pfx stop none (sp ++ t ++ rest) =
      consNames (elementNames env {} pfx (seqName w)) (parseSeqGo env {} pfx stop none rest) := by
  obtain ⟨c, cs, rfl, hc⟩ := ht
  have hb' : findMap {} stop '\\' = false := by simp [findMap, hb, isBlank]
  have hq1 := quoted_head hb' hq
  have hs : stop c = false := by
    cases hsc : stop c with
    | false => rfl
    | true => simp [findMap, hsc] at hq1
  refine parseSeq_plain (c := c) (cs := cs ++ rest) ?_ hs ?_ hw
  · rw [List.append_assoc, nextToken_spaces hsp, List.cons_append, nextToken_begin hc]
  · rw [← List.cons_append]
    exact seqWord_quoted hb' hq hf

theorem parse_listing {env : FsEnv} {pfx : Option Str} {stop : Char → Bool} (hb : stop '\\' = false)
    {e : Bool} {ws : List Str} {text : Str} (h : Listing (findMap {} stop) e ws text) :
    ∀ {rest : Str}, StopsAt stop e rest → (∀ w ∈ ws, '(' ∉ w) → ∀ sp, Spaces sp →
      parseSeqGo env {} pfx stop none (sp ++ (text ++ rest)) =
        (collect env pfx ws).map (·, rest) := by
  induction h with
  | @nil sp1 h1 =>
    intro rest hr _ sp hsp
    rw [← List.append_assoc, hr.parse]
    · simp [collect]
    · intro c hc; rcases List.mem_append.1 hc with hc | hc
      · exact hsp c hc
      · exact h1 c hc
  | @last sp1 t w h1 h2 h3 =>
    intro rest hr hw sp hsp
    have : sp ++ (sp1 ++ t ++ rest) = (sp ++ sp1) ++ t ++ rest := by simp
    rw [this, parse_one hb ?_ h2 h3 hr.follows (hw w (by simp))]
    · have h4 := hr.parse (env := env) (pfx := pfx) (sp := []) (by intro c hc; cases hc)
      rw [List.nil_append] at h4
      rw [h4]
      unfold collect consNames collect
      cases elementNames env {} pfx (seqName w) <;> simp
    · intro c hc; rcases List.mem_append.1 hc with hc | hc
      · exact hsp c hc
      · exact h1 c hc
  | @cons sp1 t w r b ws h1 h2 h3 h4 hl ih =>
    intro rest hr hw sp hsp
    have : sp ++ (sp1 ++ t ++ b :: r ++ rest) = (sp ++ sp1) ++ t ++ (b :: (r ++ rest)) := by simp
    rw [this, parse_one hb ?_ h2 h3 (.inl ⟨rfl, b, _, rfl, by simp [findMap, h4]⟩) (hw w (by simp))]
    · have h5 := ih hr (fun x hx => hw x (by simp [hx])) [b] (by
        intro c hc; simp at hc; subst hc; simp [isSpace, h4])
      rw [List.singleton_append] at h5
      rw [h5]
      conv => rhs; unfold collect
      unfold consNames
      cases elementNames env {} pfx (seqName w) <;> cases collect env pfx ws <;> simp
    · intro c hc; rcases List.mem_append.1 hc with hc | hc
      · exact hsp c hc
      · exact h1 c hc

theorem dropWhile_paren {n : Str} (h : '(' ∉ n) : n.dropWhile (· ≠ '(') = [] := by
  induction n with
  | nil => rfl
  | cons x xs ih =>
    have : x ≠ '(' := by rintro rfl; exact h (by simp)
    rw [List.dropWhile_cons_of_pos (by simpa using this)]
    exact ih fun h' => h (by simp [h'])

/-- A plain name stands for itself. -/
theorem elementNames_plain {env : FsEnv} {w : Str} (h : PlainWord w) :
    elementNames env {} none (seqName w) = some [lookupName w] := by
  obtain ⟨h1, h2, h3, h4, h5⟩ := h
  have g1 : '(' ∉ seqName w := mem_seqName (by decide) h1
  have g2 : '~' ∉ seqName w := mem_seqName (by decide) h2
  have g3 : '?' ∉ seqName w := mem_seqName (by decide) h3
  have g4 : '*' ∉ seqName w := mem_seqName (by decide) h4
  have g5 : '[' ∉ seqName w := mem_seqName (by decide) h5
  rw [← seqName_eq_lookup]
  generalize seqName w = n at *
  have g6 : n.head? ≠ some '~' := fun h => g2 (List.mem_of_mem_head? h)
  have g7 : arName n = .no := by
    have := dropWhile_paren g1
    unfold arName
    rw [this]
  have g8 : n.any (fun c => c == '?' || c == '*' || c == '[') = false := by
    rw [List.any_eq_false]
    intro x hx
    have h1 : x ≠ '?' := by rintro rfl; exact g3 hx
    have h2 : x ≠ '*' := by rintro rfl; exact g4 hx
    have h3 : x ≠ '[' := by rintro rfl; exact g5 hx
    simp [h1, h2, h3]
  unfold elementNames
  simp only [g6, g7, g8, if_false, Bool.false_eq_true, Bool.not_false, Bool.and_self, if_true,
    Option.getD_none, List.map_cons, List.map_nil, List.nil_append]

theorem collect_plain {env : FsEnv} {ws : List Str} (h : ∀ w ∈ ws, PlainWord w) :
    collect env none ws = some (ws.map lookupName) := by
  induction ws with
  | nil => rfl
  | cons w ws ih =>
    rw [collect, elementNames_plain (h w (by simp)), ih fun x hx => h x (by simp [hx])]
    simp

/-! ## Every text is a list -/

theorem leading_run (s : Str) :
    ∃ k rest, s = List.replicate k '\\' ++ rest ∧ rest.head? ≠ some '\\' := by
  induction s with
  | nil => exact ⟨0, [], rfl, by simp⟩
  | cons c cs ih =>
    by_cases h : c = '\\'
    · obtain ⟨k, rest, rfl, hr⟩ := ih
      exact ⟨k + 1, rest, by rw [h, List.replicate_succ]; rfl, hr⟩
    · exact ⟨0, c :: cs, rfl, by simpa using h⟩

theorem quoted_exists {find : Char → Bool} (s : Str) :
    ∃ e t w rest, s = t ++ rest ∧ Quoted find e t w ∧ Follows find e rest := by
  generalize hn : s.length = n
  induction n using Nat.strongRecOn generalizing s with
  | _ n ih =>
    obtain ⟨k, r, rfl, hr⟩ := leading_run s
    cases r with
    | nil => exact ⟨true, _, _, [], by simp, .atEnd (k := k), .inr ⟨rfl, rfl⟩⟩
    | cons c r =>
      have hc : c ≠ '\\' := by simpa using hr
      cases hf : find c with
      | true =>
        by_cases hk : k % 2 = 0
        · refine ⟨false, List.replicate (2 * (k / 2)) '\\', _, c :: r, ?_, .mid,
            .inl ⟨rfl, c, r, rfl, hf⟩⟩
          rw [show 2 * (k / 2) = k by omega]
        · obtain ⟨e, t, w, rest, rfl, h2, h3⟩ := ih r.length (by simp at hn; omega) r rfl
          refine ⟨e, _, _, rest, ?_, .quoted (k := k / 2) hf h2, h3⟩
          rw [show 2 * (k / 2) + 1 = k by omega]; simp
      | false =>
        obtain ⟨e, t, w, rest, rfl, h2, h3⟩ := ih r.length (by simp at hn; omega) r rfl
        exact ⟨e, _, _, rest, by simp, .char (k := k) hf hc h2, h3⟩

theorem listing_exists {stop : Char → Bool}
    (hsp : ∀ c, stop c = true → isSpace c = false) (s : Str) :
    ∃ e ws t rest, s = t ++ rest ∧ Listing (findMap {} stop) e ws t ∧ StopsAt stop e rest := by
  generalize hn : s.length = n
  induction n using Nat.strongRecOn generalizing s with
  | _ n ih =>
    have hsplit : s = s.takeWhile isSpace ++ nextToken s := (List.takeWhile_append_dropWhile).symm
    have hS : Spaces (s.takeWhile isSpace) := fun c hc => by
      have := List.all_takeWhile (p := isSpace) (l := s)
      rw [List.all_eq_true] at this
      exact this c hc
    cases ht : nextToken s with
    | nil =>
      rw [ht, List.append_nil] at hsplit
      exact ⟨true, [], s, [], by simp, .nil (by rw [hsplit]; exact hS), .inr ⟨rfl, rfl⟩⟩
    | cons c cs =>
      have hc := nextToken_head_not_space ht
      cases hst : stop c with
      | true =>
        exact ⟨false, [], s.takeWhile isSpace, c :: cs, by rw [← ht]; exact hsplit, .nil hS,
          .inl ⟨rfl, c, cs, rfl, hst, hc⟩⟩
      | false =>
        obtain ⟨e, t, w, rest, h1, h2, h3⟩ := quoted_exists (find := findMap {} stop) (c :: cs)
        have hcf : findMap {} stop c = false := by
          simp [findMap, hst]
          simp [isSpace] at hc; exact hc.1
        have hbegin : Begins t := by
          cases t with
          | nil =>
            rw [List.nil_append] at h1
            rcases h3 with ⟨-, d, r, rfl, hd⟩ | ⟨-, rfl⟩
            · cases h1; rw [hcf] at hd; cases hd
            · cases h1
          | cons d t => cases h1; exact ⟨c, t, rfl, hc⟩
        have hlen : rest.length < s.length := by
          obtain ⟨d, u, rfl, -⟩ := hbegin
          have := congrArg List.length hsplit
          rw [ht, h1] at this
          simp at this; omega
        rcases h3 with ⟨rfl, d, r, rfl, hd⟩ | ⟨rfl, rfl⟩
        · cases hdb : isBlank d with
          | true =>
            obtain ⟨e2, ws, t2, rest2, h4, h5, h6⟩ := ih r.length (by simp at hlen; omega) r rfl
            refine ⟨e2, w :: ws, s.takeWhile isSpace ++ t ++ d :: t2, rest2, ?_,
              .cons hS hbegin h2 hdb h5, h6⟩
            conv => lhs; rw [hsplit, ht, h1, h4]
            simp
          | false =>
            have hds : stop d = true := by
              simp [findMap, hdb] at hd; exact hd
            refine ⟨false, [w], s.takeWhile isSpace ++ t, d :: r, ?_, .last hS hbegin h2,
              .inl ⟨rfl, d, r, rfl, hds, hsp d hds⟩⟩
            conv => lhs; rw [hsplit, ht, h1]
            simp
        · refine ⟨true, [w], s.takeWhile isSpace ++ t, [], ?_, .last hS hbegin h2, .inr ⟨rfl, rfl⟩⟩
          conv => lhs; rw [hsplit, ht, h1]
          simp

end Remake
