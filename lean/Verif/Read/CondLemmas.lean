import Verif.Read.CondSpec
set_option linter.unusedVariables false
set_option linter.unusedSimpArgs false
namespace Remake
open Spec

variable {σ : Type} {E : EvalEnv σ}

theorem condWord_keyword (k : CondKind) : condWord (keyword k) = some (.opening k) := by
  cases k <;> decide

theorem condWord_nil : condWord (tokenPrefix []) = none := by decide

theorem condWord_none {w : Str} (h : ¬ Reserved w) : condWord w = none := by
  unfold Reserved at h
  simp only [not_or, not_exists] at h
  obtain ⟨hk, he, hf⟩ := h
  have h1 := hk .ifdef; have h2 := hk .ifndef; have h3 := hk .ifeq; have h4 := hk .ifneq
  simp only [keyword] at h1 h2 h3 h4
  rw [condWord, if_neg h1, if_neg h2, if_neg h3, if_neg h4, if_neg he, if_neg hf]

theorem evalLoop_dir {l : Str} {w : CondWord} (hd : Directive E l)
    (hw : condWord (tokenPrefix (evalText E.posix l)) = some w) (s : σ) (conds : List CondLevel)
    (ign : Bool) (ls : List Str) :
    evalLoop E s conds ign false (l :: ls) =
      match conditionalLine E s conds (evalText E.posix l) with
      | .bad => .fatal
      | .fatal => .fatal
      | .undef => .undef
      | .ok s conds => evalLoop E s conds (anyIgnoring conds) false ls
      | .notCond =>
        if ign then evalLoop E s conds ign false ls
        else evalLoop E (E.other s l (evalText E.posix l)) conds ign false ls := by
  obtain ⟨h1, h2, h3⟩ := hd
  have hp : evalText E.posix l ≠ [] := by
    intro h; rw [h, condWord_nil] at hw; cases hw
  rw [evalLoop.eq_def]
  simp only [if_neg h1, h2 s, h3, if_neg hp, Bool.false_eq_true, if_false]
  rfl

theorem line_open {l : Str} {k : CondKind} (h : IsOpen E l k) (s : σ) (conds : List CondLevel)
    (ign : Bool) (ls : List Str) :
    evalLoop E s conds ign false (l :: ls) =
      match openCond E s conds k (afterWord (evalText E.posix l)) with
      | (_, none) => .fatal
      | (s, some cs) => evalLoop E s cs (anyIgnoring cs) false ls := by
  have hw : condWord (tokenPrefix (evalText E.posix l)) = some (.opening k) := by
    have : tokenPrefix (evalText E.posix l) = keyword k := h.2
    rw [this, condWord_keyword]
  rw [evalLoop_dir h.1 hw]
  simp only [conditionalLine, hw]
  have : nextToken (endOfToken (evalText E.posix l)) = afterWord (evalText E.posix l) := rfl
  rw [this]
  rcases openCond E s conds k (afterWord (evalText E.posix l)) with ⟨s', _ | cs⟩ <;> rfl

theorem line_endif {l : Str} (h : IsEndif E l) (s : σ) (c : CondLevel) (conds : List CondLevel)
    (ign : Bool) (ls : List Str) :
    evalLoop E s (c :: conds) ign false (l :: ls) = evalLoop E s conds (anyIgnoring conds) false ls := by
  have hw : condWord (tokenPrefix (evalText E.posix l)) = some .endif := by
    have : tokenPrefix (evalText E.posix l) = "endif".toList := h.2
    rw [this]; decide
  rw [evalLoop_dir h.1 hw]
  simp only [conditionalLine, hw]

/-- The effect of `else` on a level. -/
def flip (g : Nat) : Nat := if g = 0 then 2 else if g = 1 then 0 else g

theorem line_else {l : Str} (h : IsElse E l) (s : σ) (g : Nat) (conds : List CondLevel)
    (ign : Bool) (ls : List Str) :
    evalLoop E s (⟨g, false⟩ :: conds) ign false (l :: ls) =
      evalLoop E s (⟨flip g, true⟩ :: conds) (anyIgnoring (⟨flip g, true⟩ :: conds)) false ls := by
  have hw : condWord (tokenPrefix (evalText E.posix l)) = some .else_ := by
    have : tokenPrefix (evalText E.posix l) = "else".toList := h.2.1
    rw [this]; decide
  have hr : nextToken (endOfToken (evalText E.posix l)) = [] := h.2.2
  rw [evalLoop_dir h.1 hw]
  simp only [conditionalLine, hw, hr, if_true, Bool.false_eq_true, if_false, flip]

theorem line_elif {l : Str} {k : CondKind} (h : IsElif E l k) (s : σ) (g : Nat)
    (conds : List CondLevel) (ign : Bool) (ls : List Str) :
    evalLoop E s (⟨g, false⟩ :: conds) ign false (l :: ls) =
      match openCond E s (⟨flip g, false⟩ :: conds) k (afterWord (afterWord (evalText E.posix l))) with
      | (_, none) => .undef
      | (s, some []) => evalLoop E s (⟨flip g, false⟩ :: conds) (anyIgnoring (⟨flip g, false⟩ :: conds)) false ls
      | (s, some (c :: _)) =>
        evalLoop E s (⟨if flip g < 2 then c.ignoring else flip g, false⟩ :: conds)
          (anyIgnoring (⟨if flip g < 2 then c.ignoring else flip g, false⟩ :: conds)) false ls := by
  have hw : condWord (tokenPrefix (evalText E.posix l)) = some .else_ := by
    have : tokenPrefix (evalText E.posix l) = "else".toList := h.2.1
    rw [this]; decide
  have hk : condWord (tokenPrefix (nextToken (endOfToken (evalText E.posix l)))) = some (.opening k) := by
    have : tokenPrefix (nextToken (endOfToken (evalText E.posix l))) = keyword k := h.2.2
    rw [this, condWord_keyword]
  have hr : nextToken (endOfToken (evalText E.posix l)) ≠ [] := by
    intro hh; rw [hh, condWord_nil] at hk; cases hk
  rw [evalLoop_dir h.1 hw]
  simp only [conditionalLine, hw, hk, if_neg hr, Bool.false_eq_true, if_false]
  have e1 : nextToken (endOfToken (nextToken (endOfToken (evalText E.posix l)))) =
    afterWord (afterWord (evalText E.posix l)) := rfl
  rw [e1]
  have e2 : (if g = 0 then 2 else if g = 1 then 0 else g) = flip g := rfl
  simp only [e2]
  rcases openCond E s (⟨flip g, false⟩ :: conds) k (afterWord (afterWord (evalText E.posix l)))
    with ⟨s', _ | _ | ⟨c, cs⟩⟩ <;> rfl

theorem line_plain_ign {l : Str} (h : IsPlain E l) (s : σ) (conds : List CondLevel) (ls : List Str) :
    evalLoop E s conds true false (l :: ls) = evalLoop E s conds true false ls := by
  rw [evalLoop.eq_def]
  by_cases hl : l = []
  · simp [hl]
  · by_cases hr : E.recipe s l = true
    · simp [hl, hr]
    · have hr' : E.recipe s l = false := by simpa using hr
      obtain ⟨h1, h2⟩ := h hl s hr'
      simp only [if_neg hl, hr', Bool.false_eq_true, if_false, if_true]
      cases ha : E.assign (evalText E.posix l) with
      | some d =>
        cases d with
        | true => exact absurd ha h1
        | false => simp
      | none =>
        have hc := condWord_none (h2 ha)
        by_cases hp : evalText E.posix l = []
        · simp [hp]
        · have hcl : conditionalLine E s conds (evalText E.posix l) = .notCond := by
            have : condWord (tokenPrefix (evalText E.posix l)) = none := hc
            simp [conditionalLine, this]
          simp [hp, hcl]

theorem line_plain {l : Str} (h : IsPlain E l) (s : σ) (conds : List CondLevel) (ls : List Str) :
    evalLoop E s conds false false (l :: ls) = evalLoop E (runPlain E s l) conds false false ls := by
  rw [evalLoop.eq_def]
  by_cases hl : l = []
  · simp [hl, runPlain]
  · by_cases hr : E.recipe s l = true
    · simp [hl, hr, runPlain]
    · have hr' : E.recipe s l = false := by simpa using hr
      obtain ⟨h1, h2⟩ := h hl s hr'
      simp only [if_neg hl, hr', Bool.false_eq_true, if_false, if_true, runPlain]
      cases ha : E.assign (evalText E.posix l) with
      | some d =>
        cases d with
        | true => exact absurd ha h1
        | false => simp
      | none =>
        have hc := condWord_none (h2 ha)
        by_cases hp : evalText E.posix l = []
        · simp [hp]
        · have hcl : conditionalLine E s conds (evalText E.posix l) = .notCond := by
            have : condWord (tokenPrefix (evalText E.posix l)) = none := hc
            simp [conditionalLine, this]
          simp [hp, hcl]

theorem skip_body {s : σ} {conds : List CondLevel} {e : Str} {ls : List Str} (he : IsEndef E e) :
    ∀ body : List Str, (∀ l ∈ body, IsBody E l) →
    evalLoop E s conds true true (body ++ e :: ls) = evalLoop E s conds true false ls := by
  intro body
  induction body with
  | nil =>
    intro _
    obtain ⟨⟨h1, h2, h3⟩, -, h5⟩ := he
    have hp : evalText E.posix e ≠ [] := by
      intro h; rw [h] at h5; exact absurd h5 (by decide)
    rw [List.nil_append, evalLoop.eq_def]
    simp only [if_neg h1, h2 s, h3, if_neg hp, h5, Bool.false_eq_true, if_false, if_true, Bool.not_true]
  | cons l body ih =>
    intro hb
    have ih' := ih fun x hx => hb x (List.mem_cons_of_mem _ hx)
    obtain ⟨-, h2⟩ := hb l (by simp)
    rw [List.cons_append, evalLoop.eq_def]
    by_cases hl : l = []
    · simp [hl, ih']
    · by_cases hr : E.recipe s l = true
      · simp [hl, hr, ih']
      · have hr' : E.recipe s l = false := by simpa using hr
        simp only [if_neg hl, hr', Bool.false_eq_true, if_false, if_true]
        cases ha : E.assign (evalText E.posix l) with
        | some d => simp [ih']
        | none =>
          have := h2 hl ha
          by_cases hp : evalText E.posix l = []
          · simp [hp, ih']
          · simp [hp, this, ih']

theorem line_define_ign {h e : Str} {body : List Str} (hh : IsDefine E h)
    (hb : ∀ l ∈ body, IsBody E l) (he : IsEndef E e) (s : σ) (conds : List CondLevel) (ls : List Str) :
    evalLoop E s conds true false (h :: (body ++ e :: ls)) = evalLoop E s conds true false ls := by
  obtain ⟨h1, h2, h3⟩ := hh
  rw [evalLoop.eq_def]
  simp only [if_neg h1, h2 s, h3, Bool.false_eq_true, if_false, if_true, Bool.or_true]
  exact skip_body he body hb

theorem defineText_mark0 {posix : Bool} {c : Char} {l : Str} (h : defineMark posix c l = 0) :
    defineText posix c l = collapseContinuations posix l := by
  unfold defineText
  unfold defineMark at h
  simp only at h ⊢
  split at h
  · next hc => simp [hc]
  · next hc =>
    split at h
    · cases h
    · split at h
      · cases h
      · next hn => simp [hn]

theorem takeDefine_simple {c : Char} {e : Str} {ls : List Str}
    (he : defineMark E.posix c e = -1) :
    ∀ body : List Str, (∀ l ∈ body, defineMark E.posix c l = 0) →
    takeDefine E.posix c 1 (body ++ e :: ls) = some (body.map (collapseContinuations E.posix), ls) := by
  intro body
  induction body with
  | nil => intro _; simp [takeDefine, he]
  | cons l body ih =>
    intro hb
    have h0 := hb l (by simp)
    rw [List.cons_append, takeDefine]
    simp only [h0]
    rw [if_neg (by decide), if_neg (by decide), if_neg (by decide),
      ih fun x hx => hb x (List.mem_cons_of_mem _ hx)]
    simp [defineText_mark0 h0]

theorem line_define {h e : Str} {body : List Str} (hh : IsDefine E h)
    (hb : ∀ l ∈ body, IsBody E l) (he : IsEndef E e) (s : σ) (conds : List CondLevel) (ls : List Str) :
    evalLoop E s conds false false (h :: (body ++ e :: ls)) =
      evalLoop E (E.doDefine s (evalText E.posix h)
        (['\n'].intercalate (body.map (collapseContinuations E.posix)))) conds false false ls := by
  obtain ⟨h1, h2, h3⟩ := hh
  have ht := takeDefine_simple (E := E) (c := E.cmdPrefix s) (ls := ls) (he.2.1 s) body
    fun l hl => (hb l hl).1 _
  rw [evalLoop.eq_def]
  simp only [if_neg h1, h2 s, h3, Bool.false_eq_true, if_false, if_true]
  split
  · next hn => rw [ht] at hn; cases hn
  · next b r hn =>
    rw [ht] at hn
    cases hn
    rfl

theorem anyIgnoring_cons (g : Nat) (b : Bool) (cs : List CondLevel) :
    anyIgnoring (⟨g, b⟩ :: cs) = (g != 0 || anyIgnoring cs) := by simp [anyIgnoring]

mutual
theorem blk_ign (b : Blk) (hb : b.WF E) (s : σ) (conds : List CondLevel)
    (hi : anyIgnoring conds = true) (ls : List Str) :
    evalLoop E s conds true false (b.lines ++ ls) = evalLoop E s conds true false ls := by
  match b, hb with
  | .nil, _ => simp [Blk.lines]
  | .plain l b, hb =>
    simp only [Blk.WF] at hb
    rw [Blk.lines, List.cons_append, line_plain_ign hb.1]
    exact blk_ign b hb.2 s conds hi ls
  | .define h body e b, hb =>
    simp only [Blk.WF] at hb
    rw [Blk.lines, List.cons_append, List.append_assoc, List.cons_append,
      line_define_ign hb.1 hb.2.1 hb.2.2.1]
    exact blk_ign b hb.2.2.2 s conds hi ls
  | .cond h k body t b, hb =>
    simp only [Blk.WF] at hb
    rw [Blk.lines, List.cons_append, line_open hb.1]
    simp only [openCond, hi, if_true]
    rw [anyIgnoring_cons]
    simp only [hi, Bool.or_true, List.append_assoc]
    rw [blk_ign body hb.2.1 s (⟨1, false⟩ :: conds) (by rw [anyIgnoring_cons]; simp),
      tail_ign t hb.2.2.1 s 1 conds hi]
    exact blk_ign b hb.2.2.2 s conds hi ls
theorem tail_ign (t : Tail) (ht : t.WF E) (s : σ) (g : Nat) (conds : List CondLevel)
    (hi : anyIgnoring conds = true) (ls : List Str) :
    evalLoop E s (⟨g, false⟩ :: conds) true false (t.lines ++ ls) = evalLoop E s conds true false ls := by
  match t, ht with
  | .endif l, ht =>
    simp only [Tail.WF] at ht
    rw [Tail.lines, List.cons_append, line_endif ht, hi, List.nil_append]
  | .els l body e, ht =>
    simp only [Tail.WF] at ht
    rw [Tail.lines, List.cons_append, line_else ht.1]
    have ha : anyIgnoring (⟨flip g, true⟩ :: conds) = true := by rw [anyIgnoring_cons, hi]; simp
    rw [ha, List.append_assoc, blk_ign body ht.2.1 s _ ha, List.cons_append, line_endif ht.2.2, hi,
      List.nil_append]
  | .elif l k body t, ht =>
    simp only [Tail.WF] at ht
    rw [Tail.lines, List.cons_append, line_elif ht.1]
    have ha : ∀ g, anyIgnoring (⟨g, false⟩ :: conds) = true := fun g => by
      rw [anyIgnoring_cons, hi]; simp
    simp only [openCond, ha, if_true]
    rw [List.append_assoc, blk_ign body ht.2.1 s _ (ha _)]
    exact tail_ign t ht.2.2 s _ conds hi ls
end

/-- After a branch was taken (`g = 0`) or an earlier one had been (`g = 2`). -/
theorem tail_skip (t : Tail) (ht : t.WF E) (s : σ) (g : Nat) (hg : g = 0 ∨ g = 2)
    (conds : List CondLevel) (hi : anyIgnoring conds = false) (ign : Bool) (ls : List Str) :
    evalLoop E s (⟨g, false⟩ :: conds) ign false (t.lines ++ ls) = evalLoop E s conds false false ls := by
  have hf : flip g = 2 := by rcases hg with rfl | rfl <;> rfl
  match t, ht with
  | .endif l, ht =>
    simp only [Tail.WF] at ht
    rw [Tail.lines, List.cons_append, line_endif ht, hi, List.nil_append]
  | .els l body e, ht =>
    simp only [Tail.WF] at ht
    rw [Tail.lines, List.cons_append, line_else ht.1, hf]
    have ha : anyIgnoring (⟨2, true⟩ :: conds) = true := by rw [anyIgnoring_cons]; simp
    rw [ha, List.append_assoc, blk_ign body ht.2.1 s _ ha, List.cons_append, line_endif ht.2.2, hi,
      List.nil_append]
  | .elif l k body t, ht =>
    simp only [Tail.WF] at ht
    rw [Tail.lines, List.cons_append, line_elif ht.1, hf]
    have ha : anyIgnoring (⟨2, false⟩ :: conds) = true := by rw [anyIgnoring_cons]; simp
    simp only [openCond, ha, if_true]
    simp only [show ¬ (2 < 2) by omega, if_false, ha]
    rw [List.append_assoc, blk_ign body ht.2.1 s _ ha]
    exact tail_skip t ht.2.2 s 2 (.inr rfl) conds hi true ls

theorem andThen_assoc (r : EvalRes σ) (f g : σ → EvalRes σ) :
    andThen (andThen r f) g = andThen r fun s => andThen (f s) g := by
  cases r <;> rfl

mutual
theorem blk_run (b : Blk) (hb : b.WF E) (s : σ) (conds : List CondLevel)
    (hi : anyIgnoring conds = false) (ls : List Str) :
    evalLoop E s conds false false (b.lines ++ ls) =
      andThen (b.run E s) fun s => evalLoop E s conds false false ls := by
  match b, hb with
  | .nil, _ => simp [Blk.lines, Blk.run, andThen]
  | .plain l b, hb =>
    simp only [Blk.WF] at hb
    rw [Blk.lines, List.cons_append, line_plain hb.1, Blk.run]
    exact blk_run b hb.2 _ conds hi ls
  | .define h body e b, hb =>
    simp only [Blk.WF] at hb
    rw [Blk.lines, List.cons_append, List.append_assoc, List.cons_append,
      line_define hb.1 hb.2.1 hb.2.2.1, Blk.run]
    exact blk_run b hb.2.2.2 _ conds hi ls
  | .cond h k body t b, hb =>
    simp only [Blk.WF] at hb
    rw [Blk.lines, List.cons_append, line_open hb.1, Blk.run]
    simp only [openCond, hi, Bool.false_eq_true, if_false]
    rcases condTest E s k (afterWord (evalText E.posix h)) with ⟨s1, _ | _ | _⟩
    · rfl
    · have ha : anyIgnoring (⟨1, false⟩ :: conds) = true := by rw [anyIgnoring_cons]; simp
      simp only [Bool.false_eq_true, if_false, ha, List.append_assoc]
      rw [blk_ign body hb.2.1 s1 _ ha, tail_run t hb.2.2.1 s1 conds hi, andThen_assoc]
      congr 1; funext s2
      exact blk_run b hb.2.2.2 s2 conds hi ls
    · have ha : anyIgnoring (⟨0, false⟩ :: conds) = false := by rw [anyIgnoring_cons, hi]; rfl
      simp only [if_true, ha, List.append_assoc]
      rw [blk_run body hb.2.1 s1 _ ha, andThen_assoc]
      congr 1; funext s2
      rw [tail_skip t hb.2.2.1 s2 0 (.inl rfl) conds hi]
      exact blk_run b hb.2.2.2 s2 conds hi ls
theorem tail_run (t : Tail) (ht : t.WF E) (s : σ) (conds : List CondLevel)
    (hi : anyIgnoring conds = false) (ls : List Str) :
    evalLoop E s (⟨1, false⟩ :: conds) true false (t.lines ++ ls) =
      andThen (t.run E s) fun s => evalLoop E s conds false false ls := by
  match t, ht with
  | .endif l, ht =>
    simp only [Tail.WF] at ht
    rw [Tail.lines, List.cons_append, line_endif ht, hi, List.nil_append, Tail.run, andThen]
  | .els l body e, ht =>
    simp only [Tail.WF] at ht
    rw [Tail.lines, List.cons_append, line_else ht.1, show flip 1 = 0 from rfl, Tail.run]
    have ha : anyIgnoring (⟨0, true⟩ :: conds) = false := by rw [anyIgnoring_cons, hi]; rfl
    rw [ha, List.append_assoc, blk_run body ht.2.1 s _ ha]
    congr 1; funext s2
    rw [List.cons_append, line_endif ht.2.2, hi, List.nil_append]
  | .elif l k body t, ht =>
    simp only [Tail.WF] at ht
    rw [Tail.lines, List.cons_append, line_elif ht.1, show flip 1 = 0 from rfl, Tail.run]
    have ha : anyIgnoring (⟨0, false⟩ :: conds) = false := by rw [anyIgnoring_cons, hi]; rfl
    simp only [openCond, ha, Bool.false_eq_true, if_false]
    rcases condTest E s k (afterWord (afterWord (evalText E.posix l))) with ⟨s1, _ | _ | _⟩
    · rfl
    · have ha1 : anyIgnoring (⟨1, false⟩ :: conds) = true := by rw [anyIgnoring_cons]; simp
      simp only [Bool.false_eq_true, if_false, show 0 < 2 by omega, if_true, ha1, List.append_assoc]
      rw [blk_ign body ht.2.1 s1 _ ha1]
      exact tail_run t ht.2.2 s1 conds hi ls
    · simp only [if_true, show 0 < 2 by omega, ha, List.append_assoc]
      rw [blk_run body ht.2.1 s1 _ ha]
      congr 1; funext s2
      exact tail_skip t ht.2.2 s2 0 (.inl rfl) conds hi false ls
end

end Remake
