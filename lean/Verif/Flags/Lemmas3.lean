import Verif.Flags.Lemmas2
/-!
# The text of MAKEFLAGS, and the options the child has at the end
-/
set_option linter.unusedVariables false
set_option linter.unusedSimpArgs false
namespace Remake
open Remake.Spec

variable {F : Type}

/-! ### Words after words -/

/-- Words, each after a blank. -/
def spaced (q : Str → Str) (ws : List Str) : Str := ws.flatMap fun w => ' ' :: q w

theorem spaced_append (q : Str → Str) (a b : List Str) : spaced q (a ++ b) = spaced q a ++ spaced q b := by
  simp [spaced]

theorem joinEscaped_spaced (w : Str) (ws : List Str) : joinEscaped (w :: ws) = escapeBlanks w ++ spaced escapeBlanks ws := by
  induction ws generalizing w with
  | nil => simp [joinEscaped, spaced]
  | cons x ws ih => rw [joinEscaped_cons w (by simp), ih x]; simp [spaced]

theorem unwords_spaced (q : Str → Str) {ws : List Str} (h : ws ≠ []) : ' ' :: unwords (ws.map q) = spaced q ws := by
  induction ws with
  | nil => exact absurd rfl h
  | cons w ws ih =>
    cases ws with
    | nil => simp [unwords, spaced]
    | cons x ws =>
      have := ih (by simp)
      simp only [unwords, spaced, List.map_cons, List.flatMap_cons] at *
      rw [List.intercalate_cons_cons] 
      simp only [List.cons_append, List.cons.injEq, true_and, List.append_assoc, List.nil_append]
      have h2 := (List.cons.inj this).2
      rw [h2]; rfl

/-- Expansion of quoted words. -/
theorem expand_spaced (ext : List (VarSet × Bool) → Str → List Str → Option Str) (fuel : Nat) (st : XState) (ws : List Str) :
    expand ext (fuel + 1) st (spaced quoteForEnv ws) = .ok (spaced escapeBlanks ws) st := by
  induction ws with
  | nil => exact C28_literal ext fuel st [] (by simp)
  | cons w ws ih =>
    rw [show spaced quoteForEnv (w :: ws) = [' '] ++ (quoteForEnv w ++ spaced quoteForEnv ws) by simp [spaced],
      C28_concat ext fuel st [' '] _ (.char (by decide) .nil), C28_literal ext fuel st [' '] (by decide)]
    simp only [XRes.bind]
    rw [expand_quoted, ih]
    simp [XRes.bind, spaced]

theorem closed_literal {s : Str} (h : '$' ∉ s) : Closed s := by
  induction s with
  | nil => exact .nil
  | cons c s ih =>
    simp only [List.mem_cons, not_or] at h
    exact .char (Ne.symm h.1) (ih h.2)

theorem quoteForEnv_append (a b : Str) : quoteForEnv (a ++ b) = quoteForEnv a ++ quoteForEnv b := by
  induction a with
  | nil => rfl
  | cons c a ih => simp only [List.cons_append, quoteForEnv, ih]; split <;> (try split) <;> simp

theorem flatMap_spaced (p : Str) (hp : quoteForEnv p = p) (l : List Str) (h : l ≠ []) :
    ' ' :: (l.flatMap fun e => p ++ quoteForEnv e ++ [' ']).dropLast = spaced quoteForEnv (l.map fun e => p ++ e) := by
  have hf : (fun e => p ++ quoteForEnv e ++ [' ']) = fun e => quoteForEnv (p ++ e) ++ [' '] := by
    funext e
    rw [quoteForEnv_append, hp]
  have : (l.flatMap fun e => p ++ quoteForEnv e ++ [' ']).dropLast = unwords ((l.map fun e => p ++ e).map quoteForEnv) := by
    rw [← flatMap_blank, List.flatMap_map, List.flatMap_map, hf]
  rw [this]
  exact unwords_spaced _ (by simpa using h)

theorem evalFlags_spaced {l : List Str} (h : l ≠ []) : ' ' :: evalFlags l = spaced quoteForEnv (l.map evalWord) :=
  flatMap_spaced _ (by decide +kernel) l h

theorem commandVariables_spaced {l : List CmdVar} (h : l ≠ []) :
    ' ' :: commandVariables l = spaced quoteForEnv (l.map definition) := by
  rw [← unwords_spaced _ (by simpa using h)]
  congr 1
  rw [← flatMap_blank]
  unfold commandVariables
  congr 1
  simp only [List.flatMap_map]
  congr 1
  funext v
  unfold definition
  rw [quoteForEnv_append, quoteForEnv_append]
  cases v.recursive <;> simp [quoteForEnv, show isBlank ':' = false by decide, show isBlank '=' = false by decide]

/-! ### The parent -/

/-- The variables that `MAKEFLAGS` refers to, as make has defined them (main.c 1605-1614, 1833-1834). -/
structure FlagVars (st : XState) (evals : List Str) (vars : List CmdVar) (ref : Option Str) : Prop where
  evals : evals ≠ [] → ∃ v, lookupVariable st.chain "-*-eval-flags-*-".toList = some v ∧ v.recursive = false ∧
    v.value = evalFlags evals
  noVars : vars = [] → ref = none
  vars : vars ≠ [] → (∃ v, lookupVariable st.chain posixRef = some v ∧ v.recursive = false ∧ v.value = commandVariables vars) ∧
    (ref = some posixRef ∨ ref = some overridesRef ∧ ∃ v, lookupVariable st.chain overridesRef = some v ∧ v.recursive = true ∧
      v.append = false ∧ v.value = "${-*-command-variables-*-}".toList)
  quiet : ∀ id, st.expanding id = false

theorem reference_simple (rec : XState → Str → XRes Str) {st : XState} {n : Str} {v : Var} (h : lookupVariable st.chain n = some v)
    (hr : v.recursive = false) : referenceVariable rec st n = .ok v.value st := by
  obtain ⟨i, hi⟩ := lookupLoc_of h
  simp only [referenceVariable, hi, hr]
  split
  · rename_i h; rw [h.1]
  · simp

theorem expand_braces (ext : List (VarSet × Bool) → Str → List Str → Option Str) (fuel : Nat) (st : XState) :
    expand ext (fuel + 1) st "${-*-command-variables-*-}".toList = referenceVariable (expand ext fuel) st posixRef := by
  have hl : lex "${-*-command-variables-*-}".toList = [.ref (.plain posixRef)] := by
    have hp : parseRef '{' "-*-command-variables-*-}".toList = (.plain posixRef, []) := by decide +kernel
    rw [show "${-*-command-variables-*-}".toList = '$' :: '{' :: "-*-command-variables-*-}".toList from rfl,
      lex_ref (Or.inr rfl), hp, lex_nil]
  simp only [expand, hl, evalToks, evalRef]
  rw [expandNamed_plain _ _ (by decide +kernel)]
  generalize referenceVariable (expand ext fuel) st posixRef = r
  cases r <;> simp [XRes.bind]

theorem plain_names : PlainName posixRef ∧ PlainName overridesRef ∧ PlainName "-*-eval-flags-*-".toList := by
  refine ⟨?_, ?_, ?_⟩ <;> exact ⟨by decide, by decide +kernel⟩

/-- The words of the rest of `MAKEFLAGS`. -/
def restWords (evals : List Str) (vars : List CmdVar) : List Str :=
  evals.map evalWord ++ (if vars = [] then [] else "--".toList :: vars.map definition)

theorem expand_ok_concat (ext : List (VarSet × Bool) → Str → List Str → Option Str) (fuel : Nat) (st : XState) {a b x y : Str}
    (h : Closed a) (ha : expand ext (fuel + 1) st a = .ok x st) (hb : expand ext (fuel + 1) st b = .ok y st) :
    expand ext (fuel + 1) st (a ++ b) = .ok (x ++ y) st := by
  rw [C28_concat ext fuel st a b h, ha]
  simp only [XRes.bind, hb]

/-- The last part of `MAKEFLAGS`. -/
def refPart : Option Str → Str
  | some r => " -- $(".toList ++ r ++ [')']
  | none => []

theorem makeflags_eq (fl : Floats F) (s : Opts F) (mk e : Bool) (ref : Option Str) :
    makeflags fl s true mk e ref = flagsBody (flagList fl s true mk) ++ ((if e then ' ' :: evalRefText else []) ++ refPart ref) := by
  unfold makeflags
  rw [List.append_assoc]
  cases ref <;> rfl

theorem parent_text (ext : List (VarSet × Bool) → Str → List Str → Option Str) (fuel : Nat) (fl : Floats F) (s : Opts F) (mk : Bool)
    {st : XState} {evals : List Str} {vars : List CmdVar} {ref : Option Str} (hv : FlagVars st evals vars ref)
    (hd : '$' ∉ flagsBody (flagList fl s true mk)) :
    expand ext (fuel + 3) st (makeflags fl s true mk (decide (evals ≠ [])) ref) =
      .ok (flagsBody (flagList fl s true mk) ++ spaced quoteForEnv (restWords evals vars)) st := by
  have h1 : expand ext (fuel + 3) st (if decide (evals ≠ []) = true then ' ' :: evalRefText else []) =
      .ok (spaced quoteForEnv (evals.map evalWord)) st ∧ Closed (if decide (evals ≠ []) = true then ' ' :: evalRefText else []) := by
    by_cases he : evals = []
    · subst he
      simp only [ne_eq, not_true, decide_false, Bool.false_eq_true, if_false]
      exact ⟨C28_literal ext _ st [] (by simp), .nil⟩
    · rw [if_pos (by simp [he])]
      obtain ⟨v, h1, h2, h3⟩ := hv.evals he
      have ht : ' ' :: evalRefText = [' '] ++ refTo "-*-eval-flags-*-".toList := rfl
      rw [ht]
      refine ⟨?_, .char (by decide) (closed_refTo plain_names.2.2)⟩
      rw [← evalFlags_spaced he]
      refine expand_ok_concat ext (fuel + 2) st (x := [' ']) (y := evalFlags evals) (.char (by decide) .nil) (C28_literal ext _ st _ (by decide)) ?_
      rw [expand_refTo ext _ st plain_names.2.2, reference_simple _ h1 h2, h3]
  have h2 : expand ext (fuel + 3) st (refPart ref) = .ok (spaced quoteForEnv (if vars = [] then [] else "--".toList :: vars.map definition)) st := by
    by_cases he : vars = []
    · rw [hv.noVars he, if_pos he]
      exact C28_literal ext _ st [] (by simp)
    · rw [if_neg he]
      obtain ⟨⟨v, h1, h2, h3⟩, hr⟩ := hv.vars he
      have key : ∃ r, ref = some r ∧ PlainName r ∧ expand ext (fuel + 3) st (refTo r) = .ok (commandVariables vars) st := by
        rcases hr with rfl | ⟨rfl, v', h4, h5, h6, h7⟩
        · refine ⟨_, rfl, plain_names.1, ?_⟩
          rw [expand_refTo ext _ st plain_names.1, reference_simple _ h1 h2, h3]
        · refine ⟨_, rfl, plain_names.2.1, ?_⟩
          rw [expand_refTo ext _ st plain_names.2.1]
          obtain ⟨i, hi⟩ := lookupLoc_of h4
          simp only [referenceVariable, hi]
          rw [if_neg (by rw [h7]; simp), if_pos h5]
          simp only [recursivelyExpand, hv.quiet, h6]
          simp only [Bool.false_eq_true, false_and, if_false]
          rw [h7, expand_braces]
          have hch : lookupVariable (XState.mark st (i, overridesRef) true).chain posixRef = some v := h1
          rw [reference_simple _ hch h2, h3]
          simp only [XRes.bind]
          rw [mark_mark _ _ (hv.quiet _)]
      obtain ⟨r, rfl, hp, hx⟩ := key
      rw [show refPart (some r) = " -- ".toList ++ refTo r by simp [refPart, refTo]]
      have ht : spaced quoteForEnv ("--".toList :: vars.map definition) = " -- ".toList ++ commandVariables vars := by
        have := commandVariables_spaced he
        rw [show spaced quoteForEnv ("--".toList :: vars.map definition) = " --".toList ++ spaced quoteForEnv (vars.map definition) by rfl,
          ← this]
        rfl
      rw [ht]
      exact expand_ok_concat ext (fuel + 2) st (closed_literal (by decide)) (C28_literal ext _ st _ (by decide)) hx
  rw [makeflags_eq]
  refine (expand_ok_concat ext (fuel + 2) st (closed_literal hd) (C28_literal ext _ st _ hd)
    (expand_ok_concat ext (fuel + 2) st h1.2 h1.1 h2)).trans ?_
  rw [restWords, spaced_append]

/-! ### The child -/

theorem child_text (ext : List (VarSet × Bool) → Str → List Str → Option Str) (fuel : Nat) (st : XState) {body : Str}
    (hd : '$' ∉ body) (ws : List Str) :
    expand ext (fuel + 1) st (body ++ spaced quoteForEnv ws) = .ok (body ++ spaced escapeBlanks ws) st :=
  expand_ok_concat ext fuel st (closed_literal hd) (C28_literal ext _ st _ hd) (expand_spaced ext fuel st ws)

theorem nextToken_dash (t : Str) : nextToken ('-' :: t) = '-' :: t := by
  simp [nextToken, show isSpace '-' = false by decide]

/-- The words in the child. -/
theorem child_words {l : List (Switch × Option Str)} (hl : ∀ f ∈ l, f.1 ∈ switches) (hd : ∀ f ∈ l, ∀ a, f.2 = some a → '$' ∉ a)
    {ws : List Str} (hws : ∀ w ∈ ws, w ≠ []) (hw0 : ∀ w ∈ ws.head?, w.head? = some '-') :
    envWords (flagsBody l ++ spaced escapeBlanks ws) =
      (if l.takeWhile isSimple = [] then [] else ['-' :: (l.takeWhile isSimple).map (·.1.letter)]) ++
      ((l.dropWhile isSimple).map flagWord ++ ws) := by
  have hbody : flagsBody l = (l.takeWhile isSimple).map (·.1.letter) ++ spaced escapeBlanks ((l.dropWhile isSimple).map flagWord) := by
    unfold flagsBody spaced
    rw [List.flatMap_map]
    congr 1
    have : ∀ m : List (Switch × Option Str), (∀ f ∈ m, f ∈ l) → m.flatMap flagText = m.flatMap fun f => ' ' :: escapeBlanks (flagWord f) := by
      intro m hm
      induction m with
      | nil => rfl
      | cons f m ih =>
        simp only [List.flatMap_cons]
        rw [ih (fun g hg => hm g (by simp [hg])), flagText_eq (hl f (hm f (by simp))) (hd f (hm f (by simp)))]
    exact this _ (fun f hf => (List.dropWhile_sublist _).subset hf)
  rw [hbody, List.append_assoc, ← spaced_append]
  have hne : ∀ w ∈ (l.dropWhile isSimple).map flagWord ++ ws, w ≠ [] := by
    intro w hw
    rcases List.mem_append.1 hw with hw | hw
    · obtain ⟨f, _, rfl⟩ := List.mem_map.1 hw
      intro h; have := flagWord_head f; rw [h] at this; simp at this
    · exact hws w hw
  have hhead : ∀ w ∈ ((l.dropWhile isSimple).map flagWord ++ ws).head?, w.head? = some '-' := by
    cases l.dropWhile isSimple with
    | nil => exact hw0
    | cons g l => intro w hw; simp at hw; subst hw; exact flagWord_head g
  generalize (l.dropWhile isSimple).map flagWord ++ ws = W at *
  by_cases hg : l.takeWhile isSimple = []
  · rw [if_pos hg, hg]
    simp only [List.map_nil, List.nil_append]
    cases W with
    | nil => rfl
    | cons w W =>
      have h1 := hhead w (by simp)
      have h2 : spaced escapeBlanks (w :: W) = ' ' :: joinEscaped (w :: W) := by
        rw [joinEscaped_spaced]; simp [spaced]
      have h3 : ∃ t, joinEscaped (w :: W) = '-' :: t := by
        have := joinEscaped_head (ws := W) (hne w (by simp))
        cases w with
        | nil => simp at h1
        | cons c w =>
          simp at h1; subst h1
          simp only [escapeBlanks] at this
          rw [if_neg (by decide)] at this
          cases hj : joinEscaped (('-' :: w) :: W) with
          | nil => rw [hj] at this; simp at this
          | cons a b => rw [hj] at this; simp at this; exact ⟨b, by rw [this]⟩
      obtain ⟨t, h3⟩ := h3
      unfold envWords
      rw [h2, show nextToken (' ' :: joinEscaped (w :: W)) = nextToken (joinEscaped (w :: W)) by
        simp [nextToken, show isSpace ' ' = true by decide], h3, nextToken_dash]
      simp only
      rw [← h3, split_joined _ (by simp) hne]
      simp [h1]
  · rw [if_neg hg]
    have hlet : ∀ f ∈ l.takeWhile isSimple, f.1.letter ≠ '-' ∧ f.1.letter ≠ '=' ∧ f.1.letter ≠ '\\' ∧ isBlank f.1.letter = false ∧
        isSpace f.1.letter = false := by
      intro f hf
      have h1 := mem_takeWhile_imp hf
      have h2 := hl f ((List.takeWhile_sublist _).subset hf)
      simp only [isSimple, Bool.and_eq_true] at h1
      obtain ⟨⟨_, a, b, c, d, e⟩, _⟩ := table_letters _ h2 h1.2
      exact ⟨a, b, c, e, d⟩
    generalize l.takeWhile isSimple = G at *
    cases G with
    | nil => exact absurd rfl hg
    | cons g G =>
      have hesc : escapeBlanks ((g :: G).map (·.1.letter)) = (g :: G).map (·.1.letter) := by
        apply escapeBlanks_id
        intro c hc
        obtain ⟨f, hf, rfl⟩ := List.mem_map.1 hc
        exact ⟨(hlet f hf).2.2.2.1, (hlet f hf).2.2.1⟩
      have hj : (g :: G).map (·.1.letter) ++ spaced escapeBlanks W = joinEscaped ((g :: G).map (·.1.letter) :: W) := by
        rw [joinEscaped_spaced, hesc]
      unfold envWords
      have hnt : nextToken ((g :: G).map (·.1.letter) ++ spaced escapeBlanks W) =
          g.1.letter :: (G.map (·.1.letter) ++ spaced escapeBlanks W) := by
        simp [nextToken, (hlet g (by simp)).2.2.2.2]
      rw [hnt]
      simp only
      rw [show g.1.letter :: (G.map (·.1.letter) ++ spaced escapeBlanks W) = (g :: G).map (·.1.letter) ++ spaced escapeBlanks W by simp,
        hj, split_joined _ (by simp) (by
          intro w hw
          rcases List.mem_cons.1 hw with rfl | hw
          · simp
          · exact hne w hw)]
      simp only
      rw [if_pos ⟨by simpa using (hlet g (by simp)).1, by
        intro hm
        obtain ⟨f, hf, he⟩ := List.mem_map.1 hm
        exact (hlet f hf).2.1 he⟩]
      rfl

/-- Reading the words. -/
theorem child_decode (fl : Floats F) (tilde : Str → Option Str) (l : List (Switch × Option Str)) (h : ∀ f ∈ l, FlagOk f)
    (evals : List Str) (he : ∀ e ∈ evals, e ≠ []) (vars : List CmdVar) (s : Opts F) :
    decodeSwitches fl tilde true
      ((if l.takeWhile isSimple = [] then [] else ['-' :: (l.takeWhile isSimple).map (·.1.letter)]) ++
        ((l.dropWhile isSimple).map flagWord ++ restWords evals vars)) s =
      ⟨evals.foldl (fun o e => o.addStr .evalStrings e) (l.foldl (sendOne fl tilde) s), vars.map definition, false⟩ := by
  have hhead : ∀ w ∈ (restWords evals vars).head?, w.head? = some '-' := by
    unfold restWords
    cases evals with
    | cons e evals => intro w hw; simp at hw; subst hw; rfl
    | nil =>
      intro w hw
      by_cases hv : vars = []
      · simp [hv] at hw
      · simp [hv] at hw; subst hw; rfl
  have hdrop : ∀ f ∈ l.dropWhile isSimple, FlagOk f := fun f hf => h f ((List.dropWhile_sublist _).subset hf)
  have hend : ∀ i d, decodeLoop fl tilde true i [] (restWords evals vars) d =
      { d with opts := evals.foldl (fun o e => o.addStr .evalStrings e) d.opts, args := d.args ++ vars.map definition } := by
    intro i d
    obtain ⟨i', h1⟩ := decode_eval fl tilde evals he (if vars = [] then [] else "--".toList :: vars.map definition) i d
    rw [restWords, h1]
    by_cases hv : vars = []
    · rw [if_pos hv, decode_none, hv]; simp
    · rw [if_neg hv, decode_rest]
  unfold decodeSwitches
  have hl : l.foldl (sendOne fl tilde) s = (l.dropWhile isSimple).foldl (sendOne fl tilde) ((l.takeWhile isSimple).foldl (sendOne fl tilde) s) := by
    rw [← List.foldl_append, List.takeWhile_append_dropWhile]
  by_cases hg : l.takeWhile isSimple = []
  · rw [if_pos hg, List.nil_append]
    obtain ⟨i', _, h2⟩ := decode_words fl tilde _ hdrop _ hhead false ⟨s, [], false⟩
    rw [h2, hend, hl, hg]
    simp
  · rw [if_neg hg]
    show decodeLoop fl tilde true false [] (('-' :: (l.takeWhile isSimple).map (·.1.letter)) :: _) _ = _
    rw [decode_group fl tilde _ (fun f hf => h f ((List.takeWhile_sublist _).subset hf)) (fun f hf => mem_takeWhile_imp hf) hg]
    obtain ⟨i', _, h2⟩ := decode_words fl tilde _ hdrop _ hhead true ⟨(l.takeWhile isSimple).foldl (sendOne fl tilde) s, [], false⟩
    refine Eq.trans h2 ?_
    rw [hend, hl]
    simp

end Remake
