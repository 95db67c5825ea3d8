import Verif.Flags.Lemmas5
/-!
# Options on the way to sub-makes

C32, C79: the options of make reach a sub-make through `MAKEFLAGS`; C80: the memory used on the way; C81: variables
defined on the command line; C82: options as words.
-/
set_option linter.unusedVariables false
set_option linter.unusedSimpArgs false
namespace Remake
open Remake.Spec

variable {F : Type} (ext : List (VarSet × Bool) → Str → List Str → Option Str)

/-! ## C32 -/

/-- C32 for one expansion: words that are quoted, joined with blanks, expanded and split again are the words there were. -/
theorem C32_words_partial (fuel : Nat) (st : XState) (ws : List Str) (hne : ∀ w ∈ ws, w ≠ [])
    (h0 : ∀ w ∈ ws.head?, w.head? = some '-') :
    ∃ t, expand ext (fuel + 1) st (unwords (ws.map quoteForEnv)) = .ok t st ∧ envWords t = ws := by
  cases ws with
  | nil => exact ⟨[], C28_literal ext fuel st [] (by simp), by decide +kernel⟩
  | cons w ws =>
    have hx := expand_spaced ext fuel st (w :: ws)
    rw [← unwords_spaced _ (by simp)] at hx
    have hl : expand ext (fuel + 1) st (unwords ((w :: ws).map quoteForEnv)) = .ok (joinEscaped (w :: ws)) st := by
      cases ws with
      | nil =>
        have := expand_quoted ext fuel st w []
        rw [C28_literal ext fuel st [] (by simp)] at this
        simpa [unwords, joinEscaped, XRes.bind] using this
      | cons x ws =>
        have hu : unwords ((w :: x :: ws).map quoteForEnv) = quoteForEnv w ++ spaced quoteForEnv (x :: ws) := by
          rw [← unwords_spaced _ (by simp)]
          simp [unwords, List.intercalate_cons_cons]
        rw [hu, expand_quoted, expand_spaced, joinEscaped_spaced]
        rfl
    refine ⟨_, hl, ?_⟩
    have h1 := h0 w (by simp)
    have h3 : ∃ t, joinEscaped (w :: ws) = '-' :: t := by
      have := joinEscaped_head (ws := ws) (hne w (by simp))
      cases w with
      | nil => simp at h1
      | cons c w =>
        simp at h1; subst h1
        simp only [escapeBlanks] at this
        rw [if_neg (by decide)] at this
        cases hj : joinEscaped (('-' :: w) :: ws) with
        | nil => rw [hj] at this; simp at this
        | cons a b => rw [hj] at this; simp at this; exact ⟨b, by rw [this]⟩
    obtain ⟨t, h3⟩ := h3
    unfold envWords
    rw [h3, nextToken_dash]
    simp only
    rw [← h3, split_joined _ (by simp) hne]
    simp [h1]

example : ∀ w ∈ (["-I".toList ++ "a b$\\".toList, "--eval=x y".toList] : List Str).head?, w.head? = some '-' := by decide

/-- The option `-I 'a$b'`. -/
def dollarOption (fl : Floats F) : Opts F := (Opts.init fl false).addStr .includeDirectories "a$b".toList

/-- C32 fails for option arguments with a `$` on the real way to the child: the value of `MAKEFLAGS` is expanded for the
environment, and the text from the environment once more by the child, so that `a$b` becomes `a`. -/
theorem C32_dollar_lost (fl : Floats F) (hl : fl.eq fl.dflt fl.dflt = true) (fuel : Nat) (parent child : XState)
    (hc : lookupVariable child.chain ['b'] = none) :
    flagWord (⟨'I'.toNat, .filename, .includeDirectories, true, true, false, none, none, "include-dir".toList⟩, some "a$b".toList) =
      "-Ia$b".toList ∧
    ∃ t u, expand ext (fuel + 1) parent (makeflags fl (dollarOption fl) true false false none) = .ok t parent ∧
      expand ext (fuel + 1) child t = .ok u child ∧ envWords u = ["-Ia".toList] := by
  refine ⟨by decide +kernel, " -Ia$b".toList, " -Ia".toList, ?_, ?_, by decide +kernel⟩
  · have hm : makeflags fl (dollarOption fl) true false false none = " -Ia$$b".toList := by
      have : flagList fl (dollarOption fl) true false =
          [(⟨'I'.toNat, .filename, .includeDirectories, true, true, false, none, none, "include-dir".toList⟩, some "a$b".toList)] := by
        simp [flagList, switches, flagArgs, dollarOption, Opts.init, Opts.addStr, hl]
      rw [makeflags_eq, this]
      decide +kernel
    rw [hm]
    have h1 := expand_ok_concat ext fuel parent (a := "$$".toList) (b := "b".toList) (x := "$".toList) (y := "b".toList)
      (.dollar .nil) (C28_dollar ext fuel parent) (C28_literal ext fuel parent _ (by decide))
    exact expand_ok_concat ext fuel parent (a := " -Ia".toList) (b := "$$b".toList) (closed_literal (by decide))
      (C28_literal ext fuel parent _ (by decide)) h1
  · have h1 : expand ext (fuel + 1) child "$b".toList = .ok [] child := by
      have hl : lex "$b".toList = [.var 'b'] := by
        rw [show "$b".toList = '$' :: 'b' :: [] from rfl, lex_var (by decide) (by decide) (by decide), lex_nil]
      have hll : lookupLoc false child.chain ['b'] = none := by
        have := lookupLoc_eq false child.chain ['b']
        rw [show lookupGo false child.chain ['b'] = none from hc] at this
        cases hx : lookupLoc false child.chain ['b'] with
        | none => rfl
        | some x => rw [hx] at this; cases this
      simp only [expand, hl, evalToks]
      simp [referenceVariable, hll, XRes.bind]
    exact expand_ok_concat ext fuel child (a := " -Ia".toList) (b := "$b".toList) (closed_literal (by decide))
      (C28_literal ext fuel child _ (by decide)) h1

/-- A blank at the end of `MAKEFLAGS` makes an empty word, which `-j` takes for its argument and rejects. -/
theorem C32_last_blank (fl : Floats Unit) (tilde : Str → Option Str) :
    envWords "-j ".toList = ["-j".toList, []] ∧
    (decodeSwitches fl tilde true (envWords "-j ".toList) (Opts.init fl false)).bad = true ∧
    (decodeSwitches fl tilde true (envWords "-j".toList) (Opts.init fl false)).bad = false := by
  have h1 : envWords "-j ".toList = ["-j".toList, []] := by decide +kernel
  have h2 : envWords "-j".toList = ["-j".toList] := by decide +kernel
  have hg : ∀ ws, getopt false false [] ("-j".toList :: ws) = (.opt 'j'.toNat none, [], ws) := by
    intro ws
    have hf : switches.find? (fun cs => cs.short && cs.c == 'j'.toNat) =
      some ⟨'j'.toNat, .positiveInt, .jobSlots, true, true, false, some (.num 0), some (.num (-1)), "jobs".toList⟩ := by decide +kernel
    show getoptShort false 'j' [] ws = _
    unfold getoptShort
    rw [if_neg (by decide), hf]
    rfl
  have hs : switches.find? (fun cs => cs.c == 'j'.toNat) =
      some ⟨'j'.toNat, .positiveInt, .jobSlots, true, true, false, some (.num 0), some (.num (-1)), "jobs".toList⟩ := by decide +kernel
  refine ⟨h1, ?_, ?_⟩
  · rw [h1, decodeSwitches, decodeLoop_opt fl tilde false [] _ _ _ _ _ _ (by simp) (hg _)]
    unfold applyOpt
    rw [hs]
    simp only
    generalize hcs : (⟨'j'.toNat, .positiveInt, .jobSlots, true, true, false, some (.num 0), some (.num (-1)), "jobs".toList⟩ : Switch) = cs
    have h3 : ∀ d : Decoded Unit, storeNumber cs (some []) d = { d with bad := true } := by
      intro d
      simp only [storeNumber]
      rw [if_pos (Or.inl (by decide +kernel))]
    have h4 : ∀ d : Decoded Unit, applySwitch fl tilde true cs none [[]] d = (storeNumber cs (some []) d, []) := by
      intro d; rw [← hcs]; rfl
    rw [h4, h3, decode_none]
  · rw [h2, decodeSwitches, decodeLoop_opt fl tilde false [] _ _ _ _ _ _ (by simp) (hg _)]
    unfold applyOpt
    rw [hs]
    simp only [applySwitch, takeNumber, if_true, Bool.not_true, Bool.false_or, storeNumber]
    rw [decode_none]

/-! ## C79 -/

theorem evalAdd_lst (evals : List Str) (o : Opts F) :
    (evals.foldl (fun o e => o.addStr .evalStrings e) o).lst .evalStrings = o.lst .evalStrings ++ evals ∧
    (evals.foldl (fun o e => o.addStr .evalStrings e) o).num = o.num ∧
    (evals.foldl (fun o e => o.addStr .evalStrings e) o).str = o.str ∧
    (evals.foldl (fun o e => o.addStr .evalStrings e) o).load = o.load ∧
    ∀ v, v ≠ .evalStrings → (evals.foldl (fun o e => o.addStr .evalStrings e) o).lst v = o.lst v := by
  induction evals generalizing o with
  | nil => simp
  | cons e evals ih =>
    obtain ⟨h1, h2, h3, h4, h5⟩ := ih (o.addStr .evalStrings e)
    refine ⟨?_, h2, h3, h4, ?_⟩
    · rw [List.foldl_cons, h1]; simp [Opts.addStr]
    · intro v hv
      rw [List.foldl_cons, h5 v hv]; simp [Opts.addStr, hv]

theorem init_sent (fl : Floats F) (rl : Bool) : ∀ v ∈ sentFlags, (Opts.init fl rl).num v = 0 := by
  intro v hv
  have : v ≠ .jobSlots ∧ v ≠ .useReadline := by
    revert v; decide
  simp [Opts.init, this]

theorem eval_not_sent : ∀ v ∈ sentLists ++ sentFiles, v ≠ .evalStrings := by decide

theorem restWords_ne (evals : List Str) (vars : List CmdVar) : ∀ w ∈ restWords evals vars, w ≠ [] := by
  intro w hw
  unfold restWords at hw
  rcases List.mem_append.1 hw with hw | hw
  · obtain ⟨e, _, rfl⟩ := List.mem_map.1 hw
    exact List.cons_ne_nil _ _
  · by_cases hv : vars = []
    · rw [if_pos hv] at hw; simp at hw
    · rw [if_neg hv] at hw
      rcases List.mem_cons.1 hw with rfl | hw
      · exact List.cons_ne_nil _ _
      · obtain ⟨v, _, rfl⟩ := List.mem_map.1 hw
        simp [definition]

theorem restWords_head (evals : List Str) (vars : List CmdVar) : ∀ w ∈ (restWords evals vars).head?, w.head? = some '-' := by
  unfold restWords
  cases evals with
  | cons e evals => intro w hw; simp at hw; subst hw; rfl
  | nil =>
    intro w hw
    by_cases hv : vars = []
    · simp [hv] at hw
    · simp [hv] at hw; subst hw; rfl

/-- C79: a make that has options `s`, texts of `--eval` and variables from the command line puts a text into the environment from
which a sub-make reads the same options, the same texts and one definition for each variable, and finds nothing wrong.  Here the
options have no `$` in arguments, file names in the form `-I` gives them, and a load average that its text determines; what goes
wrong otherwise is shown below. -/
theorem C79_options_partial (fl : Floats F) (tilde : Str → Option Str) (s : Opts F) (hv : ValidOptions s) (hp : Portable fl tilde s)
    (evals : List Str) (he : ∀ e ∈ evals, e ≠ []) (vars : List CmdVar) (ref : Option Str) (parent child : XState) (fuel : Nat)
    (hst : FlagVars parent evals vars ref) (readline : Bool) :
    ∃ text words, expand ext (fuel + 3) parent (makeflags fl s true false (decide (evals ≠ [])) ref) = .ok text parent ∧
      expand ext (fuel + 1) child text = .ok words child ∧
      SameOptions (decodeSwitches fl tilde true (envWords words) (Opts.init fl readline)).opts s ∧
      (decodeSwitches fl tilde true (envWords words) (Opts.init fl readline)).bad = false ∧
      (decodeSwitches fl tilde true (envWords words) (Opts.init fl readline)).opts.lst .evalStrings = evals ∧
      (decodeSwitches fl tilde true (envWords words) (Opts.init fl readline)).args = vars.map definition := by
  have hm := flagList_mem fl s false
  have hsw : ∀ f ∈ flagList fl s true false, f.1 ∈ switches := fun f hf => (hm f hf).1
  have hd : ∀ f ∈ flagList fl s true false, ∀ a, f.2 = some a → '$' ∉ a := fun f hf =>
    flagArgs_dollar fl tilde hv hp (hm f hf).1 (hm f hf).2.1 (hm f hf).2.2
  have hok : ∀ f ∈ flagList fl s true false, FlagOk f := fun f hf =>
    flagArgs_ok fl tilde hv hp (hm f hf).1 (hm f hf).2.1 (hm f hf).2.2
  have hb := body_dollar hsw hd
  refine ⟨_, _, parent_text ext fuel fl s false hst hb, child_text ext fuel child hb _, ?_⟩
  rw [child_words hsw hd (restWords_ne evals vars) (restWords_head evals vars), child_decode fl tilde _ hok evals he vars]
  obtain ⟨e1, e2, e3, e4, e5⟩ := evalAdd_lst evals ((flagList fl s true false).foldl (sendOne fl tilde) (Opts.init fl readline))
  refine ⟨⟨?_, ?_, ?_, ?_, ?_⟩, rfl, ?_, rfl⟩
  · intro v hv'
    show (evals.foldl (fun (o : Opts F) e => o.addStr OptVar.evalStrings e) _).num v = _
    rw [e2]
    exact final_flag fl tilde s _ hv' (hv.flags v hv') (init_sent fl readline v hv')
  · show (evals.foldl (fun (o : Opts F) e => o.addStr OptVar.evalStrings e) _).num _ = _
    rw [e2]
    exact final_jobs fl tilde s _ hv.jobs (by simp [Opts.init])
  · show (evals.foldl (fun (o : Opts F) e => o.addStr OptVar.evalStrings e) _).load = _
    rw [e4]
    exact final_load fl tilde s _ hp rfl
  · intro v hv'
    show (evals.foldl (fun (o : Opts F) e => o.addStr OptVar.evalStrings e) _).str v = _
    rw [e3]
    exact final_string fl tilde s _ hv' rfl
  · intro v hv'
    show (evals.foldl (fun (o : Opts F) e => o.addStr OptVar.evalStrings e) _).lst v = _
    rw [e5 v (eval_not_sent v hv')]
    exact final_list fl tilde s _ hv' hp rfl
  · show (evals.foldl (fun (o : Opts F) e => o.addStr OptVar.evalStrings e) _).lst _ = _
    rw [e1]
    have := (foldl_filter fl tilde .evalStrings (flagList fl s true false) hsw (Agree.refl _ (Opts.init fl readline))).2.2.1
    rw [this, flagList_for, show sentFor .evalStrings = [] by decide +kernel]
    rfl

/-- `-k -j4 -I 'my dir'`, `--eval 'A=$(B) c'`, `V=$(X)` and `W:=x y`. -/
def sampleOpts (fl : Floats F) : Opts F :=
  ((((Opts.init fl false).setNum .keepGoing 1).setNum .jobSlots 4).addStr .includeDirectories "my dir".toList)
/-- See `sampleOpts`. -/
def sampleVars : List CmdVar := [⟨['V'], true, "$(X)".toList⟩, ⟨['W'], false, "x y".toList⟩]
/-- See `sampleOpts`. -/
def sampleParent : XState :=
  oneSet [("-*-eval-flags-*-".toList, { value := evalFlags ["A=$(B) c".toList], recursive := false, origin := .automatic }),
    (posixRef, { value := commandVariables sampleVars, recursive := false, origin := .automatic }),
    (overridesRef, { value := "${-*-command-variables-*-}".toList, recursive := true, origin := .env })]

example (fl : Floats F) (h : fl.eq fl.dflt fl.dflt = true) :
    ValidOptions (sampleOpts fl) ∧ Portable fl (fun _ => none) (sampleOpts fl) ∧
    FlagVars sampleParent ["A=$(B) c".toList] sampleVars (some overridesRef) ∧
    makeflags fl (sampleOpts fl) true false true (some overridesRef) =
      "k -Imy\\ dir -j4 $(-*-eval-flags-*-) -- $(MAKEOVERRIDES)".toList := by
  refine ⟨addStr_valid (setNum_valid (setNum_valid (init_valid fl false) (by simp) (by simp)) (by simp [sentFlags]) (by simp)) (by simp),
    ⟨?_, ?_, ?_, Or.inl ⟨h, rfl⟩⟩, ⟨?_, ?_, ?_, ?_⟩, ?_⟩
  · intro v _ x hx; simp [sampleOpts, Opts.addStr, Opts.setNum, Opts.init] at hx
  · intro v _ x hx
    simp only [sampleOpts, Opts.addStr, Opts.setNum, Opts.init, List.nil_append] at hx
    split at hx <;> simp at hx
    subst hx; decide
  · intro v _ x hx
    simp only [sampleOpts, Opts.addStr, Opts.setNum, Opts.init, List.nil_append] at hx
    split at hx <;> simp at hx
    subst hx; decide +kernel
  · intro _
    exact ⟨{ value := evalFlags ["A=$(B) c".toList], recursive := false, origin := .automatic }, by decide +kernel, rfl, rfl⟩
  · intro h; cases h
  · intro _
    exact ⟨⟨{ value := commandVariables sampleVars, recursive := false, origin := .automatic }, by decide +kernel, rfl, rfl⟩,
      Or.inr ⟨rfl, { value := "${-*-command-variables-*-}".toList, recursive := true, origin := .env }, by decide +kernel, rfl, rfl, rfl⟩⟩
  · intro id; rfl
  · have : flagList fl (sampleOpts fl) true false =
        [(⟨'k'.toNat, .flag, .keepGoing, true, true, false, none, some (.num 0), "keep-going".toList⟩, none),
         (⟨'I'.toNat, .filename, .includeDirectories, true, true, false, none, none, "include-dir".toList⟩, some "my dir".toList),
         (⟨'j'.toNat, .positiveInt, .jobSlots, true, true, false, some (.num 0), some (.num (-1)), "jobs".toList⟩, some (fmtU 4))] := by
      simp [flagList, switches, flagArgs, sampleOpts, Opts.init, Opts.addStr, Opts.setNum, h]
    rw [makeflags_eq, this]
    decide +kernel

/-- C79: every option that reading words can leave behind is of the kind sent. -/
theorem C79_values (fl : Floats F) (tilde : Str → Option Str) (env : Bool) (ws : List Str) (s : Opts F)
    (h : ValidOptions s) : ValidOptions (decodeSwitches fl tilde env ws s).opts :=
  decodeLoop_valid fl tilde env false [] ws _ h

example (fl : Floats F) : ValidOptions (Opts.init fl true) := init_valid fl true

/-- The options without `-n`, `-q` and `-t`. -/
def forMakefiles (s : Opts F) : Opts F := ((s.setNum .justPrint 0).setNum .question 0).setNum .touch 0

/-- C79: while makefiles are remade, `MAKEFLAGS` is what it would be without `-n`, `-q` and `-t`, and the other options are in it as
always. -/
theorem C79_makefiles (fl : Floats F) (s : Opts F) (eval : Bool) (ref : Option Str) :
    makeflags fl s true true eval ref = makeflags fl (forMakefiles s) true false eval ref := by
  have h : flagList fl s true true = flagList fl (forMakefiles s) true false := by
    unfold flagList
    have key : ∀ l : List Switch, (∀ cs ∈ l, cs ∈ switches) →
        ((l.filter fun cs => cs.toenv && (!true || !cs.noMakefile)).flatMap fun cs => (flagArgs fl s true cs).map fun a => (cs, a)) =
        ((l.filter fun cs => cs.toenv && (!false || !cs.noMakefile)).flatMap fun cs =>
          (flagArgs fl (forMakefiles s) true cs).map fun a => (cs, a)) := by
      intro l hl
      induction l with
      | nil => rfl
      | cons cs l ih =>
        have ih := ih (fun x hx => hl x (by simp [hx]))
        have hcs := hl cs (by simp)
        have t1 : ∀ cs ∈ switches, cs.noMakefile = true → cs.type = .flag ∧ (cs.var = .justPrint ∨ cs.var = .question ∨ cs.var = .touch) := by
          decide +kernel
        have t2 : ∀ cs ∈ switches, cs.toenv = true → cs.noMakefile = false → cs.var ≠ .justPrint ∧ cs.var ≠ .question ∧ cs.var ≠ .touch := by
          decide +kernel
        simp only [Bool.not_true, Bool.false_or, Bool.not_false, Bool.true_or, Bool.and_true, List.filter_cons] at *
        cases h1 : cs.toenv with
        | false => simp [ih]
        | true =>
          cases h2 : cs.noMakefile with
          | true =>
            obtain ⟨h3, h4⟩ := t1 cs hcs h2
            have : flagArgs fl (forMakefiles s) true cs = [] := by
              have hz : (forMakefiles s).num cs.var = 0 := by
                rcases h4 with h4 | h4 | h4 <;> rw [h4] <;> simp [forMakefiles, Opts.setNum]
              simp [flagArgs, h3, hz]
            simp [ih, this]
          | false =>
            obtain ⟨h3, h4, h5⟩ := t2 cs hcs h1 h2
            have : flagArgs fl (forMakefiles s) true cs = flagArgs fl s true cs := by
              have hz : (forMakefiles s).num cs.var = s.num cs.var := by simp [forMakefiles, Opts.setNum, h3, h4, h5]
              unfold flagArgs
              simp only [hz]
              rfl
            simp [ih, this]
    exact key switches (fun _ h => h)
  rw [makeflags_eq, makeflags_eq, h]

/-- C79 fails for file names that begin with `./~`: the parent's `-I ./~/x` is `~/x` afterwards, which the child takes for a
directory under the home directory. -/
theorem C79_tilde (tilde : Str → Option Str) (h : tilde "~/x".toList = some "/home/x".toList) :
    expandFile tilde "./~/x".toList = "~/x".toList ∧ expandFile tilde "~/x".toList = "/home/x".toList := by
  have hs : stripDotSlash "./~/x".toList = "~/x".toList := by decide +kernel
  have hs' : stripDotSlash "/home/x".toList = "/home/x".toList := by decide +kernel
  have e1 : ∀ x : Str, x.head? ≠ some '~' → stripDotSlash x ≠ [] → expandFile tilde x = stripDotSlash x := by
    intro x h1 h2
    unfold expandFile
    simp only [if_neg h1, if_neg h2]
  have e2 : ∀ x e : Str, x.head? = some '~' → tilde x = some e → e ≠ [] → stripDotSlash e ≠ [] → expandFile tilde x = stripDotSlash e := by
    intro x e h1 h2 h3 h4
    unfold expandFile
    simp only [if_pos h1, h2, if_pos h3, if_neg h4]
  exact ⟨by rw [e1 _ (by decide) (by rw [hs]; decide), hs], by rw [e2 _ _ (by decide) h (by decide) (by rw [hs']; decide), hs']⟩

/-! ## C80 -/

/-- C80: the value of `MAKEFLAGS`, a dash before it and the NUL after it fit into the memory for them. -/
theorem C80_makeflags (fl : Floats F) (s : Opts F) (all mk eval : Bool) (ref : Option Str)
    (hr : ref = none ∨ ref = some posixRef ∨ ref = some overridesRef) :
    1 + (makeflags fl s all mk eval ref).length + 1 ≤ 1 + flagsLen (flagList fl s all mk) + 1 := by
  have h1 := flagsBody_length (flagList fl s all mk)
  have h2 : posixRef.length = 23 := by decide
  have h3 : evalRefText.length = 19 := by decide
  have h4 : overridesRef.length = 13 := by decide
  unfold makeflags flagsLen
  rcases hr with rfl | rfl | rfl <;> cases eval <;> cases all <;> simp [h2, h3, h4] <;> omega

example : (posixRef ≠ overridesRef) := by decide

/-- C80: so do the texts of `--eval`, with a blank after each, the last of which becomes the NUL. -/
theorem C80_eval (l : List Str) (h : l ≠ []) : (evalFlags l).length + 1 ≤ evalFlagsRoom l := by
  have key : ∀ l : List Str, (l.flatMap fun e => "--eval=".toList ++ quoteForEnv e ++ [' ']).length ≤ evalFlagsRoom l := by
    intro l
    induction l with
    | nil => simp
    | cons e l ih =>
      have := quoteForEnv_length e
      simp only [evalFlagsRoom, List.flatMap_cons, List.length_append, List.length_cons, List.map_cons, List.sum_cons] at *
      simp only [show "--eval=".toList.length = 7 by decide, List.length_nil] at *
      omega
  have h1 := key l
  have h2 : 1 ≤ (l.flatMap fun e => "--eval=".toList ++ quoteForEnv e ++ [' ']).length := by
    cases l with
    | nil => exact absurd rfl h
    | cons e l => simp
  unfold evalFlags
  rw [List.length_dropLast]
  omega

example : (evalFlags ["a$ b".toList]).length + 1 ≤ evalFlagsRoom ["a$ b".toList] := C80_eval _ (by simp)

/-- C80: and the definitions from the command line. -/
theorem C80_variables (l : List CmdVar) (h : l ≠ []) : (commandVariables l).length + 1 ≤ commandVariablesRoom l := by
  have key : ∀ l : List CmdVar, (l.flatMap fun v =>
      quoteForEnv v.name ++ (if v.recursive then [] else [':']) ++ ['='] ++ quoteForEnv v.value ++ [' ']).length ≤ commandVariablesRoom l := by
    intro l
    induction l with
    | nil => simp
    | cons v l ih =>
      have := quoteForEnv_length v.name
      have := quoteForEnv_length v.value
      simp only [commandVariablesRoom, List.flatMap_cons, List.length_append, List.map_cons, List.sum_cons] at *
      cases v.recursive <;> simp at * <;> omega
  have h1 := key l
  have h2 : 1 ≤ (l.flatMap fun v =>
      quoteForEnv v.name ++ (if v.recursive then [] else [':']) ++ ['='] ++ quoteForEnv v.value ++ [' ']).length := by
    cases l with
    | nil => exact absurd rfl h
    | cons e l => simp; omega
  unfold commandVariables
  rw [List.length_dropLast]
  omega

example : (commandVariables sampleVars).length + 1 ≤ commandVariablesRoom sampleVars := C80_variables _ (by decide)

/-- C80: the words of `MAKEFLAGS`, each with its NUL, and a dash before them fit into the buffer of `1 + len + 1` bytes, and the
words, an entry before them and one after them into the vector of `1 + len + 1` pointers. -/
theorem C80_words (value v : Str) (hv : nextToken value = v) (hne : v ≠ []) :
    1 + ((splitEnvGo [] v).map (·.length + 1)).sum ≤ 1 + v.length + 1 ∧ 1 + (splitEnvGo [] v).length + 1 ≤ 1 + v.length + 1 := by
  have h := splitEnvGo_size [] v
  simp only [List.length_nil] at h
  refine ⟨by omega, ?_⟩
  have hgrow : ∀ s acc : Str, acc ≠ [] → (splitEnvGo acc s).length + 1 ≤ ((splitEnvGo acc s).map (·.length + 1)).sum := by
    intro s
    induction hn : s.length using Nat.strongRecOn generalizing s with
    | ind n ih =>
      subst hn
      intro acc ha
      have hpos : 1 ≤ acc.length := by
        cases acc with
        | nil => exact absurd rfl ha
        | cons c acc => simp
      rw [splitEnvGo.eq_def]
      split
      · simp; omega
      · rename_i c cs
        split
        · split
          · exact ih 0 (by simp) [] rfl _ (by simp)
          · rename_i d ds
            exact ih ds.length (by simp; omega) ds rfl _ (by simp)
        · split
          · have := length_le_size (splitEnvGo [] (cs.dropWhile isBlank))
            simp at *; omega
          · exact ih cs.length (by simp) cs rfl _ (by simp)
  have hfirst : (splitEnvGo [] v).length + 1 ≤ ((splitEnvGo [] v).map (·.length + 1)).sum := by
    cases v with
    | nil => exact absurd rfl hne
    | cons c cs =>
      have hc : isBlank c = false := by
        cases hb : isBlank c with
        | false => rfl
        | true =>
          exfalso
          have h1 : isSpace c = true := by
            simp only [isBlank, Bool.or_eq_true, beq_iff_eq, decide_eq_true_eq] at hb
            rcases hb with rfl | rfl <;> decide
          have h3 : value.dropWhile isSpace = c :: cs := hv
          have h2 := List.head_dropWhile_not isSpace (l := value) (by simp [h3])
          simp only [h3, List.head_cons] at h2
          rw [h1] at h2; cases h2
      rw [splitEnvGo.eq_def]
      simp only
      split
      · split
        · exact hgrow _ _ (by simp)
        · exact hgrow _ _ (by simp)
      · rw [if_neg (by simp [hc])]
        exact hgrow _ _ (by simp)
  omega

example : nextToken "  k -j4".toList = "k -j4".toList := by decide +kernel

/-! ## C81 -/

/-- C81: the child takes the word for a definition of the same variable, with the same flavour and the same text, if the name needs no
quoting and the text does not begin with white space. -/
theorem C81_recognised_partial (v : CmdVar) (hn : PlainVarName v.name) (hs : ∀ c, v.value.head? = some c → isSpace c = false) :
    parseVariableDefinition (definition v) = some ⟨v.name, if v.recursive then .recursive else .simple, v.value⟩ := by
  rw [C27_recognised]
  have hval : v.value.dropWhile isSpace = v.value := by
    cases hv : v.value with
    | nil => rfl
    | cons c cs =>
      rw [hv] at hs
      have := hs c rfl
      simp [this]
  have hhead : ∀ r : Str, (v.name ++ r).head?.all (fun c => !isSpace c) = true := by
    intro r
    obtain ⟨h1, h2⟩ := hn
    cases hv : v.name with
    | nil => exact absurd hv h1
    | cons c cs =>
      have := (h2 c (by rw [hv]; simp)).2.2.2.2.2.2.2
      simp [this]
  cases hr : v.recursive with
  | true =>
    refine ⟨[], [], ['='], v.value, by simp [definition, hr], by simp, ?_, Or.inl rfl, plain_nameText hn.2 _, .rec_, hval.symm⟩
    simpa using hhead ['=']
  | false =>
    refine ⟨[], [], [':', '='], v.value, by simp [definition, hr], by simp, ?_, Or.inl rfl, plain_nameText hn.2 _, .simple, hval.symm⟩
    simpa using hhead [':', '=']

example : PlainVarName "CFLAGS".toList := by unfold PlainVarName; decide

/-- C81: the whole way: the definitions the child reads from its environment are those of the parent. -/
theorem C81_arrive_partial (fl : Floats F) (tilde : Str → Option Str) (s : Opts F) (hv : ValidOptions s) (hp : Portable fl tilde s)
    (evals : List Str) (he : ∀ e ∈ evals, e ≠ []) (vars : List CmdVar) (ref : Option Str) (parent child : XState) (fuel : Nat)
    (hst : FlagVars parent evals vars ref) (readline : Bool)
    (hn : ∀ v ∈ vars, PlainVarName v.name ∧ ∀ c, v.value.head? = some c → isSpace c = false) :
    ∃ text words, expand ext (fuel + 3) parent (makeflags fl s true false (decide (evals ≠ [])) ref) = .ok text parent ∧
      expand ext (fuel + 1) child text = .ok words child ∧
      (decodeSwitches fl tilde true (envWords words) (Opts.init fl readline)).args.map parseVariableDefinition =
        vars.map fun v => some ⟨v.name, if v.recursive then .recursive else .simple, v.value⟩ := by
  obtain ⟨t, w, h1, h2, _, _, _, h3⟩ := C79_options_partial ext fl tilde s hv hp evals he vars ref parent child fuel hst readline
  refine ⟨t, w, h1, h2, ?_⟩
  rw [h3, List.map_map]
  apply List.map_congr_left
  intro v hv'
  exact C81_recognised_partial v (hn v hv').1 (hn v hv').2

example : ∀ v ∈ sampleVars, PlainVarName v.name ∧ ∀ c, v.value.head? = some c → isSpace c = false := by
  intro v hv
  simp only [sampleVars, List.mem_cons, List.not_mem_nil, or_false] at hv
  rcases hv with rfl | rfl
  · exact ⟨by unfold PlainVarName; decide, by intro c h; simp at h; subst h; decide⟩
  · exact ⟨by unfold PlainVarName; decide, by intro c h; simp at h; subst h; decide⟩

/-- C81: a simple variable without `$` keeps its value when the child expands the text. -/
theorem C81_simple_partial (fuel : Nat) (child : XState) (v : CmdVar) (h : '$' ∉ v.value) :
    expand ext (fuel + 1) child v.value = .ok v.value child := C28_literal ext fuel child _ h

example : '$' ∉ "x y".toList := by decide

/-- C81 fails for a simple variable whose value has a `$` (`X:=a$$b` on the command line): the text that reaches the child is `X:=a$b`,
and the child expands it once more. -/
theorem C81_simple_dollar (fuel : Nat) (child : XState) (hc : lookupVariable child.chain ['b'] = none) :
    parseVariableDefinition (definition ⟨['X'], false, "a$b".toList⟩) = some ⟨['X'], .simple, "a$b".toList⟩ ∧
    expand ext (fuel + 1) child "a$b".toList = .ok ['a'] child := by
  refine ⟨by decide +kernel, ?_⟩
  have h1 : expand ext (fuel + 1) child "$b".toList = .ok [] child := by
    have hl : lex "$b".toList = [.var 'b'] := by
      rw [show "$b".toList = '$' :: 'b' :: [] from rfl, lex_var (by decide) (by decide) (by decide), lex_nil]
    have hll : lookupLoc false child.chain ['b'] = none := by
      have := lookupLoc_eq false child.chain ['b']
      rw [show lookupGo false child.chain ['b'] = none from hc] at this
      cases hx : lookupLoc false child.chain ['b'] with
      | none => rfl
      | some x => rw [hx] at this; cases this
    simp only [expand, hl, evalToks]
    simp [referenceVariable, hll, XRes.bind]
  exact expand_ok_concat ext fuel child (a := "a".toList) (b := "$b".toList) (closed_literal (by decide))
    (C28_literal ext fuel child _ (by decide)) h1

/-- C81 fails for values with white space in front, as `define` gives them or `X:=$(empty) a`: it is dropped. -/
theorem C81_leading_blank :
    parseVariableDefinition (definition ⟨['X'], false, " a".toList⟩) = some ⟨['X'], .simple, "a".toList⟩ := by decide +kernel

/-! ## C82 -/

/-- C82: a long option is the one with the name given, else the only one whose name begins so. -/
theorem C82_abbreviation (name : Str) (opts : List LongOpt) : findLong name opts none false = longOptionFor name opts :=
  findLong_none name opts

example : longOptionFor "always".toList longOptions = .found ⟨"always-make".toList, .no, 'B'.toNat⟩ ∧
    longOptionFor "no-print".toList longOptions = .found ⟨"no-print-directory".toList, .no, charMax + 4⟩ ∧
    longOptionFor "print".toList longOptions = .ambiguous := by decide +kernel

/-- C82: what a word with a long option and its argument, after `=` or in the next word, means on the command line. -/
theorem C82_long (i : Bool) (name arg : Str) (ws : List Str) (hn : '=' ∉ name) (h0 : name ≠ []) :
    (∀ p, longOptionFor name longOptions = .found p →
      (p.hasArg ≠ .no → getopt true i [] (('-' :: '-' :: name ++ '=' :: arg) :: ws) = (.opt p.val (some arg), [], ws)) ∧
      (p.hasArg = .no → getopt true i [] (('-' :: '-' :: name ++ '=' :: arg) :: ws) = (.bad, [], ws)) ∧
      (p.hasArg ≠ .required → getopt true i [] (('-' :: '-' :: name) :: ws) = (.opt p.val none, [], ws)) ∧
      (p.hasArg = .required → getopt true i [] (('-' :: '-' :: name) :: arg :: ws) = (.opt p.val (some arg), [], ws)) ∧
      (p.hasArg = .required → getopt true i [] [('-' :: '-' :: name)] = (.bad, [], []))) ∧
    ((∀ p, longOptionFor name longOptions ≠ .found p) → getopt true i [] (('-' :: '-' :: name) :: ws) = (.bad, [], ws)) := by
  have hg : ∀ (t : Str) (ws : List Str), t ≠ [] → getopt true i [] (('-' :: '-' :: t) :: ws) = getoptLong true t ws := by
    intro t ws ht
    cases t with
    | nil => exact absurd rfl ht
    | cons x t => rfl
  have hall : ∀ c ∈ name, decide (c ≠ '=') = true := fun c hc => by
    simp only [decide_eq_true_eq]; rintro rfl; exact hn hc
  have e1 : (name ++ '=' :: arg).takeWhile (fun x => decide (x ≠ '=')) = name := by
    rw [List.takeWhile_append_of_pos hall]; simp
  have e2 : (name ++ '=' :: arg).dropWhile (fun x => decide (x ≠ '=')) = '=' :: arg := by
    rw [List.dropWhile_append_of_pos hall]; simp
  have e3 : name.takeWhile (fun x => decide (x ≠ '=')) = name := by
    have := List.takeWhile_append_of_pos (l₂ := []) hall; simpa using this
  have e4 : name.dropWhile (fun x => decide (x ≠ '=')) = [] := by
    have := List.dropWhile_append_of_pos (l₂ := []) hall; simpa using this
  have ha : ('-' :: '-' :: name ++ '=' :: arg : Str) = '-' :: '-' :: (name ++ '=' :: arg) := rfl
  constructor
  · intro p hp
    rw [← findLong_none] at hp
    refine ⟨?_, ?_, ?_, ?_, ?_⟩
    · intro h
      rw [ha, hg _ _ (by simp)]
      unfold getoptLong
      rw [e1, e2]
      simp only [hp]
    · intro h
      rw [ha, hg _ _ (by simp)]
      unfold getoptLong
      rw [e1, e2]
      simp only [hp, h, if_true]
    · intro h
      rw [hg _ _ h0]
      unfold getoptLong
      rw [e3, e4]
      simp only [hp]
    · intro h
      rw [hg _ _ h0]
      unfold getoptLong
      rw [e3, e4]
      simp only [hp, h]
    · intro h
      rw [hg _ _ h0]
      unfold getoptLong
      rw [e3, e4]
      simp only [hp, h]
  · intro h
    rw [hg _ _ h0]
    unfold getoptLong
    rw [e3, e4]
    cases hf : findLong name longOptions none false with
    | found p => rw [findLong_none] at hf; exact absurd hf (h p)
    | ambiguous => simp only [hf]
    | unknown => simp only [hf]

example : longOptionFor "dir".toList longOptions = .found ⟨"directory".toList, .required, 'C'.toNat⟩ ∧ '=' ∉ "dir".toList := by
  decide +kernel

/-- C82: letters without arguments may be given in one word or in several. -/
theorem C82_group_partial (fl : Floats F) (tilde : Str → Option Str) (l : List Switch) (hne : l ≠ [])
    (h : ∀ cs ∈ l, cs ∈ switches ∧ cs.env = true ∧ cs.short = true ∧ (cs.type = .flag ∨ cs.type = .flagOff)) (s : Opts F) :
    decodeSwitches fl tilde true ['-' :: l.map (·.letter)] s = decodeSwitches fl tilde true (l.map fun cs => ['-', cs.letter]) s := by
  have hok : ∀ f ∈ l.map (fun cs => (cs, (none : Option Str))), FlagOk f := by
    intro f hf
    obtain ⟨cs, hcs, rfl⟩ := List.mem_map.1 hf
    exact ⟨(h cs hcs).1, (h cs hcs).2.1, (h cs hcs).2.2.2⟩
  have hs : ∀ f ∈ l.map (fun cs => (cs, (none : Option Str))), isSimple f = true := by
    intro f hf
    obtain ⟨cs, hcs, rfl⟩ := List.mem_map.1 hf
    simp [isSimple, (h cs hcs).2.2.1]
  have h1 := decode_group fl tilde _ hok hs (by simpa using hne) [] ⟨s, [], false⟩
  obtain ⟨i', _, h2⟩ := decode_words fl tilde _ hok [] (by simp) false ⟨s, [], false⟩
  rw [List.map_map] at h1
  rw [List.append_nil, List.map_map] at h2
  have hw : l.map (flagWord ∘ fun cs => (cs, none)) = l.map fun cs => ['-', cs.letter] := by
    apply List.map_congr_left
    intro cs hcs
    simp [flagWord, (h cs hcs).2.2.1]
  rw [hw] at h2
  unfold decodeSwitches
  refine Eq.trans h1 (Eq.trans ?_ h2.symm)
  rw [decode_none, decode_none]

example : ∀ cs ∈ switches.filter (fun cs => cs.c = 'k'.toNat ∨ cs.c = 'n'.toNat),
    cs ∈ switches ∧ cs.env = true ∧ cs.short = true ∧ (cs.type = .flag ∨ cs.type = .flagOff) := by decide +kernel

/-- C82 fails in `MAKEFLAGS`: an argument given to a long option that takes none is an error on the command line, but passes in
silence there. -/
theorem C82_silent_argument :
    getopt true false [] ["--silent=x".toList] = (.bad, [], []) ∧
    getopt false false [] ["--silent=x".toList] = (.opt 's'.toNat none, [], []) := by decide +kernel

/-- C82 fails for the letter `-`: no option has it, but it is refused only in the first option of all. -/
theorem C82_dash_letter (fl : Floats F) (tilde : Str → Option Str) (s : Opts F) :
    (decodeSwitches fl tilde false ["-k-q".toList] s).bad = false ∧
    (∀ cs ∈ switches, cs.c ≠ '-'.toNat) := by
  refine ⟨?_, by decide +kernel⟩
  have step : ∀ (i : Bool) (cur : Str) (ws : List Str) (d : Decoded F) (c : Nat) (a : Option Str) (cur' : Str) (ws' : List Str),
      ¬ (cur = [] ∧ ws = []) → getopt true i cur ws = (.opt c a, cur', ws') →
      decodeLoop fl tilde false i cur ws d =
        decodeLoop fl tilde false true cur' (applyOpt fl tilde false c a ws' d).2 (applyOpt fl tilde false c a ws' d).1 := by
    intro i cur ws d c a cur' ws' h0 h
    rw [decodeLoop.eq_def]
    rw [dif_neg h0]
    split
    all_goals
      rename_i hh
      simp only [Bool.not_false] at hh
      rw [h] at hh
      simp only [Prod.mk.injEq, GetOpt.opt.injEq, reduceCtorEq, false_and] at hh
    obtain ⟨⟨rfl, rfl⟩, rfl, rfl⟩ := hh
    rfl
  have ap : ∀ (c : Nat) (d : Decoded F), c = 'k'.toNat ∨ c = 'q'.toNat ∨ c = '-'.toNat →
      (applyOpt fl tilde false c none [] d).1.bad = d.bad ∧ (applyOpt fl tilde false c none [] d).2 = [] := by
    intro c d hc
    have f1 : switches.find? (fun cs => cs.c == 'k'.toNat) =
      some ⟨'k'.toNat, .flag, .keepGoing, true, true, false, none, some (.num 0), "keep-going".toList⟩ := by decide +kernel
    have f2 : switches.find? (fun cs => cs.c == 'q'.toNat) =
      some ⟨'q'.toNat, .flag, .question, true, true, true, none, none, "question".toList⟩ := by decide +kernel
    have f3 : switches.find? (fun cs => cs.c == '-'.toNat) = none := by decide +kernel
    unfold applyOpt
    rcases hc with rfl | rfl | rfl
    · rw [f1]; exact ⟨rfl, rfl⟩
    · rw [f2]; exact ⟨rfl, rfl⟩
    · rw [f3]; exact ⟨rfl, rfl⟩
  unfold decodeSwitches
  rw [step false [] ["-k-q".toList] _ 'k'.toNat none "-q".toList [] (by simp) (by decide +kernel), (ap _ _ (by simp)).2,
    step true "-q".toList [] _ '-'.toNat none "q".toList [] (by simp) (by decide +kernel), (ap _ _ (by simp)).2,
    step true "q".toList [] _ 'q'.toNat none [] [] (by simp) (by decide +kernel), (ap _ _ (by simp)).2, decodeLoop.eq_def,
    dif_pos ⟨rfl, rfl⟩, (ap _ _ (by simp)).1, (ap _ _ (by simp)).1, (ap _ _ (by simp)).1]

end Remake
