import Verif.DataBase.Lemmas
import Verif.Print.Lemmas2
set_option linter.unusedVariables false
set_option linter.unusedSimpArgs false
namespace Remake
open Spec

variable {σ : Type}

/-! ## No assignments -/

theorem noAssign_words {t : Str} (h : '=' ∉ t) (hw : tokenPrefix (nextToken t) ∉ assignWords) : parseVarAssignment t = none := by
  unfold parseVarAssignment
  split
  · rfl
  · have h' : '=' ∉ nextToken t := fun hm => h ((List.dropWhile_sublist _).subset hm)
    simp only [assignWords, List.mem_cons, List.not_mem_nil, or_false, not_or] at hw
    rw [varAssignGo.eq_def, not_assigns h']
    simp only [Option.isSome_none, Bool.false_eq_true, if_false, if_neg hw.1, if_neg hw.2.1]
    rw [dif_neg]
    rintro (h | h | h)
    · exact hw.2.2.1 h
    · exact hw.2.2.2.1 h
    · exact hw.2.2.2.2 h

theorem findMapUnquoteGo_none {p : Char → Bool} : ∀ (s rev : Str), (∀ c ∈ s, p c = false) → '$' ∉ s →
    findMapUnquoteGo p true rev s = .none (rev.reverse ++ s) := by
  intro s
  induction s with
  | nil => intro rev _ _; rw [findMapUnquoteGo.eq_def]; simp
  | cons c cs ih =>
    intro rev h1 h2
    simp only [List.mem_cons, not_or] at h2
    have e1 : (c == '$') = false := by simpa using fun e => h2.1 e.symm
    have e2 : p c = false := h1 c (by simp)
    rw [findMapUnquoteGo.eq_def]
    simp only [e1, e2, Bool.and_false, Bool.false_eq_true, if_false]
    rw [ih _ (fun c hc => h1 c (by simp [hc])) h2.2]; simp

theorem cutLine_head (E : RdEnv σ) {l : Str} (h : ∀ c ∈ ['\n', '$', ';', '#'], c ∉ l) :
    cutLine E l = (l, E.garbage l, none) := by
  have e : findMapUnquote (fun c => c == ';' || c == '#') true l = .none l := by
    rw [findMapUnquote, findMapUnquoteGo_none]
    · rfl
    · intro c hc
      by_cases h1 : c = ';'
      · subst h1; exact absurd hc (h _ (by simp))
      · by_cases h2 : c = '#'
        · subst h2; exact absurd hc (h _ (by simp))
        · simp [h1, h2]
    · exact h _ (by simp)
  have hn : '\n' ∉ l := h _ (by simp)
  unfold cutLine
  rw [e]
  simp only [if_neg hn, C17_no_newline E.posix l hn]

/-! ## Lists of names -/

theorem dbName_plain {w : Str} (h : DbName w) : PlainWord w :=
  ⟨dbName_chars h (by decide), dbName_chars h (by decide), dbName_chars h (by decide), dbName_chars h (by decide),
    dbName_chars h (by decide)⟩

theorem dbName_lookup {w : Str} (h : DbName w) : lookupName w = w :=
  (stripped_unique ⟨[], w, rfl, .nil, fun h => absurd rfl h, h.2.2, by rw [if_neg h.1]⟩).symm

theorem dbName_begins {w : Str} (h : DbName w) : Begins w := by
  cases w with
  | nil => exact absurd rfl h.1
  | cons c cs => exact ⟨c, cs, rfl, (h.2.1 c (by simp)).1⟩

theorem dbName_quoted {w : Str} (h : DbName w) {sp : Char → Bool} (hs : ∀ c, sp c = true → c = '|' ∨ isSpace c = true)
    {e : Bool} : Quoted sp e w w := by
  refine quoted_plain fun c hc => ⟨?_, fun e => dbName_chars h (c := '\\') (by decide) (e ▸ hc)⟩
  cases hsc : sp c with
  | false => rfl
  | true =>
    rcases hs c hsc with rfl | hh
    · exact absurd hc (dbName_chars h (by decide))
    · exact absurd hc (dbName_chars h (.inl hh))

theorem endsName_ok (c : Char) (h : endsName c = true) : c = '|' ∨ isSpace c = true := by
  unfold endsName isBlank at h
  simp only [Bool.or_eq_true, beq_iff_eq] at h
  rcases h with h | h | h
  · exact .inl h
  · subst h; right; decide
  · subst h; right; decide

theorem isBlank_ok (c : Char) (h : isBlank c = true) : c = '|' ∨ isSpace c = true :=
  endsName_ok c (by unfold endsName; simp [h])

theorem listing_row {sp : Char → Bool} (hs : ∀ c, sp c = true → c = '|' ∨ isSpace c = true) :
    ∀ (ns : List Str) (n pre : Str), (∀ w ∈ n :: ns, DbName w) → Spaces pre →
      Listing sp true (n :: ns) (pre ++ (n ++ ns.flatMap fun w => ' ' :: w)) := by
  intro ns
  induction ns with
  | nil =>
    intro n pre h hp
    have hn := h n (by simp)
    simp only [List.flatMap_nil, List.append_nil]
    exact .last hp (dbName_begins hn) (dbName_quoted hn hs)
  | cons m ns ih =>
    intro n pre h hp
    have hn := h n (by simp)
    have := ih m [] (fun w hw => h w (by simp at hw ⊢; exact .inr hw)) (by intro c hc; cases hc)
    have h2 := Listing.cons (b := ' ') hp (dbName_begins hn) (dbName_quoted hn hs) (by decide) this
    have e : pre ++ (n ++ (m :: ns).flatMap fun w => ' ' :: w) =
        pre ++ n ++ ' ' :: ([] ++ (m ++ ns.flatMap fun w => ' ' :: w)) := by simp
    rw [e]; exact h2

theorem listing_ended {sp : Char → Bool} (hs : ∀ c, sp c = true → c = '|' ∨ isSpace c = true) (e : Bool) :
    ∀ (ns : List Str), (∀ w ∈ ns, DbName w) → Listing sp e ns (ns.flatMap fun w => w ++ [' ']) := by
  intro ns
  induction ns with
  | nil => intro _; exact .nil (by intro c hc; cases hc)
  | cons n ns ih =>
    intro h
    have hn := h n (by simp)
    have h2 := Listing.cons (sp := []) (b := ' ') (by intro c hc; cases hc) (dbName_begins hn) (dbName_quoted hn hs) (by decide)
      (ih fun w hw => h w (by simp [hw]))
    simpa using h2

theorem row_shift (ns : List Str) : ns.flatMap (fun w => ' ' :: w) ++ [' '] = ' ' :: ns.flatMap fun w => w ++ [' '] := by
  induction ns with
  | nil => rfl
  | cons n ns ih => rw [List.flatMap_cons, List.append_assoc, ih]; simp

/-- The printed prerequisites. -/
theorem prereqs_shape {ds : List PreReq} (h : ∀ d ∈ ds, DbName d.name ∧ d.name ∉ assignWords) (hne : ds ≠ []) :
    ∃ w tl, printPrereqs ds = ' ' :: (w ++ tl) ∧ Begins w ∧ (∀ c ∈ w, isSpace c = false) ∧ w ∉ assignWords ∧
      (tl = [] ∨ ∃ r, tl = ' ' :: r) ∧ (∀ c, (w ++ tl).getLast? = some c → isSpace c = false) ∧
      PrereqText (w ++ tl) ((normalFirst ds).map fun d => (d.name, d.orderOnly)) := by
  have hN : ∀ d ∈ ds.filter (fun d => !d.orderOnly), d ∈ ds ∧ d.orderOnly = false := by
    intro d hd; simpa using hd
  have hO : ∀ d ∈ ds.filter (fun d => d.orderOnly), d ∈ ds ∧ d.orderOnly = true := by
    intro d hd; simpa using hd
  have hnn : ds.filter (fun d => !d.orderOnly) ≠ [] ∨ ds.filter (fun d => d.orderOnly) ≠ [] := by
    cases ds with
    | nil => exact absurd rfl hne
    | cons d ds =>
      cases hd : d.orderOnly with
      | true => right; simp [hd]
      | false => left; simp [hd]
  unfold printPrereqs normalFirst
  revert hN hO hnn
  generalize ds.filter (fun d => !d.orderOnly) = N
  generalize ds.filter (fun d => d.orderOnly) = O
  intro hN hO hnn
  have nN : ∀ w ∈ N.map (·.name), DbName w := by
    intro w hw; obtain ⟨d, hd, rfl⟩ := List.mem_map.1 hw; exact (h d (hN d hd).1).1
  have nO : ∀ w ∈ O.map (·.name), DbName w := by
    intro w hw; obtain ⟨d, hd, rfl⟩ := List.mem_map.1 hw; exact (h d (hO d hd).1).1
  have mN : N.map (fun d => (d.name, d.orderOnly)) = (N.map (·.name)).map fun w => (w, false) := by
    rw [List.map_map]; exact List.map_congr_left fun d hd => by simp [(hN d hd).2]
  have mO : O.map (fun d => (d.name, d.orderOnly)) = (O.map (·.name)).map fun w => (w, true) := by
    rw [List.map_map]; exact List.map_congr_left fun d hd => by simp [(hO d hd).2]
  have fl : ∀ l : List PreReq, l.flatMap (fun d => ' ' :: d.name) = (l.map (·.name)).flatMap fun w => ' ' :: w := by
    intro l; rw [List.flatMap_map]
  have lastOk : ∀ (ws : List Str) (w pre : Str), (∀ x ∈ w :: ws, DbName x) → ∀ c,
      (pre ++ (w ++ ws.flatMap fun w => ' ' :: w)).getLast? = some c → isSpace c = false := by
    intro ws
    induction ws with
    | nil =>
      intro w pre hw c hc
      have hw0 := hw w (by simp)
      simp only [List.flatMap_nil, List.append_nil] at hc
      rw [List.getLast?_append] at hc
      cases hg : w.getLast? with
      | none => exact absurd (List.getLast?_eq_none_iff.1 hg) hw0.1
      | some x =>
      rw [hg] at hc
      cases hc
      replace hc := hg
      exact (hw0.2.1 c (List.mem_of_getLast? hc)).1
    | cons m ws ih =>
      intro w pre hw c hc
      refine ih m (pre ++ (w ++ [' '])) (fun x hx => hw x (by simp at hx ⊢; exact .inr hx)) c ?_
      rw [← hc]; simp
  simp only [List.map_append, mN, mO]
  cases O with
  | nil =>
    cases N with
    | nil => simp at hnn
    | cons n N =>
      refine ⟨n.name, (N.map (·.name)).flatMap fun w => ' ' :: w, by simp [fl], dbName_begins (nN _ (by simp)),
        fun c hc => ((nN n.name (by simp)).2.1 c hc).1, (h n (hN n (by simp)).1).2, ?_, ?_, ?_⟩
      · cases N with
        | nil => exact .inl rfl
        | cons m N => exact .inr ⟨_, rfl⟩
      · have := lastOk (N.map (·.name)) n.name [] (by simpa using nN)
        simpa using this
      · have := listing_row endsName_ok (N.map (·.name)) n.name [] (by simpa using nN) (by intro c hc; cases hc)
        have h2 := PrereqText.normal this (fun w hw => dbName_plain (nN w (by simpa using hw)))
        simpa using h2
  | cons o O =>
    have l2 := listing_row isBlank_ok (O.map (·.name)) o.name [' '] (by simpa using nO) (by intro c hc; simp at hc; subst hc; decide)
    have l1 := listing_ended endsName_ok false (N.map (·.name)) nN
    have h2 := PrereqText.both l1 l2 (fun w hw => dbName_plain (nN w hw)) (fun w hw => dbName_plain (nO w (by simpa using hw)))
    have et : N.flatMap (fun d => ' ' :: d.name) ++ ' ' :: '|' :: ' ' :: o.name ++ O.flatMap (fun d => ' ' :: d.name) =
        ' ' :: ((N.map (·.name)).flatMap (fun w => w ++ [' ']) ++ '|' :: ([' '] ++ (o.name ++ (O.map (·.name)).flatMap fun w => ' ' :: w))) := by
      rw [fl, fl]
      have := row_shift (N.map (·.name))
      have e2 : ∀ x : Str, (N.map (·.name)).flatMap (fun w => ' ' :: w) ++ ' ' :: x =
          ' ' :: ((N.map (·.name)).flatMap (fun w => w ++ [' ']) ++ x) := by
        intro x
        have := congrArg (· ++ x) this
        simpa using this
      simp only [List.cons_append, List.append_assoc, List.nil_append, e2]
    have lst : ∀ pre : Str, ∀ c, (pre ++ '|' :: ([' '] ++ (o.name ++ (O.map (·.name)).flatMap fun w => ' ' :: w))).getLast? = some c →
        isSpace c = false := by
      intro pre c hc
      refine lastOk (O.map (·.name)) o.name (pre ++ ['|', ' ']) (by simpa using nO) c ?_
      rw [← hc]; simp
    cases N with
    | nil =>
      refine ⟨['|'], ' ' :: (o.name ++ (O.map (·.name)).flatMap fun w => ' ' :: w), by simp [fl], ⟨_, _, rfl, by decide⟩, by decide, by decide,
        .inr ⟨_, rfl⟩, ?_, ?_⟩
      · simpa using lst []
      · simpa using h2
    | cons n N =>
      refine ⟨n.name, ' ' :: ((N.map (·.name)).flatMap (fun w => w ++ [' ']) ++ '|' :: ([' '] ++ (o.name ++ (O.map (·.name)).flatMap fun w => ' ' :: w))),
        ?_, dbName_begins (nN _ (by simp)),
        fun c hc => ((nN n.name (by simp)).2.1 c hc).1, (h n (hN n (by simp)).1).2, .inr ⟨_, rfl⟩, ?_, ?_⟩
      · have := et
        simp only [List.cons_append, List.append_assoc, List.nil_append, List.map_cons, List.flatMap_cons] at this ⊢
        exact this
      · have := lst (n.name ++ ' ' :: (N.map (·.name)).flatMap (fun w => w ++ [' ']))
        simpa using this
      · have e : n.name ++ ' ' :: ((N.map (·.name)).flatMap (fun w => w ++ [' ']) ++ '|' :: ([' '] ++ (o.name ++ (O.map (·.name)).flatMap fun w => ' ' :: w))) =
          ((n :: N).map (·.name)).flatMap (fun w => w ++ [' ']) ++ '|' :: ([' '] ++ (o.name ++ (O.map (·.name)).flatMap fun w => ' ' :: w)) := by simp
        rw [e]
        exact h2

end Remake
