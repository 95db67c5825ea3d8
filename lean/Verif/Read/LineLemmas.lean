import Verif.Read.LineModel
import Verif.Read.LineSpec
import Verif.Quote.Lemmas
/-!
# Lemmas about logical lines
-/
set_option linter.unusedVariables false
set_option linter.unusedSimpArgs false
namespace Remake
open Spec

theorem trailingBs_append {a : Str} {n : Nat} (h : a.getLast? ≠ some '\\') :
    trailingBs (a ++ List.replicate n '\\') = n := by
  unfold trailingBs
  rw [List.reverse_append, List.reverse_replicate]
  have : ∀ n, ((List.replicate n '\\' ++ a.reverse).takeWhile (· == '\\')).length = n := by
    intro n
    induction n with
    | zero =>
      simp only [List.replicate_zero, List.nil_append]
      cases hr : a.reverse with
      | nil => rfl
      | cons c cs =>
        have : a.getLast? = some c := by rw [List.getLast?_eq_head?_reverse, hr]; rfl
        have hc : c ≠ '\\' := by intro e; rw [e] at this; exact h this
        simp [hc]
    | succ n ih =>
      rw [List.replicate_succ, List.cons_append, List.takeWhile_cons]
      simp only [beq_self_eq_true, if_true, List.length_cons, ih]
  exact this n

theorem endsOdd_iff {s : Str} : EndsOdd s ↔ trailingBs s % 2 = 1 := by
  constructor
  · rintro ⟨a, n, rfl, h, ho⟩
    rw [trailingBs_append h]; exact ho
  · intro h
    obtain ⟨b, n, rfl, hb⟩ := split_trailing_bs s
    have hb' : b.getLast? ≠ some '\\' := by
      intro e; exact absurd e (by simpa using hb)
    rw [trailingBs_append hb'] at h
    exact ⟨b, n, rfl, hb', h⟩

/-- A text that follows a newline decides on its own. -/
theorem trailingBs_line {a b : Str} : trailingBs (a ++ '\n' :: b) = trailingBs b := by
  unfold trailingBs
  rw [List.reverse_append, List.reverse_cons, List.append_assoc]
  generalize b.reverse = r
  induction r with
  | nil => simp
  | cons c cs ih =>
    by_cases e : c = '\\'
    · simp [e] at ih ⊢; exact ih
    · simp [e]

theorem allEscaped_nil : AllEscaped [] := by
  intro a b h; simp at h

theorem allEscaped_no_nl {l : Str} (h : '\n' ∉ l) : AllEscaped l := by
  intro a b e; exact absurd (by rw [e]; simp) h

/-- Adding an escaped line. -/
theorem allEscaped_snoc {a b : Str} (ha : AllEscaped a) (hb : '\n' ∉ b) (h : trailingBs (a ++ b) % 2 = 1) :
    AllEscaped (a ++ b ++ ['\n']) := by
  intro x y e
  rcases List.eq_nil_or_concat y with rfl | ⟨y', c, rfl⟩
  · have := List.append_inj' e rfl
    rw [← this.1]; exact endsOdd_iff.mpr h
  · rw [List.concat_eq_append, ← List.cons_append, ← List.append_assoc] at e
    have := List.append_inj' e rfl
    have e2 := this.1
    rw [List.append_eq_append_iff] at e2
    rcases e2 with ⟨z, h1, h2⟩ | ⟨z, h1, h2⟩
    · exact absurd (by rw [h2]; simp) hb
    · cases z with
      | nil =>
        simp at h2
        exact absurd (by rw [← h2]; simp) hb
      | cons d z =>
        simp only [List.cons_append, List.cons.injEq] at h2
        obtain ⟨rfl, h2⟩ := h2
        exact ha x z h1

theorem allEscaped_append_no_nl {a b : Str} (ha : AllEscaped a) (hb : '\n' ∉ b) : AllEscaped (a ++ b) := by
  intro x y e
  rw [List.append_eq_append_iff] at e
  rcases e with ⟨z, h1, h2⟩ | ⟨z, h1, h2⟩
  · exact absurd (by rw [h2]; simp) hb
  · cases z with
    | nil =>
      simp at h2
      exact absurd (by rw [← h2]; simp) hb
    | cons d z =>
      simp only [List.cons_append, List.cons.injEq] at h2
      obtain ⟨rfl, h2⟩ := h2
      exact ha x z h1

/-! ### CR-LF -/

theorem dropCr_no_nl {s : Str} (h : '\n' ∉ s) : dropCr s = s := by
  induction s with
  | nil => rfl
  | cons c cs ih =>
    simp only [List.mem_cons, not_or] at h
    rw [dropCr, if_neg, ih h.2]
    rintro ⟨_, he⟩
    cases cs with
    | nil => simp at he
    | cons d ds => simp at he; exact h.2 (by simp [he])

theorem dropCr_nl (r : Str) : dropCr ('\n' :: r) = '\n' :: dropCr r := by
  rw [dropCr]; simp

/-- A line and its terminator with one CR dropped. -/
def stripCr (l : Str) : Str := if l.getLast? = some '\r' then l.dropLast else l

theorem dropCr_line {l r : Str} (h : '\n' ∉ l) :
    dropCr (l ++ '\n' :: r) = stripCr l ++ '\n' :: dropCr r := by
  induction l with
  | nil => simp [stripCr, dropCr_nl]
  | cons c cs ih =>
    simp only [List.mem_cons, not_or] at h
    have ih := ih h.2
    cases cs with
    | nil =>
      rw [List.cons_append, dropCr]
      by_cases e : c = '\r'
      · simp [e, stripCr, dropCr_nl]
      · simp [e, stripCr, dropCr_nl]
    | cons d ds =>
      have hd : d ≠ '\n' := by intro e; apply h.2; simp [e]
      rw [List.cons_append, dropCr, if_neg (by simp [hd]), ih]
      unfold stripCr
      simp only [List.getLast?_cons_cons, List.dropLast_cons_cons]
      split <;> simp

theorem stripCr_no_nl {l : Str} (h : '\n' ∉ l) : '\n' ∉ stripCr l := by
  unfold stripCr
  split
  · exact fun hm => h (List.dropLast_subset _ hm)
  · exact h

theorem dropLastCr_snoc (a : Str) : dropLastCr (a ++ ['\n']) = stripCr a ++ ['\n'] := by
  unfold dropLastCr stripCr
  rcases List.eq_nil_or_concat a with rfl | ⟨a, c, rfl⟩
  · simp
  · rw [List.concat_eq_append]
    have hl : (a ++ [c] ++ ['\n']).length = a.length + 2 := by simp
    have h1 : (a ++ [c] ++ ['\n'])[a.length + 2 - 2]? = some c := by simp
    rw [hl, h1]
    simp only [List.getLast?_append, List.getLast?_singleton, Option.some_or]
    by_cases e : c = '\r'
    · subst e
      rw [if_pos ⟨by omega, rfl⟩, if_pos rfl]
      simp
    · rw [if_neg (by simp [e]), if_neg (by simp [e])]

/-! ### `fgets` -/

theorem fgets_spec : ∀ (n : Nat) (f : Str), f ≠ [] →
    ((∃ x, '\n' ∉ x ∧ (fgets (n + 2) f).1 = x ++ ['\n'] ∧ f = x ++ '\n' :: (fgets (n + 2) f).2) ∨
     (∃ x, '\n' ∉ x ∧ x ≠ [] ∧ (fgets (n + 2) f).1 = x ∧ f = x ++ (fgets (n + 2) f).2)) := by
  intro n
  induction n with
  | zero =>
    intro f hf
    cases f with
    | nil => exact absurd rfl hf
    | cons c cs =>
      by_cases e : c = '\n'
      · exact Or.inl ⟨[], by simp, by simp [fgets, e], by simp [fgets, e]⟩
      · refine Or.inr ⟨[c], by simp [Ne.symm e], by simp, ?_, ?_⟩
        · simp [fgets, e]
        · simp [fgets, e]
  | succ n ih =>
    intro f hf
    cases f with
    | nil => exact absurd rfl hf
    | cons c cs =>
      by_cases e : c = '\n'
      · exact Or.inl ⟨[], by simp, by simp [fgets, e], by simp [fgets, e]⟩
      · rw [fgets, if_neg e]
        by_cases hcs : cs = []
        · subst hcs
          refine Or.inr ⟨[c], by simp [Ne.symm e], by simp, ?_, ?_⟩ <;> simp [fgets]
        · rcases ih cs hcs with ⟨x, h1, h2, h3⟩ | ⟨x, h1, h2, h3, h4⟩
          · refine Or.inl ⟨c :: x, by simp [Ne.symm e, h1], by simp [h2], ?_⟩
            rw [List.cons_append]; simp only; rw [← h3]
          · refine Or.inr ⟨c :: x, by simp [Ne.symm e, h1], by simp, by simp [h3], ?_⟩
            rw [List.cons_append]; simp only; rw [← h4]

theorem takeWhile_no_nul {x : Str} (h : '\x00' ∉ x) : x.takeWhile (· != '\x00') = x := by
  induction x with
  | nil => rfl
  | cons c cs ih =>
    simp only [List.mem_cons, not_or] at h
    have : (c != '\x00') = true := by simp; exact fun e => h.1 e.symm
    rw [List.takeWhile_cons, if_pos this, ih h.2]

/-! ### The loop of `readline` -/

theorem count_no_nl {l : Str} (h : '\n' ∉ l) : l.count '\n' = 0 := List.count_eq_zero.mpr h

/-- `done` consists of completed (escaped) lines. -/
def LinesDone (done : Str) : Prop := done = [] ∨ ∃ d, done = d ++ ['\n']

theorem trailingBs_done {done l : Str} (hd : LinesDone done) : trailingBs (done ++ l) = trailingBs l := by
  rcases hd with rfl | ⟨d, rfl⟩
  · simp
  · rw [List.append_assoc]; exact trailingBs_line

theorem readlineLoop_spec : ∀ (n : Nat) (f : Str), f.length ≤ n → ∀ (done cur : Str) (size nl : Nat),
    '\x00' ∉ f → '\n' ∉ cur → LinesDone done → AllEscaped done → nl = done.count '\n' →
    2 ≤ size - (done ++ cur).length → 80 ≤ size →
    ∃ r, readlineLoop (done ++ cur) size nl f = some r ∧ 80 ≤ r.size ∧
      ((r.rest.length < f.length ∧ (∃ x, f = x ++ r.rest) ∧
        done ++ dropCr (cur ++ f) = r.line ++ '\n' :: dropCr r.rest ∧
        AllEscaped r.line ∧ ¬ EndsOdd r.line ∧ r.ret = (r.line.count '\n' + 1 : Nat)) ∨
       (r.rest = [] ∧ r.line = done ++ dropCr (cur ++ f) ∧ AllEscaped r.line ∧
        r.ret = if r.line = [] then -1 else ((max 1 (r.line.count '\n') : Nat) : Int))) := by
  intro n
  induction n with
  | zero =>
    intro f hn done cur size nl hnul hcur hd hesc hnl hsz h80
    have hf : f = [] := List.length_eq_zero_iff.mp (by omega)
    subst hf
    rw [readlineLoop, dif_pos rfl]
    refine ⟨_, rfl, h80, Or.inr ⟨rfl, ?_, allEscaped_append_no_nl hesc hcur, ?_⟩⟩
    · simp [dropCr_no_nl hcur]
    · simp only [List.count_append, count_no_nl hcur, Nat.add_zero, hnl]
      by_cases h0 : done.count '\n' = 0
      · rw [if_neg (by simpa using h0)]; simp [h0]
      · have : done ++ cur ≠ [] := by
          intro e; simp at e; rw [e.1] at h0; simp at h0
        rw [if_pos h0, if_neg this]
        have : max 1 (List.count '\n' done) = List.count '\n' done := by omega
        rw [this]
  | succ n ih =>
    intro f hn done cur size nl hnul hcur hd hesc hnl hsz h80
    by_cases hf : f = []
    · subst hf
      rw [readlineLoop, dif_pos rfl]
      refine ⟨_, rfl, h80, Or.inr ⟨rfl, ?_, allEscaped_append_no_nl hesc hcur, ?_⟩⟩
      · simp [dropCr_no_nl hcur]
      · simp only [List.count_append, count_no_nl hcur, Nat.add_zero, hnl]
        by_cases h0 : done.count '\n' = 0
        · rw [if_neg (by simpa using h0)]; simp [h0]
        · have : done ++ cur ≠ [] := by
            intro e; simp at e; rw [e.1] at h0; simp at h0
          rw [if_pos h0, if_neg this]
          have : max 1 (List.count '\n' done) = List.count '\n' done := by omega
          rw [this]
    · obtain ⟨m, hm⟩ : ∃ m, size - (done ++ cur).length = m + 2 := ⟨size - (done ++ cur).length - 2, by omega⟩
      rw [readlineLoop, dif_neg hf, hm]
      generalize hfg : fgets (m + 2) f = g
      have hsp := fgets_spec m f hf
      rw [hfg] at hsp
      obtain ⟨chunk, rest⟩ := g
      simp only at hsp ⊢
      rcases hsp with ⟨x, hx, hc, hfe⟩ | ⟨x, hx, hxne, hc, hfe⟩
      · -- a complete physical line
        have hxn : '\x00' ∉ x := fun h => hnul (by rw [hfe]; simp [h])
        have hrn : '\x00' ∉ rest := fun h => hnul (by rw [hfe]; simp [h])
        have hlen : rest.length < f.length := by rw [hfe]; simp; omega
        rw [dif_neg (by rw [hc]; simp)]
        have htxt : chunk.takeWhile (· != '\x00') = x ++ ['\n'] := by
          rw [hc]; exact takeWhile_no_nul (by simp [hxn])
        have hn1 : ¬ x ++ ['\n'] = [] := by simp
        have hl1 : (done ++ cur ++ (x ++ ['\n'])).getLast? = some '\n' := by simp
        simp only [htxt, hn1, if_false]
        rw [if_neg (not_not_intro hl1)]
        have e1 : done ++ cur ++ (x ++ ['\n']) = done ++ (cur ++ x) ++ ['\n'] := by simp
        have hcx : '\n' ∉ cur ++ x := by simp [hcur, hx]
        have hsc : stripCr (done ++ (cur ++ x)) = done ++ stripCr (cur ++ x) := by
          unfold stripCr
          rcases List.eq_nil_or_concat (cur ++ x) with h | ⟨y, c, h⟩
          · rw [h]
            rcases hd with rfl | ⟨d, rfl⟩ <;> simp
          · rw [h, List.concat_eq_append, ← List.append_assoc]
            simp only [List.getLast?_append, List.getLast?_singleton, Option.some_or]
            split
            · simp
            · simp
        rw [e1, dropLastCr_snoc, hsc]
        have hcr := dropCr_line (l := cur ++ x) (r := rest) hcx
        have hE : done ++ dropCr (cur ++ f) = done ++ stripCr (cur ++ x) ++ '\n' :: dropCr rest := by
          rw [hfe, ← List.append_assoc, hcr]; simp
        have hsn := stripCr_no_nl hcx
        simp only [List.dropLast_concat]
        have htb := trailingBs_done (l := stripCr (cur ++ x)) hd
        by_cases hb : trailingBs (done ++ stripCr (cur ++ x)) % 2 = 0
        · rw [if_pos hb]
          refine ⟨_, rfl, h80, Or.inl ⟨hlen, ⟨x ++ ['\n'], by rw [hfe]; simp⟩, hE, allEscaped_append_no_nl hesc hsn, ?_, ?_⟩⟩
          · simp only [endsOdd_iff]; omega
          · simp only [List.count_append, count_no_nl hsn, Nat.add_zero, hnl]
        · rw [if_neg hb]
          have hne : AllEscaped (done ++ stripCr (cur ++ x) ++ ['\n']) :=
            allEscaped_snoc hesc hsn (by omega)
          have hcnt : nl + 1 = (done ++ stripCr (cur ++ x) ++ ['\n']).count '\n' := by
            simp [List.count_append, count_no_nl hsn, hnl]
          have hlen2 : (done ++ stripCr (cur ++ x) ++ ['\n']).length ≤ size := by
            have h1 := congrArg (fun p : Str × Str => p.1.length) hfg
            simp only at h1
            have h2 : ∀ (k : Nat) (g : Str), (fgets (k + 1) g).1.length ≤ k := by
              intro k
              induction k with
              | zero => intro g; simp [fgets]
              | succ k ihk =>
                intro g
                cases g with
                | nil => simp [fgets]
                | cons c cs =>
                  rw [fgets]; split
                  · simp
                  · have := ihk cs; simp; omega
            have h3 := h2 (m + 1) f
            rw [h1, hc] at h3
            have h4 : (stripCr (cur ++ x)).length ≤ (cur ++ x).length := by
              unfold stripCr; split
              · simp
              · exact Nat.le_refl _
            simp only [List.length_append, List.length_singleton] at h3 h4 hm ⊢
            omega
          have key : ∀ size', 80 ≤ size' → 2 ≤ size' - (done ++ stripCr (cur ++ x) ++ ['\n']).length →
              ∃ r, readlineLoop (done ++ stripCr (cur ++ x) ++ ['\n']) size' (nl + 1) rest = some r ∧ 80 ≤ r.size ∧
                ((r.rest.length < f.length ∧ (∃ x, f = x ++ r.rest) ∧
                  done ++ dropCr (cur ++ f) = r.line ++ '\n' :: dropCr r.rest ∧
                  AllEscaped r.line ∧ ¬ EndsOdd r.line ∧ r.ret = (r.line.count '\n' + 1 : Nat)) ∨
                 (r.rest = [] ∧ r.line = done ++ dropCr (cur ++ f) ∧ AllEscaped r.line ∧
                  r.ret = if r.line = [] then -1 else ((max 1 (r.line.count '\n') : Nat) : Int))) := by
            intro size' h1 h2
            obtain ⟨r, a1, a2, a3⟩ := ih rest (by omega) (done ++ stripCr (cur ++ x) ++ ['\n']) [] size' (nl + 1) hrn (by simp)
              (Or.inr ⟨_, rfl⟩) hne hcnt (by simpa using h2) h1
            rw [List.append_nil] at a1
            refine ⟨r, a1, a2, ?_⟩
            have hE2 : done ++ stripCr (cur ++ x) ++ ['\n'] ++ dropCr ([] ++ rest) = done ++ dropCr (cur ++ f) := by
              rw [hE]; simp
            rw [hE2] at a3
            rcases a3 with ⟨b1, ⟨y, b2⟩, b3⟩ | b
            · exact Or.inl ⟨by omega, ⟨x ++ '\n' :: y, by rw [hfe, b2]; simp⟩, b3⟩
            · exact Or.inr b
          split
          · rename_i h; exact key size h80 (by omega)
          · rename_i h; exact key (size * 2) (by omega) (by omega)
      · -- no newline in the chunk
        subst hc
        have hxn : '\x00' ∉ chunk := fun h => hnul (by rw [hfe]; simp [h])
        have hrn : '\x00' ∉ rest := fun h => hnul (by rw [hfe]; simp [h])
        have hlen : rest.length < f.length := by
          have := List.length_pos_iff.mpr hxne
          rw [hfe]; simp; omega
        rw [dif_neg hxne, takeWhile_no_nul hxn, if_neg hxne]
        have hlast : (done ++ cur ++ chunk).getLast? ≠ some '\n' := by
          rw [List.getLast?_append]
          rcases List.eq_nil_or_concat chunk with h | ⟨y, c, h⟩
          · exact absurd h hxne
          · rw [h, List.concat_eq_append, List.getLast?_append]
            simp only [List.getLast?_singleton, Option.some_or]
            intro e; cases e
            exact hx (by rw [h]; simp)
        rw [if_pos hlast]
        have hlen3 : (done ++ (cur ++ chunk)).length ≤ size := by
          have h1 := congrArg (fun p : Str × Str => p.1.length) hfg
          simp only at h1
          have h2 : ∀ (k : Nat) (g : Str), (fgets (k + 1) g).1.length ≤ k := by
            intro k
            induction k with
            | zero => intro g; simp [fgets]
            | succ k ihk =>
              intro g
              cases g with
              | nil => simp [fgets]
              | cons c cs =>
                rw [fgets]; split
                · simp
                · have := ihk cs; simp; omega
          have h3 := h2 (m + 1) f
          rw [h1] at h3
          simp only [List.length_append] at hm ⊢
          omega
        obtain ⟨r, a1, a2, a3⟩ := ih rest (by omega) done (cur ++ chunk) (size * 2) nl hrn (by simp [hcur, hx]) hd hesc hnl
          (by omega) (by omega)
        rw [← List.append_assoc] at a1
        refine ⟨r, a1, a2, ?_⟩
        have hE2 : cur ++ chunk ++ rest = cur ++ f := by rw [hfe]; simp
        rw [hE2] at a3
        rcases a3 with ⟨b1, ⟨y, b2⟩, b3⟩ | b
        · exact Or.inl ⟨by omega, ⟨chunk ++ y, by rw [hfe, b2]; simp⟩, b3⟩
        · exact Or.inr b

theorem readFileGo_spec : ∀ (fuel : Nat) (f : Str) (size : Nat), '\x00' ∉ f → f.length < fuel → 80 ≤ size →
    ∃ ls, readFileGo fuel size f = some ls ∧ CountedLines (dropCr f) ls := by
  intro fuel
  induction fuel with
  | zero => intro f size _ h; omega
  | succ fuel ih =>
    intro f size hnul hlen h80
    obtain ⟨r, a1, a2, a3⟩ := readlineLoop_spec f.length f (Nat.le_refl _) [] [] size 0 hnul (by simp) (Or.inl rfl)
      allEscaped_nil rfl (by simp; omega) h80
    simp only [List.nil_append] at a1 a3
    simp only [readFileGo, readline, a1]
    rcases a3 with ⟨b1, ⟨x, b2⟩, b3, b4, b5, b6⟩ | ⟨b1, b2, b3, b4⟩
    · rw [if_neg (by rw [b6]; omega)]
      obtain ⟨ls, c1, c2⟩ := ih r.rest r.size (fun h => hnul (by rw [b2]; simp [h])) (by omega) a2
      rw [c1]
      refine ⟨_, rfl, ?_⟩
      rw [b3, b6]
      exact .line b4 b5 c2
    · by_cases hl : r.line = []
      · rw [if_pos hl] at b4
        rw [if_pos (by rw [b4]; decide)]
        refine ⟨[], rfl, ?_⟩
        rw [← b2, hl]; exact .nil
      · rw [if_neg hl] at b4
        rw [if_neg (by rw [b4]; omega)]
        have hfuel : 0 < fuel := by
          rcases Nat.eq_zero_or_pos fuel with h | h
          · subst h
            have : f = [] := List.length_eq_zero_iff.mp (by omega)
            rw [this] at b2; exact absurd b2 (by simpa [dropCr] using hl)
          · exact h
        obtain ⟨k, rfl⟩ : ∃ k, fuel = k + 1 := ⟨fuel - 1, by omega⟩
        have : readFileGo (k + 1) r.size r.rest = some [] := by
          rw [b1, readFileGo, readline, readlineLoop]; simp
        rw [this]
        refine ⟨_, rfl, ?_⟩
        rw [b4, ← b2]
        exact .last hl b3

theorem Spec.CountedLines.logical {t : Str} {ls : List (Str × Int)} (h : CountedLines t ls) :
    LogicalLines t (ls.map (·.1)) := by
  induction h with
  | nil => exact .nil
  | last hne he => exact .last hne he
  | line he ho _ ih => exact .line he ho ih

/-! ### Uniqueness -/

theorem split_unique {l l' r r' : Str} (he : AllEscaped l) (ho : ¬ EndsOdd l) (he' : AllEscaped l')
    (ho' : ¬ EndsOdd l') (h : l ++ '\n' :: r = l' ++ '\n' :: r') : l = l' ∧ r = r' := by
  rw [List.append_eq_append_iff] at h
  rcases h with ⟨z, h1, h2⟩ | ⟨z, h1, h2⟩
  · cases z with
    | nil => simp at h1 h2; exact ⟨h1.symm, h2⟩
    | cons d z =>
      simp only [List.cons_append, List.cons.injEq] at h2
      obtain ⟨rfl, h2⟩ := h2
      exact absurd (he' l z h1) ho
  · cases z with
    | nil => simp at h1 h2; exact ⟨h1, h2.symm⟩
    | cons d z =>
      simp only [List.cons_append, List.cons.injEq] at h2
      obtain ⟨rfl, h2⟩ := h2
      exact absurd (he l' z h1) ho'

theorem Spec.LogicalLines.unique {t : Str} {ls ls' : List Str} (h : LogicalLines t ls) (h' : LogicalLines t ls') :
    ls = ls' := by
  induction h generalizing ls' with
  | nil =>
    generalize hg : ([] : Str) = g at h'
    cases h' with
    | nil => rfl
    | last hne => exact absurd hg.symm hne
    | line => simp at hg
  | @last l hne he =>
    cases h' with
    | nil => exact absurd rfl hne
    | last _ _ => rfl
    | @line l' rest ls' he' ho' _ => exact absurd (he l' rest rfl) ho'
  | @line l rest ls he ho h ih =>
    generalize hg : l ++ '\n' :: rest = g at h'
    cases h' with
    | nil => simp at hg
    | last hne' he' => exact absurd (he' l rest hg.symm) ho
    | @line l' rest' ls' he' ho' h'' =>
      obtain ⟨rfl, rfl⟩ := split_unique he ho he' ho' hg
      rw [ih h'']

theorem Spec.CountedLines.unique {t : Str} {ls ls' : List (Str × Int)} (h : CountedLines t ls)
    (h' : CountedLines t ls') : ls = ls' := by
  induction h generalizing ls' with
  | nil =>
    generalize hg : ([] : Str) = g at h'
    cases h' with
    | nil => rfl
    | last hne => exact absurd hg.symm hne
    | line => simp at hg
  | @last l hne he =>
    cases h' with
    | nil => exact absurd rfl hne
    | last _ _ => rfl
    | @line l' rest ls' he' ho' _ => exact absurd (he l' rest rfl) ho'
  | @line l rest ls he ho h ih =>
    generalize hg : l ++ '\n' :: rest = g at h'
    cases h' with
    | nil => simp at hg
    | last hne' he' => exact absurd (he' l rest hg.symm) ho
    | @line l' rest' ls' he' ho' h'' =>
      obtain ⟨rfl, rfl⟩ := split_unique he ho he' ho' hg
      rw [ih h'']

/-! ### `readstring` -/

theorem bol_eq {done cur : Str} (hd : LinesDone done) (hc : '\n' ∉ cur) :
    ((done ++ cur).reverse.takeWhile (· != '\n')).reverse = cur := by
  rw [List.reverse_append]
  have : ∀ r : Str, '\n' ∉ r → (r ++ done.reverse).takeWhile (· != '\n') = r := by
    intro r hr
    induction r with
    | nil =>
      rcases hd with rfl | ⟨d, rfl⟩ <;> simp
    | cons c cs ih =>
      simp only [List.mem_cons, not_or] at hr
      have : (c != '\n') = true := by simp; exact fun e => hr.1 e.symm
      simp [this, ih hr.2]
  rw [this _ (by simpa using hc), List.reverse_reverse]

theorem readstringLoop_spec : ∀ (s done cur : Str), '\n' ∉ cur → LinesDone done → AllEscaped done →
    (∃ l r, readstringLoop (done ++ cur) s = (l, some r) ∧ done ++ cur ++ s = l ++ '\n' :: r ∧
      AllEscaped l ∧ ¬ EndsOdd l ∧ r.length < s.length) ∨
    (readstringLoop (done ++ cur) s = (done ++ cur ++ s, none) ∧ AllEscaped (done ++ cur ++ s)) := by
  intro s
  induction s with
  | nil =>
    intro done cur hc hd he
    exact Or.inr ⟨by simp [readstringLoop], by simpa using allEscaped_append_no_nl he hc⟩
  | cons c cs ih =>
    intro done cur hc hd he
    by_cases e : c = '\n'
    · subst e
      rw [readstringLoop]
      simp only [bol_eq hd hc]
      by_cases hb : trailingBs cur % 2 = 0
      · rw [if_pos hb]
        refine Or.inl ⟨_, _, rfl, rfl, allEscaped_append_no_nl he hc, ?_, by simp⟩
        rw [endsOdd_iff, trailingBs_done hd]; omega
      · rw [if_neg hb]
        have := ih (done ++ cur ++ ['\n']) [] (by simp) (Or.inr ⟨_, rfl⟩)
          (allEscaped_snoc he hc (by rw [trailingBs_done hd]; omega))
        simp only [List.append_nil] at this
        rcases this with ⟨l, r, h1, h2, h3, h4, h5⟩ | ⟨h1, h2⟩
        · exact Or.inl ⟨l, r, h1, by rw [← h2]; simp, h3, h4, by simp; omega⟩
        · refine Or.inr ⟨?_, ?_⟩
          · rw [h1]; simp
          · simpa using h2
    · have hstep : readstringLoop (done ++ cur) (c :: cs) = readstringLoop (done ++ cur ++ [c]) cs := by
        rw [readstringLoop]
        intro h; exact e h
      rw [hstep]
      have := ih done (cur ++ [c]) (by simp [hc, Ne.symm e]) hd he
      rw [← List.append_assoc] at this
      rcases this with ⟨l, r, h1, h2, h3, h4, h5⟩ | ⟨h1, h2⟩
      · exact Or.inl ⟨l, r, h1, by rw [← h2]; simp, h3, h4, by simp; omega⟩
      · refine Or.inr ⟨?_, ?_⟩
        · rw [h1]; simp
        · simpa using h2

theorem readStringGo_spec : ∀ (fuel : Nat) (s : Str), s.length < fuel → LogicalLines s (readStringGo fuel s) := by
  intro fuel
  induction fuel with
  | zero => intro s h; omega
  | succ fuel ih =>
    intro s h
    rw [readStringGo]
    by_cases hs : s = []
    · rw [if_pos hs, hs]; exact .nil
    · rw [if_neg hs]
      rcases readstringLoop_spec s [] [] (by simp) (Or.inl rfl) allEscaped_nil with
        ⟨l, r, h1, h2, h3, h4, h5⟩ | ⟨h1, h2⟩
      · simp only [List.nil_append] at h1 h2
        rw [h1]
        simp only
        rw [h2]
        exact .line h3 h4 (ih r (by omega))
      · simp only [List.nil_append] at h1 h2
        rw [h1]
        exact .last hs h2

end Remake
