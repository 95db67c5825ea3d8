import Verif.Exec.Spec
/-!
# Lemmas about starting programs
-/
set_option linter.unusedVariables false
set_option linter.unusedSimpArgs false
namespace Remake
open Spec

theorem xDirs_ne (p : Str) : xDirs p ≠ [] := by
  cases p with
  | nil => simp [xDirs]
  | cons c cs =>
    unfold xDirs
    split
    · simp
    · split <;> simp

theorem xDirs_pieces (p : Str) : xDirs p = pathPieces p := by
  unfold pathPieces
  induction p with
  | nil => simp [xDirs, List.splitOnP_nil]
  | cons c cs ih =>
    rw [List.splitOnP_cons]
    unfold xDirs
    by_cases hc : c = ':'
    · simp [hc, ih]
    · rw [if_neg hc, if_neg (by simpa using hc), ← ih]
      cases h : xDirs cs with
      | nil => exact absurd h (xDirs_ne cs)
      | cons d ds => simp

/-- The name of a candidate: the same file as the one of the specification. -/
theorem xConcat_placed (d prog : Str) (hp : '/' ∉ prog) :
    (if xConcat (xDir d) prog = prog then '.' :: '/' :: prog else xConcat (xDir d) prog) = placed d prog := by
  unfold xConcat xDir placed
  by_cases h1 : d = []
  · simp [h1]
  · by_cases h2 : d = ['.']
    · simp [h2]
    · by_cases h3 : d.getLast? = some '/'
      · have hne : d ++ prog ≠ prog := by
          intro h
          have := congrArg List.length h
          cases d with
          | nil => exact h1 rfl
          | cons a t => simp at this; omega
        simp [h1, h2, h3]
      · have hne : d ++ '/' :: prog ≠ prog := by
          intro h
          have := congrArg List.length h
          simp at this
          omega
        simp [h1, h2, h3, hne]

theorem xConcat_same (fs : XFs) (d prog : Str) (hp : '/' ∉ prog) (hdot : fs ('.' :: '/' :: prog) = fs prog) :
    fs (xConcat (xDir d) prog) = fs (placed d prog) := by
  rw [← xConcat_placed d prog hp]
  split
  · rename_i h; rw [h, hdot]
  · rfl

theorem xAccess_none (fs : XFs) (f : Str) : xAccess fs f = none ↔ Runnable fs f ∨ Searchable fs f := by
  unfold xAccess Runnable Searchable
  cases h : fs f with
  | missing => simp
  | unreachable e => simp
  | dir x => cases x <;> simp
  | file x r => cases x <;> simp

theorem xAccess_congr (fs : XFs) (f g : Str) (h : fs f = fs g) : xAccess fs f = xAccess fs g := by
  unfold xAccess; rw [h]

/-- The result of the search. -/
theorem xSearch_ok (fs : XFs) (prog : Str) (hp : '/' ∉ prog) (hdot : fs ('.' :: '/' :: prog) = fs prog) (dirs : List Str) :
    ∀ (e : XErr) (f : Str), xSearch fs prog e dirs = .ok f ↔
      ∃ l d r, dirs = l ++ d :: r ∧ f = placed d prog ∧ xAccess fs f = none ∧ ∀ d' ∈ l, xAccess fs (placed d' prog) ≠ none := by
  induction dirs with
  | nil => intro e f; simp [xSearch]
  | cons d ds ih =>
    intro e f
    have ha := xAccess_congr fs _ _ (xConcat_same fs d prog hp hdot)
    unfold xSearch
    cases hx : xAccess fs (xConcat (xDir d) prog) with
    | none =>
      simp only [xConcat_placed d prog hp, Except.ok.injEq]
      constructor
      · intro h
        exact ⟨[], d, ds, rfl, h.symm, by rw [← h, ← ha, hx], by simp⟩
      · rintro ⟨l, d', r, hl, hf, hr, hno⟩
        cases l with
        | nil => simp at hl; rw [hf, hl.1]
        | cons a t =>
          simp at hl
          exact absurd (by rw [← hl.1, ← ha, hx]) (hno a (by simp))
    | some e' =>
      simp only []
      rw [ih]
      constructor
      · rintro ⟨l, d', r, hl, hf, hr, hno⟩
        refine ⟨d :: l, d', r, by simp [hl], hf, hr, ?_⟩
        intro d'' hd''
        cases hd'' with
        | head => rw [← ha, hx]; simp
        | tail _ h => exact hno _ h
      · rintro ⟨l, d', r, hl, hf, hr, hno⟩
        cases l with
        | nil =>
          simp at hl
          rw [hf, ← hl.1, ← ha, hx] at hr
          cases hr
        | cons a t =>
          simp at hl
          exact ⟨t, d', r, hl.2, hf, hr, fun d'' h => hno d'' (by simp [h])⟩

/-- Why the search failed. -/
theorem xSearch_error (fs : XFs) (prog : Str) (hp : '/' ∉ prog) (hdot : fs ('.' :: '/' :: prog) = fs prog) (dirs : List Str) :
    ∀ (e e' : XErr), xSearch fs prog e dirs = .error e' →
      (∀ d ∈ dirs, xAccess fs (placed d prog) ≠ none) ∧
      ((e' = e ∧ ∀ d ∈ dirs, xAccess fs (placed d prog) = some .noent) ∨
       (e' ≠ .noent ∧ ∃ l d r, dirs = l ++ d :: r ∧ xAccess fs (placed d prog) = some e' ∧
          ∀ d' ∈ r, xAccess fs (placed d' prog) = some .noent)) := by
  induction dirs with
  | nil => intro e e' h; simp [xSearch] at h; simp [h]
  | cons d ds ih =>
    intro e e' h
    have ha := xAccess_congr fs _ _ (xConcat_same fs d prog hp hdot)
    unfold xSearch at h
    cases hx : xAccess fs (xConcat (xDir d) prog) with
    | none => rw [hx] at h; simp at h
    | some e2 =>
      rw [hx] at h
      simp only [] at h
      obtain ⟨hall, hcase⟩ := ih _ _ h
      rw [ha] at hx
      refine ⟨?_, ?_⟩
      · intro d' hd'
        cases hd' with
        | head => rw [hx]; simp
        | tail _ h' => exact hall _ h'
      · rcases hcase with ⟨h1, h2⟩ | ⟨h1, l, d', r, hl, h3, h4⟩
        · by_cases hn : e2 = .noent
          · rw [if_pos hn] at h1
            left
            refine ⟨h1, ?_⟩
            intro d' hd'
            cases hd' with
            | head => rw [hx, hn]
            | tail _ h' => exact h2 _ h'
          · rw [if_neg hn] at h1
            right
            exact ⟨by rw [h1]; exact hn, [], d, ds, rfl, by rw [hx, h1], h2⟩
        · right
          exact ⟨h1, d :: l, d', r, by simp [hl], h3, h4⟩

theorem xPath_some (env : List Str) (p : Str) : xPath env = some p ↔ HasPath env p := by
  unfold HasPath
  induction env with
  | nil => simp [xPath]
  | cons e es ih =>
    by_cases hpre : ['P', 'A', 'T', 'H', '='] <+: e
    · obtain ⟨q, rfl⟩ := hpre
      simp only [List.cons_append, List.nil_append, xPath, Option.some.injEq]
      constructor
      · intro h
        exact ⟨[], es, by simp [h], by simp⟩
      · rintro ⟨l, r, hl, hno⟩
        cases l with
        | nil => simp at hl; exact hl.1
        | cons a t =>
          simp at hl
          exact absurd ⟨q, by simp [hl.1]⟩ (hno a (by simp))
    · have hx : xPath (e :: es) = xPath es := by
        rw [xPath.eq_def]
        split
        · rename_i h; cases h
        · rename_i q _ h
          simp at h
          exact absurd ⟨q, by simp [h.1]⟩ hpre
        · rename_i h
          simp at h
          rw [h.2]
      rw [hx, ih]
      constructor
      · rintro ⟨l, r, hl, hno⟩
        refine ⟨e :: l, r, by simp [hl], ?_⟩
        intro a ha
        cases ha with
        | head => exact hpre
        | tail _ h => exact hno _ h
      · rintro ⟨l, r, hl, hno⟩
        cases l with
        | nil => simp at hl; exact absurd ⟨p, by simp [hl.1]⟩ hpre
        | cons a t =>
          simp at hl
          exact ⟨t, r, by simpa using hl.2, fun b hb => hno b (by simp [hb])⟩

theorem xShell_eq : xShell = "/bin/sh".toList := rfl

theorem xSpawn_none (fs : XFs) (f : Str) : xSpawn fs f = none ↔ fs f = .file true none := by
  unfold xSpawn
  cases h : fs f with
  | missing => simp
  | unreachable e => simp
  | dir x => simp
  | file x r => cases x <;> simp

theorem xStart_ok (fs : XFs) (env : List Str) (prog : Str) (args : List Str) (run : XRun) (nm : Str) :
    xStart fs env prog args = .ok (run, nm) ↔
      xFind fs prog (xPath env) = .ok nm ∧
      ((xSpawn fs nm = none ∧ run = ⟨nm, prog :: args, env⟩) ∨
       (xSpawn fs nm = some .noexec ∧ xSpawn fs xShell = none ∧ run = ⟨xShell, xShell :: nm :: args, env⟩)) := by
  unfold xStart
  cases hf : xFind fs prog (xPath env) with
  | error e => simp
  | ok cmd =>
    simp only [Except.ok.injEq]
    cases hs : xSpawn fs cmd with
    | none =>
      simp only [Except.ok.injEq, Prod.mk.injEq]
      constructor
      · rintro ⟨h1, h2⟩
        subst h2
        exact ⟨rfl, Or.inl ⟨hs, h1.symm⟩⟩
      · rintro ⟨h1, h2⟩
        subst h1
        rcases h2 with ⟨_, h⟩ | ⟨h, _⟩
        · exact ⟨h.symm, rfl⟩
        · rw [hs] at h; cases h
    | some e =>
      have hgen : ∀ e', e = e' → e' ≠ .noexec →
          ((Except.error e' : Except XErr (XRun × Str)) = .ok (run, nm) ↔ cmd = nm ∧
            ((xSpawn fs nm = none ∧ run = ⟨nm, prog :: args, env⟩) ∨
             (xSpawn fs nm = some .noexec ∧ xSpawn fs xShell = none ∧ run = ⟨xShell, xShell :: nm :: args, env⟩))) := by
        intro e' he hne
        constructor
        · intro h; cases h
        · rintro ⟨h1, h2⟩
          subst h1
          rw [hs] at h2
          rcases h2 with ⟨h, _⟩ | ⟨h, _⟩
          · cases h
          · simp [he] at h; exact absurd h hne
      cases e with
      | noent => exact hgen _ rfl (by simp)
      | acces => exact hgen _ rfl (by simp)
      | other n => exact hgen _ rfl (by simp)
      | noexec =>
        simp only []
        cases hsh : xSpawn fs xShell with
        | none =>
          simp only [Except.ok.injEq, Prod.mk.injEq]
          constructor
          · rintro ⟨h1, h2⟩
            subst h2
            exact ⟨rfl, Or.inr ⟨hs, trivial, h1.symm⟩⟩
          · rintro ⟨h1, h2⟩
            subst h1
            rcases h2 with ⟨h, _⟩ | ⟨_, _, h⟩
            · rw [hs] at h; cases h
            · exact ⟨h.symm, rfl⟩
        | some e =>
          simp
          intro h1 h2
          rw [← h1, hs] at h2
          cases h2

end Remake
