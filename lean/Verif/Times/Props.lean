import Verif.Times.Spec
/-! Theorems about touching and symbolic links (C110, C111). -/
set_option linter.unusedVariables false
set_option linter.unusedSimpArgs false
namespace Remake
open Spec

/-! ## C110: touching -/

/-- **C110** With `-t` a target is touched iff its update was successful and it has a recipe that is not made of recursive
lines only, and it is not phony. -/
theorem C110_which (touchFlag success phony : Bool) (lines : Option (List Bool)) :
    touchesTarget touchFlag success phony lines = true ↔
      touchFlag = true ∧ success = true ∧ TouchTarget phony lines := by
  cases lines with
  | none => simp [touchesTarget, TouchTarget]
  | some ls =>
    have key : (if ls.any id then ls.any (!·) else true) = true ↔ (ls = [] ∨ ∃ l ∈ ls, l = false) := by
      cases ls with
      | nil => simp
      | cons a ls =>
        cases a with
        | true => simp
        | false => simp
    simp only [touchesTarget, TouchTarget, Option.isSome_some, Bool.and_true, Bool.and_eq_true, Bool.not_eq_true',
      Option.some.injEq, exists_eq_left', key]
    constructor
    · rintro ⟨⟨⟨h1, h2⟩, h3⟩, h4⟩; exact ⟨h1, h2, h4, h3⟩
    · rintro ⟨h1, h2, h4, h3⟩; exact ⟨⟨⟨h1, h2⟩, h3⟩, h4⟩

example : TouchTarget false (some [true, false]) := ⟨rfl, _, rfl, Or.inr ⟨false, by simp, rfl⟩⟩
example : touchesTarget true true false (some [true, true]) = false := rfl

/-- **C110** With `-n` nothing is changed, whatever `-t` says. -/
theorem C110_print_only (n : Str) (o : Nat → CallEnd) (now : Nat → Nat) (st : TouchState) :
    touchFile true n o now st = (st, .success) := rfl

theorem run_others {n m : Str} (hm : m ≠ n) (now : Nat) (st : TouchState) (c : TouchCall) :
    (c.run n now st).files m = st.files m := by
  cases c <;> simp only [TouchCall.run]
  · cases st.files n <;> simp [TouchState.put, hm]
  · cases st.files n <;> simp [TouchState.put, hm]
  · cases st.files n <;> simp [TouchState.put, hm]

theorem touchCalls_others {n m : Str} (hm : m ≠ n) (o : Nat → CallEnd) (now : Nat → Nat) (k : Nat) (cs : List TouchCall)
    (st : TouchState) : (touchCalls n o now k cs st).1.files m = st.files m := by
  induction cs generalizing k st with
  | nil => rfl
  | cons c cs ih =>
    simp only [touchCalls]
    cases o k with
    | killed => rfl
    | ok => simp only [ih, run_others hm]
    | fail =>
      simp only
      split
      · simp only [ih, run_others hm]
      · rfl

/-- **C110** No other file is changed, whatever calls fail and wherever the process is killed. -/
theorem C110_others {n m : Str} (hm : m ≠ n) (justPrint : Bool) (o : Nat → CallEnd) (now : Nat → Nat) (st : TouchState) :
    (touchFile justPrint n o now st).1.files m = st.files m := by
  simp only [touchFile]
  split
  · rfl
  · split
    · simp only [touchCalls_others hm]
    · split <;> simp only [touchCalls_others hm]

/-- How touching the file `n` can go, from the contents and open descriptors before. -/
inductive TouchOutcome (n : Str) (now : Nat → Nat) (st : TouchState) : TouchState × TouchEnd → Prop where
  | unopened {st' : TouchState} {e : TouchEnd} : e ≠ .success → st'.files n = st.files n → st'.fds = st.fds →
      TouchOutcome n now st (st', e)
  | before {st' : TouchState} {e : TouchEnd} : e ≠ .success → st'.files n = st.files n → st'.files n ≠ none →
      st'.fds = st.fds + 1 → TouchOutcome n now st (st', e)
  | created {st' : TouchState} {e : TouchEnd} : e ≠ .success → st.files n = none → st'.files n = some ⟨[], now 0⟩ →
      st'.fds = st.fds + 1 → TouchOutcome n now st (st', e)
  | written {st' : TouchState} {e : TouchEnd} {f : TFile} : st.files n = some f → f.contents ≠ [] →
      st'.files n = some ⟨f.contents, now 4⟩ → e ≠ .failed → st'.fds = st.fds + (if e = .success then 0 else 1) →
      TouchOutcome n now st (st', e)
  | letter {st' : TouchState} {e : TouchEnd} : e ≠ .success → ((st.files n).map (·.contents)).getD [] = [] →
      st'.files n = some ⟨['x'], now 4⟩ → TouchOutcome n now st (st', e)
  | emptied {st' : TouchState} {e : TouchEnd} : ((st.files n).map (·.contents)).getD [] = [] →
      st'.files n = some ⟨[], now 6⟩ → e ≠ .failed → st'.fds = st.fds + (if e = .success then 0 else 1) →
      TouchOutcome n now st (st', e)

theorem touch_outcome (n : Str) (o : Nat → CallEnd) (now : Nat → Nat) (st : TouchState) :
    TouchOutcome n now st (touchFile false n o now st) := by
  rcases hf : st.files n with _ | ⟨_ | ⟨a, c⟩, m⟩
  · cases h0 : o 0 with
    | killed => simp [touchFile, touchCalls, TouchCall.run, TouchState.put, hf, h0]; exact .unopened (by simp) (by simp [hf]) rfl
    | fail => simp [touchFile, touchCalls, TouchCall.run, TouchState.put, hf, h0]; exact .unopened (by simp) (by simp [hf]) rfl
    | ok =>
      cases h1 : o 1 with
      | killed => simp [touchFile, touchCalls, TouchCall.run, TouchState.put, hf, h0, h1]; exact .created (by simp) hf (by simp) rfl
      | fail => simp [touchFile, touchCalls, TouchCall.run, TouchState.put, hf, h0, h1]; exact .created (by simp) hf (by simp) rfl
      | ok =>
        cases h2 : o 2 with
        | killed => simp [touchFile, touchCalls, TouchCall.run, TouchState.put, hf, h0, h1, h2]; exact .created (by simp) hf (by simp) rfl
        | fail => simp [touchFile, touchCalls, TouchCall.run, TouchState.put, hf, h0, h1, h2]; exact .created (by simp) hf (by simp) rfl
        | ok =>
          cases h3 : o 3 with
          | killed => simp [touchFile, touchCalls, TouchCall.run, TouchState.put, hf, h0, h1, h2, h3]; exact .created (by simp) hf (by simp) rfl
          | fail => simp [touchFile, touchCalls, TouchCall.run, TouchState.put, hf, h0, h1, h2, h3]; exact .created (by simp) hf (by simp) rfl
          | ok =>
            cases h4 : o 4 with
            | killed => simp [touchFile, touchCalls, TouchCall.run, TouchState.put, hf, h0, h1, h2, h3, h4]; exact .created (by simp) hf (by simp) rfl
            | fail => simp [touchFile, touchCalls, TouchCall.run, TouchState.put, hf, h0, h1, h2, h3, h4]; exact .created (by simp) hf (by simp) rfl
            | ok =>
              cases h5 : o 5 with
              | killed => simp [touchFile, touchCalls, TouchCall.run, TouchState.put, hf, h0, h1, h2, h3, h4, h5]; exact .letter (by simp) (by simp [hf]) (by simp)
              | fail =>
                cases h6 : o 6 with
                | killed => simp [touchFile, touchCalls, TouchCall.run, TouchState.put, hf, h0, h1, h2, h3, h4, h5, h6]; exact .letter (by simp) (by simp [hf]) (by simp)
                | fail => simp [touchFile, touchCalls, TouchCall.run, TouchState.put, hf, h0, h1, h2, h3, h4, h5, h6]; exact .letter (by simp) (by simp [hf]) (by simp)
                | ok =>
                  cases h7 : o 7 with
                  | killed => simp [touchFile, touchCalls, TouchCall.run, TouchState.put, hf, h0, h1, h2, h3, h4, h5, h6, h7]; exact .emptied (by simp [hf]) (by simp) (by simp) (by simp)
                  | fail =>
                    simp [touchFile, touchCalls, TouchCall.run, TouchState.put, hf, h0, h1, h2, h3, h4, h5, h6, h7]; exact .emptied (by simp [hf]) (by simp) (by simp) (by simp)
                  | ok =>
                    simp [touchFile, touchCalls, TouchCall.run, TouchState.put, hf, h0, h1, h2, h3, h4, h5, h6, h7]; exact .emptied (by simp [hf]) (by simp) (by simp) (by simp)
              | ok =>
                cases h6 : o 6 with
                | killed => simp [touchFile, touchCalls, TouchCall.run, TouchState.put, hf, h0, h1, h2, h3, h4, h5, h6]; exact .letter (by simp) (by simp [hf]) (by simp)
                | fail => simp [touchFile, touchCalls, TouchCall.run, TouchState.put, hf, h0, h1, h2, h3, h4, h5, h6]; exact .letter (by simp) (by simp [hf]) (by simp)
                | ok =>
                  cases h7 : o 7 with
                  | killed => simp [touchFile, touchCalls, TouchCall.run, TouchState.put, hf, h0, h1, h2, h3, h4, h5, h6, h7]; exact .emptied (by simp [hf]) (by simp) (by simp) (by simp)
                  | fail =>
                    simp [touchFile, touchCalls, TouchCall.run, TouchState.put, hf, h0, h1, h2, h3, h4, h5, h6, h7]; exact .emptied (by simp [hf]) (by simp) (by simp) (by simp)
                  | ok =>
                    simp [touchFile, touchCalls, TouchCall.run, TouchState.put, hf, h0, h1, h2, h3, h4, h5, h6, h7]; exact .emptied (by simp [hf]) (by simp) (by simp) (by simp)
  · cases h0 : o 0 with
    | killed => simp [touchFile, touchCalls, TouchCall.run, TouchState.put, hf, h0]; exact .unopened (by simp) (by simp [hf]) rfl
    | fail => simp [touchFile, touchCalls, TouchCall.run, TouchState.put, hf, h0]; exact .unopened (by simp) (by simp [hf]) rfl
    | ok =>
      cases h1 : o 1 with
      | killed => simp [touchFile, touchCalls, TouchCall.run, TouchState.put, hf, h0, h1]; exact .before (by simp) (by simp [hf]) (by simp [hf]) rfl
      | fail => simp [touchFile, touchCalls, TouchCall.run, TouchState.put, hf, h0, h1]; exact .before (by simp) (by simp [hf]) (by simp [hf]) rfl
      | ok =>
        cases h2 : o 2 with
        | killed => simp [touchFile, touchCalls, TouchCall.run, TouchState.put, hf, h0, h1, h2]; exact .before (by simp) (by simp [hf]) (by simp [hf]) rfl
        | fail => simp [touchFile, touchCalls, TouchCall.run, TouchState.put, hf, h0, h1, h2]; exact .before (by simp) (by simp [hf]) (by simp [hf]) rfl
        | ok =>
          cases h3 : o 3 with
          | killed => simp [touchFile, touchCalls, TouchCall.run, TouchState.put, hf, h0, h1, h2, h3]; exact .before (by simp) (by simp [hf]) (by simp [hf]) rfl
          | fail => simp [touchFile, touchCalls, TouchCall.run, TouchState.put, hf, h0, h1, h2, h3]; exact .before (by simp) (by simp [hf]) (by simp [hf]) rfl
          | ok =>
            cases h4 : o 4 with
            | killed => simp [touchFile, touchCalls, TouchCall.run, TouchState.put, hf, h0, h1, h2, h3, h4]; exact .before (by simp) (by simp [hf]) (by simp [hf]) rfl
            | fail => simp [touchFile, touchCalls, TouchCall.run, TouchState.put, hf, h0, h1, h2, h3, h4]; exact .before (by simp) (by simp [hf]) (by simp [hf]) rfl
            | ok =>
              cases h5 : o 5 with
              | killed => simp [touchFile, touchCalls, TouchCall.run, TouchState.put, hf, h0, h1, h2, h3, h4, h5]; exact .letter (by simp) (by simp [hf]) (by simp)
              | fail =>
                cases h6 : o 6 with
                | killed => simp [touchFile, touchCalls, TouchCall.run, TouchState.put, hf, h0, h1, h2, h3, h4, h5, h6]; exact .letter (by simp) (by simp [hf]) (by simp)
                | fail => simp [touchFile, touchCalls, TouchCall.run, TouchState.put, hf, h0, h1, h2, h3, h4, h5, h6]; exact .letter (by simp) (by simp [hf]) (by simp)
                | ok =>
                  cases h7 : o 7 with
                  | killed => simp [touchFile, touchCalls, TouchCall.run, TouchState.put, hf, h0, h1, h2, h3, h4, h5, h6, h7]; exact .emptied (by simp [hf]) (by simp) (by simp) (by simp)
                  | fail =>
                    simp [touchFile, touchCalls, TouchCall.run, TouchState.put, hf, h0, h1, h2, h3, h4, h5, h6, h7]; exact .emptied (by simp [hf]) (by simp) (by simp) (by simp)
                  | ok =>
                    simp [touchFile, touchCalls, TouchCall.run, TouchState.put, hf, h0, h1, h2, h3, h4, h5, h6, h7]; exact .emptied (by simp [hf]) (by simp) (by simp) (by simp)
              | ok =>
                cases h6 : o 6 with
                | killed => simp [touchFile, touchCalls, TouchCall.run, TouchState.put, hf, h0, h1, h2, h3, h4, h5, h6]; exact .letter (by simp) (by simp [hf]) (by simp)
                | fail => simp [touchFile, touchCalls, TouchCall.run, TouchState.put, hf, h0, h1, h2, h3, h4, h5, h6]; exact .letter (by simp) (by simp [hf]) (by simp)
                | ok =>
                  cases h7 : o 7 with
                  | killed => simp [touchFile, touchCalls, TouchCall.run, TouchState.put, hf, h0, h1, h2, h3, h4, h5, h6, h7]; exact .emptied (by simp [hf]) (by simp) (by simp) (by simp)
                  | fail =>
                    simp [touchFile, touchCalls, TouchCall.run, TouchState.put, hf, h0, h1, h2, h3, h4, h5, h6, h7]; exact .emptied (by simp [hf]) (by simp) (by simp) (by simp)
                  | ok =>
                    simp [touchFile, touchCalls, TouchCall.run, TouchState.put, hf, h0, h1, h2, h3, h4, h5, h6, h7]; exact .emptied (by simp [hf]) (by simp) (by simp) (by simp)
  · cases h0 : o 0 with
    | killed => simp [touchFile, touchCalls, TouchCall.run, TouchState.put, hf, h0]; exact .unopened (by simp) (by simp [hf]) rfl
    | fail => simp [touchFile, touchCalls, TouchCall.run, TouchState.put, hf, h0]; exact .unopened (by simp) (by simp [hf]) rfl
    | ok =>
      cases h1 : o 1 with
      | killed => simp [touchFile, touchCalls, TouchCall.run, TouchState.put, hf, h0, h1]; exact .before (by simp) (by simp [hf]) (by simp [hf]) rfl
      | fail => simp [touchFile, touchCalls, TouchCall.run, TouchState.put, hf, h0, h1]; exact .before (by simp) (by simp [hf]) (by simp [hf]) rfl
      | ok =>
        cases h2 : o 2 with
        | killed => simp [touchFile, touchCalls, TouchCall.run, TouchState.put, hf, h0, h1, h2]; exact .before (by simp) (by simp [hf]) (by simp [hf]) rfl
        | fail => simp [touchFile, touchCalls, TouchCall.run, TouchState.put, hf, h0, h1, h2]; exact .before (by simp) (by simp [hf]) (by simp [hf]) rfl
        | ok =>
          cases h3 : o 3 with
          | killed => simp [touchFile, touchCalls, TouchCall.run, TouchState.put, hf, h0, h1, h2, h3]; exact .before (by simp) (by simp [hf]) (by simp [hf]) rfl
          | fail => simp [touchFile, touchCalls, TouchCall.run, TouchState.put, hf, h0, h1, h2, h3]; exact .before (by simp) (by simp [hf]) (by simp [hf]) rfl
          | ok =>
            cases h4 : o 4 with
            | killed => simp [touchFile, touchCalls, TouchCall.run, TouchState.put, hf, h0, h1, h2, h3, h4]; exact .before (by simp) (by simp [hf]) (by simp [hf]) rfl
            | fail => simp [touchFile, touchCalls, TouchCall.run, TouchState.put, hf, h0, h1, h2, h3, h4]; exact .before (by simp) (by simp [hf]) (by simp [hf]) rfl
            | ok =>
              cases h5 : o 5 with
              | killed => simp [touchFile, touchCalls, TouchCall.run, TouchState.put, hf, h0, h1, h2, h3, h4, h5]; exact .written hf (by simp) (by simp) (by simp) (by simp)
              | fail =>
                simp [touchFile, touchCalls, TouchCall.run, TouchState.put, hf, h0, h1, h2, h3, h4, h5]; exact .written hf (by simp) (by simp) (by simp) (by simp)
              | ok =>
                simp [touchFile, touchCalls, TouchCall.run, TouchState.put, hf, h0, h1, h2, h3, h4, h5]; exact .written hf (by simp) (by simp) (by simp) (by simp)

/-- **C110** A file that was touched successfully has the contents it had, or is empty if there was none, and its time is that of
one of the calls; no descriptor stays open. -/
theorem C110_success {n : Str} {o : Nat → CallEnd} {now : Nat → Nat} {st st' : TouchState}
    (h : touchFile false n o now st = (st', .success)) :
    st'.files n = some ⟨((st.files n).map (·.contents)).getD [], now 4⟩ ∧ ((st.files n).map (·.contents)).getD [] ≠ [] ∧
        st'.fds = st.fds ∨
      st'.files n = some ⟨[], now 6⟩ ∧ ((st.files n).map (·.contents)).getD [] = [] ∧ st'.fds = st.fds := by
  have := touch_outcome n o now st
  rw [h] at this
  cases this with
  | unopened h1 => exact absurd rfl h1
  | before h1 => exact absurd rfl h1
  | created h1 => exact absurd rfl h1
  | letter h1 => exact absurd rfl h1
  | written h1 h2 h3 h4 h5 =>
    left
    rw [h1]
    exact ⟨by simpa using h3, by simpa using h2, by simpa using h5⟩
  | emptied h1 h2 h3 h4 => exact Or.inr ⟨h2, h1, by simpa using h4⟩

/-- **C110** So a target is newer than everything that was older than its touching, if time does not go back. -/
theorem C110_newer {n : Str} {o : Nat → CallEnd} {now : Nat → Nat} {st st' : TouchState} (hnow : ∀ i, now 0 ≤ now i)
    (h : touchFile false n o now st = (st', .success)) {m : Str} {f : TFile} (hm : m ≠ n) (hf : st'.files m = some f)
    (ho : ∀ f, st.files m = some f → f.mtime ≤ now 0) : ∃ g, st'.files n = some g ∧ f.mtime ≤ g.mtime := by
  have hx := C110_others hm false o now st
  rw [h] at hx
  have hle := ho f (by rw [← hx]; exact hf)
  rcases C110_success h with ⟨h1, _⟩ | ⟨h1, _⟩
  · exact ⟨_, h1, Nat.le_trans hle (hnow 4)⟩
  · exact ⟨_, h1, Nat.le_trans hle (hnow 6)⟩

/-- **C110** (partial: for a file that is missing or empty see `C110_letter`) A file that is not empty keeps its contents, whatever
calls fail and wherever the process is killed. -/
theorem C110_contents_partial {n : Str} {f : TFile} (o : Nat → CallEnd) (now : Nat → Nat) {st : TouchState} (hf : st.files n = some f)
    (hc : f.contents ≠ []) : ∃ t, (touchFile false n o now st).1.files n = some ⟨f.contents, t⟩ ∧ (t = f.mtime ∨ t = now 4) := by
  have := touch_outcome n o now st
  generalize touchFile false n o now st = r at this
  cases this with
  | unopened h1 h2 => exact ⟨f.mtime, by rw [h2, hf], Or.inl rfl⟩
  | before h1 h2 => exact ⟨f.mtime, by rw [h2, hf], Or.inl rfl⟩
  | created h1 h2 => rw [hf] at h2; cases h2
  | letter h1 h2 => rw [hf] at h2; exact absurd h2 hc
  | written h1 h2 h3 => rw [hf] at h1; cases h1; exact ⟨_, h3, Or.inr rfl⟩
  | emptied h1 => rw [hf] at h1; exact absurd h1 hc

/-- The contents of a file that is missing or empty: it is missing, empty, or has one `x`, and that only if touching did not
end successfully. -/
theorem C110_empty (n : Str) (o : Nat → CallEnd) (now : Nat → Nat) {st : TouchState}
    (hc : ((st.files n).map (·.contents)).getD [] = []) :
    let r := touchFile false n o now st
    r.1.files n = st.files n ∨ (∃ t, r.1.files n = some ⟨[], t⟩) ∨ (∃ t, r.1.files n = some ⟨['x'], t⟩) ∧ r.2 ≠ .success := by
  intro r
  have := touch_outcome n o now st
  change TouchOutcome n now st r at this
  generalize r = r at this
  cases this with
  | unopened h1 h2 => exact Or.inl h2
  | before h1 h2 => exact Or.inl h2
  | created h1 h2 h3 => exact Or.inr (Or.inl ⟨_, h3⟩)
  | letter h1 h2 h3 => exact Or.inr (Or.inr ⟨⟨_, h3⟩, h1⟩)
  | written h1 h2 h3 => rw [h1] at hc; exact absurd hc h2
  | emptied h1 h2 => exact Or.inr (Or.inl ⟨_, h2⟩)

/-- C110 fails for a file that is empty or missing: if the second `open` fails (as it does for a file just created when
the file mode mask takes the owner's permissions away), or if the process is killed before it, the file has one `x`. -/
theorem C110_letter (n : Str) (now : Nat → Nat) (st : TouchState) (hc : ((st.files n).map (·.contents)).getD [] = [])
    (e : CallEnd) (he : e ≠ .ok) :
    (touchFile false n (fun k => if k = 6 then e else .ok) now st).1.files n = some ⟨['x'], now 4⟩ := by
  rcases hf : st.files n with _ | ⟨c, m⟩
  · cases e with
    | ok => exact absurd rfl he
    | fail => simp [touchFile, touchCalls, TouchCall.run, TouchState.put, hf]
    | killed => simp [touchFile, touchCalls, TouchCall.run, TouchState.put, hf]
  · rw [hf] at hc
    simp only [Option.map_some, Option.getD_some] at hc
    subst hc
    cases e with
    | ok => exact absurd rfl he
    | fail => simp [touchFile, touchCalls, TouchCall.run, TouchState.put, hf]
    | killed => simp [touchFile, touchCalls, TouchCall.run, TouchState.put, hf]

/-- A failing call leaves the descriptor open. -/
theorem C110_leak (n : Str) (now : Nat → Nat) (st : TouchState) (k : Nat) (h1 : 1 ≤ k) (h4 : k ≤ 4) :
    let r := touchFile false n (fun i => if i = k then .fail else .ok) now st
    r.2 = .failed ∧ r.1.fds = st.fds + 1 := by
  have hk : k = 1 ∨ k = 2 ∨ k = 3 ∨ k = 4 := by omega
  rcases hf : st.files n with _ | ⟨c, m⟩ <;> rcases hk with rfl | rfl | rfl | rfl <;>
    simp [touchFile, touchCalls, TouchCall.run, TouchState.put, hf]

/-- A file with text, touched without failures. -/
example : (touchFile false ['a'] (fun _ => .ok) (fun k => 100 + k) ⟨fun m => if m = ['a'] then some ⟨['h', 'i'], 7⟩ else none, 3, 0, 'x'⟩).1.files ['a'] =
    some ⟨['h', 'i'], 104⟩ := by decide

example : (touchFile false ['a'] (fun _ => .ok) (fun k => 100 + k) ⟨fun _ => none, 3, 0, 'x'⟩).1.files ['a'] = some ⟨[], 106⟩ := by decide

/-! ## C111: symbolic links -/

theorem copyPath_ok {pathMax : Nat} {s : Str} {k : Str → LinkEnd} (h : s.length ≤ pathMax) : copyPath pathMax s k = k s := by
  simp [copyPath, h]

theorem throughSlash_none {p : Str} (h : '/' ∉ p) : throughSlash p = none := by simp [throughSlash, h]

theorem throughSlash_some {dir base : Str} (h : '/' ∉ base) : throughSlash (dir ++ '/' :: base) = some (dir ++ ['/']) := by
  have h1 : ∀ (l r : Str), (∀ x ∈ l, x ≠ '/') → (l ++ '/' :: r).dropWhile (· != '/') = '/' :: r := by
    intro l
    induction l with
    | nil => intro r _; simp
    | cons a l ih =>
      intro r hl
      have := hl a List.mem_cons_self
      simp [this, ih r fun x hx => hl x (List.mem_cons_of_mem _ hx)]
  have h2 : (dir ++ '/' :: base).reverse = base.reverse ++ '/' :: dir.reverse := by simp
  rw [throughSlash, if_pos (by simp), h2, h1 _ _ (by
    intro x hx e
    subst e
    exact h (List.mem_reverse.mp hx))]
  simp

/-- Every name has a last slash or none. -/
theorem slash_cases (p : Str) : '/' ∉ p ∨ ∃ dir base, p = dir ++ '/' :: base ∧ '/' ∉ base := by
  induction p with
  | nil => simp
  | cons a p ih =>
    rcases ih with h | ⟨dir, base, rfl, h⟩
    · by_cases ha : a = '/'
      · subst ha; exact Or.inr ⟨[], p, rfl, h⟩
      · exact Or.inl (by simp [h, Ne.symm ha])
    · exact Or.inr ⟨a :: dir, base, rfl, h⟩

theorem leadsTo_exists (p target : Str) : ∃ q, LeadsTo p target q := by
  by_cases h : target.head? = some '/'
  · exact ⟨target, Or.inl ⟨h, rfl⟩⟩
  · rcases slash_cases p with h1 | ⟨d, b, h1, h2⟩
    · exact ⟨target, Or.inr (Or.inl ⟨h, h1, rfl⟩)⟩
    · exact ⟨_, Or.inr (Or.inr ⟨h, d, b, h1, h2, rfl⟩)⟩

/-- One round of the loop at a link. -/
theorem linkLoop_link {fs : LinkFs} {node : Str → LinkNode} {limit pathMax k : Nat} (hK : Kernel fs node limit pathMax) {p q target : Str}
    {t m : Nat} (h0 : p.length < pathMax) (hn : node p = .link t target) (hq : LeadsTo p target q) (hp : q.length < pathMax) :
    linkLoop fs pathMax (k + 1) p m = linkLoop fs pathMax k q (max m t) := by
  have ht : target.length ≤ pathMax := Nat.le_of_lt (hK.short _ _ _ hn)
  have hm : (if t > m then t else m) = max m t := by rw [Nat.max_def]; split <;> split <;> omega
  simp only [linkLoop, hK.lstat_link p t target h0 hn, hK.readlink p t target h0 hn, List.take_of_length_le ht, copyPath_ok ht, hm]
  rcases hq with ⟨h1, rfl⟩ | ⟨h1, h2, rfl⟩ | ⟨h1, dir, base, rfl, h2, rfl⟩
  · rw [if_pos h1]
  · rw [if_neg h1, throughSlash_none h2]
  · rw [if_neg h1, throughSlash_some h2]
    simp only [List.length_append, List.length_cons, List.length_nil] at hp ⊢
    rw [if_neg (by omega), copyPath_ok (by simp only [List.length_append, List.length_cons, List.length_nil]; omega)]
    simp

/-- One round at a link that leads to a name that is too long. -/
theorem linkLoop_long {fs : LinkFs} {node : Str → LinkNode} {limit pathMax k : Nat} (hK : Kernel fs node limit pathMax) {p q target : Str}
    {t m : Nat} (h0 : p.length < pathMax) (hn : node p = .link t target) (hq : LeadsTo p target q) (hp : pathMax ≤ q.length) :
    linkLoop fs pathMax (k + 1) p m = .time (max m t) := by
  have hs := hK.short _ _ _ hn
  have hm : (if t > m then t else m) = max m t := by rw [Nat.max_def]; split <;> split <;> omega
  rcases hq with ⟨h1, rfl⟩ | ⟨h1, h2, rfl⟩ | ⟨h1, dir, base, rfl, h2, rfl⟩
  · omega
  · omega
  · simp only [linkLoop, hK.lstat_link _ _ _ h0 hn, hK.readlink _ _ _ h0 hn, List.take_of_length_le (Nat.le_of_lt hs),
      copyPath_ok (Nat.le_of_lt hs), if_neg h1, throughSlash_some h2, hm]
    simp only [List.length_append, List.length_cons, List.length_nil] at hp ⊢
    rw [if_pos (by omega)]

/-- The loop ends and nothing overflows, wherever a chain of links starts. -/
theorem linkLoop_ends {fs : LinkFs} {node : Str → LinkNode} {limit pathMax : Nat} (hK : Kernel fs node limit pathMax) {p : Str} {ts : List Nat}
    {e : Option Nat} (h : LinkChain node p ts e) (h0 : p.length < pathMax) (k m : Nat) (hk : ts.length < k) :
    ∃ t, linkLoop fs pathMax k p m = .time t := by
  induction h generalizing k m with
  | missing hn =>
    obtain ⟨k, rfl⟩ : ∃ j, k = j + 1 := ⟨k - 1, by simp at hk; omega⟩
    obtain ⟨e, he⟩ := hK.lstat_missing _ h0 hn
    exact ⟨m, by simp only [linkLoop, he]⟩
  | file hn =>
    obtain ⟨k, rfl⟩ : ∃ j, k = j + 1 := ⟨k - 1, by simp at hk; omega⟩
    exact ⟨m, by simp only [linkLoop, hK.lstat_file _ _ h0 hn]⟩
  | @link p q target t ts e hn hq _ ih =>
    obtain ⟨k, rfl⟩ : ∃ j, k = j + 1 := ⟨k - 1, by simp at hk; omega⟩
    have hk' : ts.length < k := by simp only [List.length_cons] at hk; omega
    by_cases hp : q.length < pathMax
    · rw [linkLoop_link hK h0 hn hq hp]
      exact ih hp k _ hk'
    · exact ⟨_, linkLoop_long hK h0 hn hq (by omega)⟩

/-- The result when all names fit: the latest time. -/
theorem linkLoop_latest {fs : LinkFs} {node : Str → LinkNode} {limit pathMax : Nat} (hK : Kernel fs node limit pathMax) {p : Str}
    {ts : List Nat} {e : Option Nat} (h : LinkChain node p ts e) (h0 : p.length < pathMax) (k m : Nat) (hk : ts.length < k)
    (hp : ∀ qs, LinkNames node p qs → ∀ q ∈ qs, q.length < pathMax) :
    linkLoop fs pathMax k p m = .time (ts.foldl max m) := by
  induction h generalizing k m with
  | missing hn =>
    obtain ⟨k, rfl⟩ : ∃ j, k = j + 1 := ⟨k - 1, by simp at hk; omega⟩
    obtain ⟨e, he⟩ := hK.lstat_missing _ h0 hn
    simp only [linkLoop, he, List.foldl_nil]
  | file hn =>
    obtain ⟨k, rfl⟩ : ∃ j, k = j + 1 := ⟨k - 1, by simp at hk; omega⟩
    simp only [linkLoop, hK.lstat_file _ _ h0 hn, List.foldl_nil]
  | @link p q target t ts e hn hq hc ih =>
    obtain ⟨k, rfl⟩ : ∃ j, k = j + 1 := ⟨k - 1, by simp at hk; omega⟩
    have hk' : ts.length < k := by simp only [List.length_cons] at hk; omega
    have hex : ∃ qs, LinkNames node q qs := by
      clear ih hp hn hq hk hk'
      induction hc with
      | missing hn => exact ⟨[], .stop (by simp [hn])⟩
      | file hn => exact ⟨[], .stop (by simp [hn])⟩
      | link hn hq _ ih => obtain ⟨qs, h⟩ := ih; exact ⟨_, .link hn hq h⟩
    obtain ⟨qs, hqs⟩ := hex
    have hq0 := hp _ (.link hn hq hqs) q List.mem_cons_self
    rw [linkLoop_link hK h0 hn hq hq0, List.foldl_cons]
    exact ih hq0 k _ hk' fun qs h r hr => hp _ (.link hn hq h) r (List.mem_cons_of_mem _ hr)

theorem foldl_max_latest (ts : List Nat) (m : Nat) : Latest (m :: ts) (ts.foldl max m) := by
  induction ts generalizing m with
  | nil => simp [Latest]
  | cons t ts ih =>
    obtain ⟨h1, h2⟩ := ih (max m t)
    rw [List.foldl_cons]
    refine ⟨?_, ?_⟩
    · rcases List.mem_cons.mp h1 with h | h
      · rw [h]
        rcases Nat.le_total m t with hle | hle
        · rw [Nat.max_eq_right hle]; simp
        · rw [Nat.max_eq_left hle]; simp
      · simp [h]
    · intro x hx
      have hm := h2 (max m t) List.mem_cons_self
      rcases List.mem_cons.mp hx with rfl | hx
      · omega
      · rcases List.mem_cons.mp hx with rfl | hx
        · omega
        · exact h2 x (List.mem_cons_of_mem _ hx)

/-- **C111** (partial: the names that the links lead to, written out from the name given, are shorter than `PATH_MAX`; see
`C111_long`) With `-L` the time of a name is the latest among those of the links and of the file they lead to; if they lead to nothing it
is the latest of the links, and if there are none there is no file. -/
theorem C111_latest_partial {fs : LinkFs} {node : Str → LinkNode} {limit pathMax : Nat} (hK : Kernel fs node limit pathMax)
    {name : Str} {ts : List Nat} {e : Option Nat} (h : LinkChain node name ts e) (hl : ts.length ≤ limit)
    (hn : name.length < pathMax) (hp : ∀ qs, LinkNames node name qs → ∀ q ∈ qs, q.length < pathMax) :
    ∃ t, nameMtime fs pathMax true (limit + 1) name = .time t ∧ Latest (e.getD nonexistentMtime :: ts) t := by
  refine ⟨_, ?_, foldl_max_latest ts _⟩
  have hn' := Nat.le_of_lt hn
  cases e with
  | some t =>
    simp only [nameMtime, hK.found _ _ _ hn h hl, Bool.true_and, decide_eq_true hn', if_true, copyPath_ok hn',
      linkLoop_latest hK h hn (limit + 1) _ (by omega) hp, Option.getD_some]
  | none =>
    simp only [nameMtime, hK.dangling _ _ hn h hl, Bool.true_and, decide_eq_true hn', if_true, copyPath_ok hn',
      linkLoop_latest hK h hn (limit + 1) _ (by omega) hp, Option.getD_none]

/-- **C111** Finding the time ends and writes in no buffer more than fits, however the links are. -/
theorem C111_ends {fs : LinkFs} {node : Str → LinkNode} {limit pathMax : Nat} (hK : Kernel fs node limit pathMax) (flag : Bool)
    (name : Str) : ∃ t, nameMtime fs pathMax flag (limit + 1) name = .time t := by
  by_cases hn : name.length < pathMax
  · by_cases hs : ∃ ts e, LinkChain node name ts e ∧ ts.length ≤ limit
    · obtain ⟨ts, e, h, hl⟩ := hs
      have hrest : ∀ m, ∃ t, (if (flag && decide (name.length ≤ pathMax)) = true then
          copyPath pathMax name fun p => linkLoop fs pathMax (limit + 1) p m else LinkEnd.time m) = .time t := by
        intro m
        split
        · rename_i hc
          simp only [Bool.and_eq_true, decide_eq_true_eq] at hc
          rw [copyPath_ok hc.2]
          exact linkLoop_ends hK h hn _ _ (by omega)
        · exact ⟨m, rfl⟩
      cases e with
      | some t =>
        simp only [nameMtime, hK.found _ _ _ hn h hl]
        exact hrest t
      | none =>
        simp only [nameMtime, hK.dangling _ _ hn h hl]
        exact hrest nonexistentMtime
    · refine ⟨nonexistentMtime, ?_⟩
      simp only [nameMtime, hK.endless name fun ts e h => Nat.lt_of_not_le fun hl => hs ⟨ts, e, h, hl⟩]
  · refine ⟨nonexistentMtime, ?_⟩
    simp only [nameMtime, hK.long name (by omega)]

/-- **C111** Links that lead to each other, or too many of them, count as no file. -/
theorem C111_circular {fs : LinkFs} {node : Str → LinkNode} {limit pathMax : Nat} (hK : Kernel fs node limit pathMax) (flag : Bool)
    (fuel : Nat) {name : Str} (h : ∀ ts e, LinkChain node name ts e → limit < ts.length) :
    nameMtime fs pathMax flag fuel name = .time nonexistentMtime := by
  simp only [nameMtime, hK.endless name h]

/-- **C111** Without `-L` only what the links lead to counts. -/
theorem C111_without {fs : LinkFs} {node : Str → LinkNode} {limit pathMax : Nat} (hK : Kernel fs node limit pathMax) (fuel : Nat)
    {name : Str} {ts : List Nat} {e : Option Nat} (hn : name.length < pathMax) (h : LinkChain node name ts e) (hl : ts.length ≤ limit) :
    nameMtime fs pathMax false fuel name = .time (e.getD nonexistentMtime) := by
  cases e with
  | some t => simp [nameMtime, hK.found _ _ _ hn h hl]
  | none => simp [nameMtime, hK.dangling _ _ hn h hl]

theorem linkLoop_not_older (fs : LinkFs) (pathMax : Nat) (k : Nat) (p : Str) (m t : Nat) (h : linkLoop fs pathMax k p m = .time t) :
    m ≤ t := by
  induction k generalizing p m with
  | zero => simp [linkLoop] at h
  | succ k ih =>
    simp only [linkLoop] at h
    have hc : ∀ (s : Str) (f : Str → LinkEnd) (n : Nat), copyPath pathMax s f = .time n → f s = .time n := by
      intro s f n hh
      unfold copyPath at hh
      split at hh
      · exact hh
      · cases hh
    split at h
    · cases h; exact Nat.le_refl _
    · cases h; exact Nat.le_refl _
    · rename_i ltime _
      have hm : m ≤ (if ltime > m then ltime else m) := by split <;> omega
      split at h
      · cases h; exact hm
      · have h := hc _ _ _ h
        split at h
        · exact Nat.le_trans hm (ih _ _ (hc _ _ _ h))
        · split at h
          · exact Nat.le_trans hm (ih _ _ (hc _ _ _ h))
          · split at h
            · cases h; exact hm
            · exact Nat.le_trans hm (ih _ _ (hc _ _ _ h))

/-- **C111** Whatever the system calls say, and even if looking at a link fails half-way: the time is never earlier than that
of the file the name leads to. -/
theorem C111_not_older (fs : LinkFs) (pathMax : Nat) (flag : Bool) (fuel : Nat) (name : Str) (m t : Nat)
    (hs : fs.stat name = .ok m) (h : nameMtime fs pathMax flag fuel name = .time t) : m ≤ t := by
  simp only [nameMtime, hs] at h
  split at h
  · unfold copyPath at h
    split at h
    · exact linkLoop_not_older fs pathMax fuel name m t h
    · cases h
  · cases h; exact Nat.le_refl _

example : let fs : LinkFs := ⟨fun _ => .ok 3, fun _ => .ok (true, 5), fun _ => .error .other⟩
    fs.stat ['a'] = .ok 3 ∧ nameMtime fs 4096 true 41 ['a'] = .time 5 := ⟨rfl, by decide⟩

/-! There is such a kernel for all names and links. -/

theorem leadsTo_unique {p target q q' : Str} (h : LeadsTo p target q) (h' : LeadsTo p target q') : q = q' := by
  rcases h with ⟨h1, rfl⟩ | ⟨h1, h2, rfl⟩ | ⟨h1, dir, base, rfl, h2, rfl⟩ <;>
    rcases h' with ⟨g1, rfl⟩ | ⟨g1, g2, rfl⟩ | ⟨g1, dir', base', g3, g2, rfl⟩
  · rfl
  · rfl
  · exact absurd h1 g1
  · rfl
  · rfl
  · exact absurd (g3 ▸ by simp) h2
  · exact absurd g1 h1
  · exact absurd (by simp) g2
  · have e1 := throughSlash_some (dir := dir) h2
    rw [g3, throughSlash_some g2] at e1
    simp only [Option.some.injEq] at e1
    have e2 : dir' = dir := by simpa using e1
    rw [e2]

theorem linkChain_unique {node : Str → LinkNode} {p : Str} {ts ts' : List Nat} {e e' : Option Nat} (h : LinkChain node p ts e)
    (h' : LinkChain node p ts' e') : ts = ts' ∧ e = e' := by
  induction h generalizing ts' e' with
  | missing hn =>
    cases h' with
    | missing => exact ⟨rfl, rfl⟩
    | file hn' => rw [hn] at hn'; cases hn'
    | link hn' => rw [hn] at hn'; cases hn'
  | file hn =>
    cases h' with
    | missing hn' => rw [hn] at hn'; cases hn'
    | file hn' => rw [hn] at hn'; cases hn'; exact ⟨rfl, rfl⟩
    | link hn' => rw [hn] at hn'; cases hn'
  | link hn hq _ ih =>
    cases h' with
    | missing hn' => rw [hn] at hn'; cases hn'
    | file hn' => rw [hn] at hn'; cases hn'
    | link hn' hq' h' =>
      rw [hn] at hn'
      cases hn'
      cases leadsTo_unique hq hq'
      obtain ⟨h1, h2⟩ := ih h'
      exact ⟨by rw [h1], h2⟩

open Classical in
/-- The hypotheses about the kernel can be met for all names and links. -/
theorem C111_kernel_exists (node : Str → LinkNode) (limit pathMax : Nat)
    (hs : ∀ p t target, node p = .link t target → target.length < pathMax) : ∃ fs, Kernel fs node limit pathMax := by
  refine ⟨{
    stat := fun p =>
      if h : p.length < pathMax ∧ ∃ r : List Nat × Option Nat, LinkChain node p r.1 r.2 ∧ r.1.length ≤ limit then
        match h.2.choose.2 with
        | some t => .ok t
        | none => .error .missing
      else .error .other
    lstat := fun p => match node p with
      | .missing => .error .missing
      | .file t => .ok (false, t)
      | .link t _ => .ok (true, t)
    readlink := fun p => match node p with
      | .link _ target => .ok target
      | _ => .error .other }, hs, ?_, ?_, ?_, ?_, ?_, ?_, ?_, ?_⟩
  · intro p _ h; exact ⟨.missing, by simp [h]⟩
  · intro p t _ h; simp [h]
  · intro p t g _ h; simp [h]
  · intro p t g _ h; simp [h]
  · intro p ts t hp h hl
    have hex : p.length < pathMax ∧ ∃ r : List Nat × Option Nat, LinkChain node p r.1 r.2 ∧ r.1.length ≤ limit := ⟨hp, (ts, some t), h, hl⟩
    have hu := (linkChain_unique hex.2.choose_spec.1 h).2
    simp only [dif_pos hex, hu]
  · intro p ts hp h hl
    have hex : p.length < pathMax ∧ ∃ r : List Nat × Option Nat, LinkChain node p r.1 r.2 ∧ r.1.length ≤ limit := ⟨hp, (ts, none), h, hl⟩
    have hu := (linkChain_unique hex.2.choose_spec.1 h).2
    simp only [dif_pos hex, hu]
  · intro p h
    have : ¬ (p.length < pathMax ∧ ∃ r : List Nat × Option Nat, LinkChain node p r.1 r.2 ∧ r.1.length ≤ limit) := by
      rintro ⟨_, r, h1, h2⟩
      have := h _ _ h1
      omega
    simp only [dif_neg this]
  · intro p h
    have : ¬ (p.length < pathMax ∧ ∃ r : List Nat × Option Nat, LinkChain node p r.1 r.2 ∧ r.1.length ≤ limit) := by
      rintro ⟨h1, _⟩
      omega
    simp only [dif_neg this]

/-- `d/l` is a link to `m`, `d/m` a link to `/f`: the name `d/l` has the latest time of the three. -/
example : ∃ node : Str → LinkNode, LinkChain node "d/l".toList [5, 9] (some 3) ∧
    ∀ qs, LinkNames node "d/l".toList qs → ∀ q ∈ qs, q.length < 4096 := by
  let node : Str → LinkNode := fun p =>
    if p = "d/l".toList then .link 5 "m".toList else if p = "d/m".toList then .link 9 "/f".toList
    else if p = "/f".toList then .file 3 else .missing
  have l1 : LeadsTo "d/l".toList "m".toList "d/m".toList :=
    Or.inr (Or.inr ⟨by decide, "d".toList, "l".toList, by decide, by decide, by decide⟩)
  have l2 : LeadsTo "d/m".toList "/f".toList "/f".toList := Or.inl ⟨by decide, rfl⟩
  refine ⟨node, .link (by decide) l1 (.link (by decide) l2 (.file (by decide))), ?_⟩
  intro qs h
  have n1 : node "d/l".toList = .link 5 "m".toList := by decide
  have n2 : node "d/m".toList = .link 9 "/f".toList := by decide
  have n3 : node "/f".toList = .file 3 := by decide
  cases h with
  | stop h => exact absurd n1 (h _ _)
  | link hn hq h =>
    rw [n1] at hn
    cases hn
    cases leadsTo_unique l1 hq
    cases h with
    | stop h => exact absurd n2 (h _ _)
    | link hn hq h =>
      rw [n2] at hn
      cases hn
      cases leadsTo_unique l2 hq
      cases h with
      | stop => simp
      | link hn => rw [n3] at hn; cases hn

/-- `./././.../.`, 4093 characters. -/
def dotDir : Str := (List.replicate 2046 ['.', '/']).flatten ++ ['.']

theorem dots_length (n : Nat) : (List.replicate n ['.', '/']).flatten.length = 2 * n := by
  induction n with
  | zero => rfl
  | succ n ih => rw [List.replicate_succ, List.flatten_cons, List.length_append, ih]; simp only [List.length_cons, List.length_nil]; omega

theorem dotDir_length : dotDir.length = 4093 := by
  rw [dotDir, List.length_append, dots_length]; rfl

/-- C111 fails if the names, written out, become too long, although the kernel follows the links: the times of links further on
are not looked at. -/
theorem C111_long : ∃ (node : Str → LinkNode) (name : Str), name.length < 4096 ∧ LinkChain node name [5, 9] (some 3) ∧
    ∀ fs, Kernel fs node 40 4096 → nameMtime fs 4096 true 41 name = .time 5 := by
  have hd := dotDir_length
  have hne : dotDir ++ "/l".toList ≠ dotDir ++ "/mm".toList := by
    intro h; have := List.append_cancel_left h; exact absurd this (by decide)
  have hne1 : "/f".toList ≠ dotDir ++ "/l".toList := by
    intro h; have := congrArg List.length h; rw [List.length_append, hd] at this; exact absurd this (by decide)
  have hne2 : "/f".toList ≠ dotDir ++ "/mm".toList := by
    intro h; have := congrArg List.length h; rw [List.length_append, hd] at this; exact absurd this (by decide)
  let node : Str → LinkNode := fun p =>
    if p = dotDir ++ "/l".toList then .link 5 "mm".toList else if p = dotDir ++ "/mm".toList then .link 9 "/f".toList
    else if p = "/f".toList then .file 3 else .missing
  have n1 : node (dotDir ++ "/l".toList) = .link 5 "mm".toList := if_pos rfl
  have n2 : node (dotDir ++ "/mm".toList) = .link 9 "/f".toList := by
    show (if _ then _ else _) = _
    rw [if_neg (Ne.symm hne), if_pos rfl]
  have n3 : node "/f".toList = .file 3 := by
    show (if _ then _ else _) = _
    rw [if_neg hne1, if_neg hne2, if_pos rfl]
  have l1 : LeadsTo (dotDir ++ "/l".toList) "mm".toList (dotDir ++ "/mm".toList) :=
    Or.inr (Or.inr ⟨by decide, dotDir, "l".toList, rfl, by decide, rfl⟩)
  have l2 : LeadsTo (dotDir ++ "/mm".toList) "/f".toList "/f".toList := Or.inl ⟨by decide, rfl⟩
  have hc : LinkChain node (dotDir ++ "/l".toList) [5, 9] (some 3) := .link n1 l1 (.link n2 l2 (.file n3))
  have hlen : (dotDir ++ "/l".toList).length < 4096 := by rw [List.length_append, hd]; decide
  have hlen2 : 4096 ≤ (dotDir ++ "/mm".toList).length := by rw [List.length_append, hd]; decide
  refine ⟨node, _, hlen, hc, ?_⟩
  intro fs hK
  simp only [nameMtime, hK.found _ _ _ hlen hc (by decide), Bool.true_and, decide_eq_true (Nat.le_of_lt hlen), if_true,
    copyPath_ok (Nat.le_of_lt hlen), linkLoop_long hK hlen n1 l1 hlen2]
  rfl

end Remake
