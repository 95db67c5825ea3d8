import Verif.Home.Model
import Verif.Home.Spec
import Verif.Base.Lemmas

set_option linter.unusedVariables false
set_option linter.unusedSimpArgs false

/-!
# C143: home directories in file names
-/

namespace Remake
open Spec

theorem takeWhile_whole {p : Char → Bool} {l : Str} (h : ∀ c ∈ l, p c = true) : l.takeWhile p = l := by
  have := List.takeWhile_append_of_pos (l₂ := []) h
  simpa using this

theorem takeWhile_parts {u r : Str} (h : TildeParts u r) : (u ++ r).takeWhile (· ≠ '/') = u := by
  obtain ⟨hu, hr⟩ := h
  have h1 : ∀ c ∈ u, (decide (c ≠ '/')) = true := by
    intro c hc
    simp only [decide_eq_true_eq]
    rintro rfl
    exact hu hc
  rcases hr with rfl | ⟨t, rfl⟩
  · rw [List.append_nil, takeWhile_whole h1]
  · rw [List.takeWhile_append_of_pos h1]
    simp

/-- Every name that starts with `~` has its parts, and only one way. -/
theorem tilde_parts (t : Str) : ∃ u r, t = u ++ r ∧ TildeParts u r := by
  refine ⟨t.takeWhile (· ≠ '/'), t.dropWhile (· ≠ '/'), (List.takeWhile_append_dropWhile).symm, ?_, ?_⟩
  · intro h
    have := mem_takeWhile_imp h
    simp at this
  · cases hd : t.dropWhile (· ≠ '/') with
    | nil => exact Or.inl rfl
    | cons c s =>
      have := List.head?_dropWhile_not (fun c => decide (c ≠ '/')) t
      rw [hd] at this
      simp at this
      subst this
      exact Or.inr ⟨s, rfl⟩

theorem ownHome_is (E : HomeEnv) (d : Str) : ownHome E = some d ↔ HomeIs E [] d := by
  unfold ownHome
  constructor
  · intro h
    split at h
    · case isTrue hv => cases h; exact .fromVariable hv
    · case isFalse hv =>
      have hv : E.var = [] := by simpa using hv
      split at h
      · case h_1 c r he => cases h; exact .environment _ hv he (by simp)
      · case h_2 he =>
        refine .login d hv ?_ h
        cases hE : E.env with
        | none => exact Or.inl rfl
        | some e =>
          cases e with
          | nil => exact Or.inr rfl
          | cons c r => exact absurd hE (he c r)
  · intro h
    cases h with
    | fromVariable h => rw [if_pos h]
    | environment _ h h1 h2 =>
      rw [if_neg (by simp [h]), h1]
      cases d with
      | nil => exact absurd rfl h2
      | cons c r => rfl
    | login _ h h1 h2 =>
      rw [if_neg (by simp [h])]
      rcases h1 with h1 | h1 <;> rw [h1] <;> exact h2
    | other _ _ h _ => exact absurd rfl h

theorem homeIs_user {E : HomeEnv} {u d : Str} (h : u ≠ []) : HomeIs E u d ↔ E.user u = some d := by
  constructor
  · intro hh
    cases hh with
    | other _ _ _ h1 => exact h1
    | fromVariable _ => exact absurd rfl h
    | environment _ _ _ _ => exact absurd rfl h
    | login _ _ _ _ => exact absurd rfl h
  · intro hh; exact .other u d h hh

theorem tildeExpand_own (E : HomeEnv) {r : Str} (h : TildeParts [] r) :
    tildeExpand E ('~' :: r) = ((ownHome E).map (· ++ r), none) := by
  have : r = [] ∨ r.head? = some '/' := by
    rcases h.2 with rfl | ⟨t, rfl⟩
    · exact Or.inl rfl
    · exact Or.inr rfl
  simp only [tildeExpand, List.drop_succ_cons, List.drop_zero]
  rw [if_pos this]

theorem tildeExpand_other (E : HomeEnv) {u r : Str} (h : TildeParts u r) (hu : u ≠ []) :
    tildeExpand E ('~' :: (u ++ r)) =
      match E.user u with
      | some d => (some (d ++ r), if r = [] then none else some (u.length + 1))
      | none => (none, none) := by
  obtain ⟨c, u', rfl⟩ : ∃ c u', u = c :: u' := by
    cases u with
    | nil => exact absurd rfl hu
    | cons c u' => exact ⟨c, u', rfl⟩
  have hc : c ≠ '/' := by rintro rfl; exact h.1 (by simp)
  have hh : ¬ (c :: u' ++ r = [] ∨ (c :: u' ++ r).head? = some '/') := by
    simp [hc]
  have ht := takeWhile_parts h
  simp only [tildeExpand, List.drop_succ_cons, List.drop_zero]
  rw [if_neg hh]
  simp only [ht]
  cases hE : E.user (c :: u') with
  | none => rfl
  | some d =>
    simp only
    rcases h.2 with rfl | ⟨t, rfl⟩
    · simp
    · have hne : ¬ ((c :: u').length = (c :: u' ++ '/' :: t).length) := by simp
      rw [if_neg hne]
      have hd : List.drop ((c :: u').length + 1) (c :: u' ++ '/' :: t) = t := by
        rw [← List.drop_drop, List.drop_left]; rfl
      rw [hd]
      simp

/-- **C143.**  A name that starts with `~` stands for the home directory meant, with the rest of the name behind it; it is left
alone exactly if there is no such home directory. -/
theorem C143_expands (E : HomeEnv) {u r : Str} (h : TildeParts u r) (e : Str) :
    tildeOf E ('~' :: (u ++ r)) = some e ↔ ∃ d, HomeIs E u d ∧ e = d ++ r := by
  unfold tildeOf
  by_cases hu : u = []
  · subst hu
    rw [List.nil_append, tildeExpand_own E h]
    simp only [Option.map_eq_some_iff]
    constructor
    · rintro ⟨d, hd, rfl⟩; exact ⟨d, (ownHome_is E d).1 hd, rfl⟩
    · rintro ⟨d, hd, rfl⟩; exact ⟨d, (ownHome_is E d).2 hd, rfl⟩
  · rw [tildeExpand_other E h hu]
    cases hE : E.user u with
    | none =>
      simp only [reduceCtorEq, false_iff, not_exists, not_and]
      intro d hd
      rw [homeIs_user hu, hE] at hd
      cases hd
    | some d =>
      simp only [Option.some.injEq]
      constructor
      · rintro rfl; exact ⟨d, (homeIs_user hu).2 hE, rfl⟩
      · rintro ⟨d', hd', rfl⟩
        rw [homeIs_user hu, hE] at hd'
        cases hd'; rfl

/-- The home directory meant is one only. -/
theorem C143_one (E : HomeEnv) {u d d' : Str} (h : HomeIs E u d) (h' : HomeIs E u d') : d = d' := by
  by_cases hu : u = []
  · subst hu
    rw [← ownHome_is] at h h'
    rw [h] at h'
    cases h'; rfl
  · rw [homeIs_user hu] at h h'
    rw [h] at h'
    cases h'; rfl

/-- A home with users `bob` and `eve`. -/
def bobHome : HomeEnv where
  var := "/h/me".toList
  env := none
  login := none
  user := fun u => if u = "bob".toList then some "/h/bob".toList else none

example : TildeParts "bob".toList "/lib/x".toList ∧ HomeIs bobHome "bob".toList "/h/bob".toList ∧
    tildeOf bobHome "~bob/lib/x".toList = some "/h/bob/lib/x".toList ∧ tildeOf bobHome "~/x".toList = some "/h/me/x".toList ∧
    tildeOf bobHome "~eve/x".toList = none :=
  ⟨⟨by decide, Or.inr ⟨_, rfl⟩⟩, .other _ _ (by decide) (by decide), by decide, by decide, by decide⟩

/-- **C143.**  A file named on the command line below a home directory is that file, if the home directory is absolute. -/
theorem C143_command_partial (E : HomeEnv) {u r d : Str} (h : TildeParts u r) (hd : HomeIs E u ('/' :: d)) (pre : Str) :
    (HomeWord.named pre ('~' :: (u ++ r))).file E = some ('/' :: d ++ r) := by
  have he := (C143_expands E h ('/' :: d ++ r)).2 ⟨_, hd, rfl⟩
  unfold HomeWord.file commandName
  simp only [reduceCtorEq, if_false, List.head?_cons, if_true, he]
  have h1 : ('/' :: d ++ r) ≠ [] := by simp
  rw [if_neg h1]
  have hs : stripCommand ('/' :: d ++ r) = '/' :: d ++ r := by
    rw [stripCommand.eq_def]; rfl
  rw [hs, if_neg h1]

example : (HomeWord.named "-C".toList "~bob/d".toList).file bobHome = some "/h/bob/d".toList :=
  C143_command_partial bobHome (u := "bob".toList) (r := "/d".toList) (d := "h/bob".toList)
    ⟨by decide, Or.inr ⟨_, rfl⟩⟩ (.other _ _ (by decide) (by decide)) _

/-- **C143.**  A file named so that no home directory is known stays as it is. -/
theorem C143_unknown (E : HomeEnv) {u r : Str} (h : TildeParts u r) (hn : ∀ d, ¬ HomeIs E u d) (pre : Str) :
    (HomeWord.named pre ('~' :: (u ++ r))).file E = some ('~' :: (u ++ r)) := by
  have he : tildeOf E ('~' :: (u ++ r)) = none := by
    cases hx : tildeOf E ('~' :: (u ++ r)) with
    | none => rfl
    | some e =>
      obtain ⟨d, hd, _⟩ := (C143_expands E h e).1 hx
      exact absurd hd (hn d)
  unfold HomeWord.file commandName
  simp only [reduceCtorEq, if_false, List.head?_cons, if_true, he]
  have hs : stripCommand ('~' :: (u ++ r)) = '~' :: (u ++ r) := by
    rw [stripCommand.eq_def]; rfl
  rw [hs, if_neg (by simp)]

example : (HomeWord.named [] "~eve/d".toList).file bobHome = some "~eve/d".toList :=
  C143_unknown bobHome (u := "eve".toList) (r := "/d".toList) ⟨by decide, Or.inr ⟨_, rfl⟩⟩
    (fun d hd => by rw [homeIs_user (by decide)] at hd; revert hd; decide +revert) _

/-- What is left of the name handed over: all of it unless it lies below the home directory of another user. -/
theorem tildeLeaves_keeps (E : HomeEnv) (t : Str) (h : ¬ BelowOther E ('~' :: t)) : tildeLeaves E ('~' :: t) = '~' :: t := by
  obtain ⟨u, r, rfl, hp⟩ := tilde_parts t
  unfold tildeLeaves
  by_cases hu : u = []
  · subst hu
    rw [List.nil_append, tildeExpand_own E hp]
  · rw [tildeExpand_other E hp hu]
    cases hE : E.user u with
    | none => rfl
    | some d =>
      by_cases hr : r = []
      · simp [hr]
      · exact absurd ⟨u, r, rfl, hp, hu, hr, d, hE⟩ h

/-- What is left of a name below the home directory of another user: the home directory alone. -/
theorem tildeLeaves_cut (E : HomeEnv) {u r d : Str} (h : TildeParts u r) (hu : u ≠ []) (hr : r ≠ []) (hd : E.user u = some d) :
    tildeLeaves E ('~' :: (u ++ r)) = '~' :: u := by
  unfold tildeLeaves
  rw [tildeExpand_other E h hu, hd]
  simp only [if_neg hr]
  rw [List.take_succ_cons, List.take_left]

/-- **C143.**  Decoding the command line leaves its words as they are, as long as none names a file below the home directory of
another user; so a make that starts again sees the words the user wrote.  Missing: `C143_cut`, such words are cut. -/
theorem C143_words_partial (E : HomeEnv) (ws : List HomeWord)
    (h : ∀ pre name, HomeWord.named pre name ∈ ws → ¬ BelowOther E name) : ws.map (HomeWord.after E) = ws.map HomeWord.text := by
  refine List.map_congr_left fun w hw => ?_
  cases w with
  | plain w => rfl
  | named pre name =>
    simp only [HomeWord.after, HomeWord.text, List.append_cancel_left_eq]
    split
    · case isTrue hh =>
      cases name with
      | nil => cases hh
      | cons c t =>
        simp only [List.head?_cons, Option.some.injEq] at hh
        subst hh
        exact tildeLeaves_keeps E t (h pre _ hw)
    · rfl

example : ¬ BelowOther bobHome "~/x".toList ∧ ¬ BelowOther bobHome "~eve/x".toList ∧ ¬ BelowOther bobHome "~bob".toList := by
  have key : ∀ t : Str, tildeLeaves bobHome ('~' :: t) = '~' :: t → ¬ BelowOther bobHome ('~' :: t) := by
    rintro t ht ⟨u, r, e, hp, hu, hr, d, hd⟩
    cases e
    rw [tildeLeaves_cut bobHome hp hu hr hd] at ht
    simp only [List.cons.injEq, true_and] at ht
    have := congrArg List.length ht
    simp only [List.length_append] at this
    cases r with
    | nil => exact hr rfl
    | cons c r => simp at this
  exact ⟨key _ (by decide), key _ (by decide), key _ (by decide)⟩

/-- **C143.**  Negation: a word that names a file below the home directory of another user loses everything behind the name of
the user. -/
theorem C143_cut (E : HomeEnv) {u r d : Str} (h : TildeParts u r) (hu : u ≠ []) (hr : r ≠ []) (hd : E.user u = some d)
    (pre : Str) : (HomeWord.named pre ('~' :: (u ++ r))).after E = pre ++ '~' :: u ∧
      (HomeWord.named pre ('~' :: (u ++ r))).after E ≠ (HomeWord.named pre ('~' :: (u ++ r))).text := by
  have h1 : (HomeWord.named pre ('~' :: (u ++ r))).after E = pre ++ '~' :: u := by
    simp only [HomeWord.after, List.head?_cons, if_true, tildeLeaves_cut E h hu hr hd]
  refine ⟨h1, ?_⟩
  rw [h1]
  intro hh
  have := congrArg List.length hh
  simp only [HomeWord.text, List.length_append, List.length_cons] at this
  cases r with
  | nil => exact hr rfl
  | cons c r => simp at this

example : (HomeWord.named "-C".toList "~bob/d".toList).after bobHome = "-C~bob".toList :=
  (C143_cut bobHome (u := "bob".toList) (r := "/d".toList) ⟨by decide, Or.inr ⟨_, rfl⟩⟩ (by decide) (by decide)
    (d := "/h/bob".toList) (by decide) _).1

/-- **C143.**  Negation: a make that starts again after a makefile was made does not see the directory or goal that the user gave:
for every user known, `-C ~user/rest` means the home directory itself the second time. -/
theorem C143_restart_elsewhere (E : HomeEnv) {u r d : Str} (h : TildeParts u r) (hu : u ≠ []) (hr : r ≠ [])
    (hd : E.user u = some ('/' :: d)) :
    ∃ w', (HomeWord.named [] ('~' :: (u ++ r))).after E = w' ∧ restartArgs ["-C".toList, w'] [] none = some ["-C".toList, w'] ∧
      (HomeWord.named [] ('~' :: (u ++ r))).file E = some ('/' :: d ++ r) ∧ (HomeWord.named [] w').file E = some ('/' :: d) ∧
      ('/' :: d) ≠ '/' :: d ++ r := by
  refine ⟨'~' :: u, (C143_cut E h hu hr hd []).1, ?_, C143_command_partial E h ((homeIs_user hu).2 hd) [], ?_, ?_⟩
  · simp [restartArgs]
  · have := C143_command_partial E (u := u) (r := []) ⟨h.1, Or.inl rfl⟩ ((homeIs_user hu).2 hd) []
    simpa using this
  · intro hh
    have := congrArg List.length hh
    simp only [List.length_append, List.length_cons] at this
    cases r with
    | nil => exact hr rfl
    | cons c r => simp at this

/-- **C143.**  The members of an archive group are members of the archive that is named, also below one's own home directory.
Missing: `C143_group_lost`, the home directory of another user. -/
theorem C143_group_partial (E : HomeEnv) {r : Str} {d : Str} (h : TildeParts [] r) (hd : HomeIs E [] d) (ms : List Str)
    (h0 : ∀ s ∈ r :: ms, Char.ofNat 0 ∉ s) (hr : r ≠ []) :
    homeGroup E ('~' :: (r ++ ['('])) ms = ms.map fun m => d ++ r ++ '(' :: (m ++ [')']) := by
  induction ms with
  | nil => rfl
  | cons m ms ih =>
    have ihm := ih fun s hs => h0 s (by simp at hs ⊢; grind)
    have hm0 := h0 m (by simp)
    have hr0 := h0 r (by simp)
    obtain ⟨t, rfl⟩ : ∃ t, r = '/' :: t := by
      rcases h.2 with rfl | h'
      · exact absurd rfl hr
      · exact h'
    have hs : (('~' :: ('/' :: t ++ ['('])) ++ m ++ [')']).takeWhile (· ≠ Char.ofNat 0)
        = '~' :: ([] ++ ('/' :: t ++ '(' :: (m ++ [')']))) := by
      rw [takeWhile_whole]
      · simp
      · intro c hc
        simp only [decide_eq_true_eq]
        rintro rfl
        simp only [List.cons_append, List.append_assoc, List.mem_cons, List.mem_append, List.nil_append, List.not_mem_nil,
          or_false] at hc
        simp only [List.mem_cons] at hr0
        rcases hc with hc | hc | hc | hc | hc | hc
        · exact absurd hc (by decide)
        · exact hr0 (Or.inl hc)
        · exact hr0 (Or.inr hc)
        · exact absurd hc (by decide)
        · exact hm0 hc
        · exact absurd hc (by decide)
    have hp : TildeParts [] ('/' :: t ++ '(' :: (m ++ [')'])) := ⟨by simp, Or.inr ⟨_, rfl⟩⟩
    have he := (C143_expands E hp _).2 ⟨d, hd, rfl⟩
    have h2 : (tildeExpand E ('~' :: ([] ++ ('/' :: t ++ '(' :: (m ++ [')']))))).2 = none := by
      rw [List.nil_append, tildeExpand_own E hp]
    rw [homeGroup]
    simp only [hs, List.head?_cons, if_true, he, h2, Option.getD_some, List.map_cons]
    rw [ihm]
    simp

example : homeGroup bobHome "~/lib(".toList ["a".toList, "b".toList] = ["/h/me/lib(a)".toList, "/h/me/lib(b)".toList] :=
  C143_group_partial bobHome (r := "/lib".toList) (d := "/h/me".toList) ⟨by decide, Or.inr ⟨_, rfl⟩⟩
    (.fromVariable (E := bobHome) (by decide)) _ (by decide) (by decide)

/-- **C143.**  Negation: of an archive group below the home directory of another user, only the first member is a member of the
archive; in place of each of the others stands the home directory. -/
theorem C143_group_lost : homeGroup bobHome "~bob/lib(".toList ["a".toList, "b".toList, "c".toList]
    = ["/h/bob/lib(a)".toList, "/h/bob".toList, "/h/bob".toList] := by decide

/-- **C143.**  Negation: `./` in front does not make `~` an ordinary character.  A makefile named `./~/m` on the command line, and a
file named so in a makefile, are looked for in the home directory. -/
theorem C143_dot_slash : commandName (tildeOf bobHome) "./~/m".toList = some "~/m".toList ∧
    (∀ (σ : Type) (W : MkWorld σ) (s : σ), W.tilde s = tildeOf bobHome → W.opens s "/h/me/m".toList = true →
      findMakefile W s {} "~/m".toList = ("/h/me/m".toList, true)) := by
  refine ⟨by decide +kernel, fun σ W s ht ho => ?_⟩
  have he : tildeOf bobHome "~/m".toList = some "/h/me/m".toList := by decide
  unfold findMakefile
  simp only [ht, he, Bool.not_false, Bool.true_and, Option.getD_some]
  have : ("~/m".toList.head? == some '~') = true := by decide
  rw [if_pos this, ho]
  rfl

/-- **C143.**  A directory of the search path given as `-I ~user/rest` is the one below the home directory, if it is a
directory. -/
theorem C143_search_path (E : HomeEnv) (isDir : Str → Bool) {u r d : Str} (h : TildeParts u r) (hd : HomeIs E u d)
    (hdir : isDir (d ++ r) = true) (before after defaults : List Str) :
    chopSlashes (d ++ r) ∈ includePath isDir (tildeOf E) (before ++ ('~' :: (u ++ r)) :: after) defaults := by
  unfold includePath
  refine List.mem_map.2 ⟨d ++ r, List.mem_filter.2 ⟨?_, hdir⟩, rfl⟩
  refine List.mem_append_left _ (List.mem_map.2 ⟨'~' :: (u ++ r), by simp, ?_⟩)
  rw [(C143_expands E h (d ++ r)).2 ⟨d, hd, rfl⟩]
  rfl

end Remake
