import Verif.Update.Start
import Verif.Update.Goals
import Verif.Update.Fail
import Verif.Update.Undef
/-!
# Updating targets: the invariants hold at the beginning
-/
namespace Remake
set_option linter.unusedVariables false
set_option linter.unusedSimpArgs false

variable {G : Graph}

/-- The file that stands for the targets made together. -/
def Graph.grp (G : Graph) (f : Nat) : Nat := (G.mates f).headD f

/-- More than all the numbers in use. -/
def Graph.bound (G : Graph) (gs : List Nat) : Nat :=
  max G.length ((gs ++ (G.map fun r => r.prereqs.map Prod.fst).flatten).foldr max 0 + 1)

theorem le_foldr_max {l : List Nat} {x : Nat} (h : x ∈ l) : x ≤ l.foldr max 0 := by
  induction l with
  | nil => cases h
  | cons a l ih =>
    rw [List.foldr_cons]
    rcases List.mem_cons.mp h with h | h
    · omega
    · have := ih h; omega

theorem Graph.rule_out {f : Nat} (h : G.length ≤ f) : G.rule f = {} := by
  unfold Graph.rule
  rw [List.getD_eq_getElem?_getD, List.getElem?_eq_none h]
  rfl

theorem Graph.rule_mem {f : Nat} (h : f < G.length) : G.rule f ∈ G := by
  unfold Graph.rule
  rw [List.getD_eq_getElem?_getD, List.getElem?_eq_getElem h]
  exact List.getElem_mem h

theorem Graph.width_lt (f : Nat) : (G.rule f).prereqs.length < G.width := by
  unfold Graph.width
  by_cases h : f < G.length
  · have := le_foldr_max (l := G.map fun r => r.prereqs.length) (List.mem_map.mpr ⟨_, Graph.rule_mem h, rfl⟩)
    omega
  · rw [Graph.rule_out (by omega)]
    exact Nat.succ_pos _

theorem Graph.pre_lt {f y : Nat} (gs : List Nat) (h : y ∈ G.pre f) : y < G.bound gs := by
  unfold Graph.pre at h
  by_cases hf : f < G.length
  · have : y ∈ gs ++ (G.map fun r => r.prereqs.map Prod.fst).flatten := by
      refine List.mem_append_right _ (List.mem_flatten.mpr ⟨_, List.mem_map.mpr ⟨_, Graph.rule_mem hf, rfl⟩, h⟩)
    have := le_foldr_max this
    unfold Graph.bound
    omega
  · rw [Graph.rule_out (by omega)] at h
    cases h

theorem Graph.goal_lt {g : Nat} {gs : List Nat} (h : g ∈ gs) : g < G.bound gs := by
  have := le_foldr_max (List.mem_append_left (G.map fun r => r.prereqs.map Prod.fst).flatten h)
  unfold Graph.bound
  omega

theorem headD_mem_or {l : List Nat} (x : Nat) : (l = [] ∧ l.headD x = x) ∨ l.headD x ∈ l := by
  cases l with
  | nil => exact .inl ⟨rfl, rfl⟩
  | cons a l => exact .inr (List.mem_cons_self ..)

theorem Graph.entries_eq {x y : Nat} (h : x ∈ G.entries y) : G.entries x = G.entries y := by
  unfold Graph.entries at *
  cases hc : (G.rule y).colons with
  | none =>
    rw [hc] at h
    simp only [List.mem_singleton] at h
    rw [h, hc]
  | some k =>
    rw [hc] at h
    simp only [List.mem_filter, decide_eq_true_eq] at h
    rw [h.2]

theorem Graph.self_entries (x : Nat) : x ∈ G.entries x := by
  unfold Graph.entries
  cases hc : (G.rule x).colons with
  | none => simp
  | some k =>
    simp only [List.mem_filter, List.mem_range, decide_eq_true_eq]
    refine ⟨Nat.lt_of_not_le (fun h => ?_), hc⟩
    rw [Graph.rule_out h] at hc
    cases hc

theorem Graph.head_mem (x : Nat) : (G.entries x).headD x ∈ G.entries x := by
  rcases headD_mem_or (l := G.entries x) x with h | h
  · have := G.self_entries x; rw [h.1] at this; cases this
  · exact h

theorem Graph.head_eq {x y : Nat} (h : x ∈ G.entries y) : (G.entries x).headD x = (G.entries y).headD y := by
  rw [Graph.entries_eq h]
  have := G.self_entries y
  cases he : G.entries y with
  | nil => rw [he] at this; cases this
  | cons a l => rfl

theorem Graph.mates_eq {x y : Nat} (h : x ∈ G.mates y) : G.mates x = G.mates y := by
  unfold Graph.mates at *
  cases hc : (G.rule y).group with
  | none => rw [hc] at h; cases h
  | some k =>
    rw [hc] at h
    simp only [List.mem_reverse, List.mem_filter, decide_eq_true_eq] at h
    rw [h.2]

theorem Graph.grp_eq {x y : Nat} (h : x ∈ G.mates y) : G.grp x = G.grp y := by
  unfold Graph.grp
  rw [Graph.mates_eq h]
  cases he : G.mates y with
  | nil => rw [he] at h; cases h
  | cons a l => rfl

/-- The graph in the sense of the proofs. -/
def Graph.shape (G : Graph) (gs : List Nat) : Shape where
  head x := (G.entries x).headD x
  chain := G.entries
  also := G.mates
  grp := G.grp
  own n := G.grp (n / G.width)
  edge r y := ∃ f, G.grp f = r ∧ y ∈ G.pre f
  nodes f q := ∃ j p, (G.rule f).prereqs[j]? = some p ∧ q = (f * G.width + j, p.1)
  N := G.bound gs
  D := G.length * G.width
  A := G.length
  C := G.length + 1

theorem Graph.shape_ok (gs : List Nat) : (G.shape gs).Ok := by
  refine ⟨fun x => Graph.head_eq (G.head_mem x), fun f x h => ?_, fun f g h => Graph.grp_eq h, fun r y h => ?_, fun f => ?_, fun f => ?_⟩
  · have h : x ∈ G.entries ((G.entries f).headD f) := h
    rw [Graph.entries_eq (G.head_mem f)] at h
    exact Graph.head_eq h
  · obtain ⟨f, _, hy⟩ := h
    show (G.entries y).headD y < G.bound gs
    have hm := G.head_mem y
    unfold Graph.entries at hm ⊢
    cases hc : (G.rule y).colons with
    | none => exact Graph.pre_lt gs hy
    | some k =>
      rw [hc] at hm
      simp only [List.mem_filter, List.mem_range] at hm ⊢
      unfold Graph.bound
      omega
  · show (G.mates f).length ≤ G.length
    unfold Graph.mates
    split
    · exact Nat.zero_le _
    · rw [List.length_reverse]
      exact Nat.le_trans (List.length_filter_le _ _) (by simp)
  · show (G.entries f).length ≤ G.length + 1
    unfold Graph.entries
    split
    · exact Nat.succ_le_succ (Nat.zero_le _)
    · exact Nat.le_trans (List.length_filter_le _ _) (by simp)

theorem div_step {n W : Nat} (h : n % W + 1 < W) : (n + 1) / W = n / W ∧ (n + 1) % W = n % W + 1 := by
  have h0 : 0 < W := by omega
  have e : n + 1 = W * (n / W) + (n % W + 1) := by have := Nat.div_add_mod n W; omega
  constructor
  · rw [e, Nat.mul_add_div h0, Nat.div_eq_of_lt h]; rfl
  · rw [e, Nat.mul_add_mod, Nat.mod_eq_of_lt h]

theorem initial_dep {n : Nat} {x : UDep} (h : G.initial.dep n = some x) :
    n % G.width < (G.rule (n / G.width)).prereqs.length ∧ x.file ∈ G.pre (n / G.width) ∧
    (∀ m, x.next = some m → m = n + 1 ∧ n % G.width + 1 < (G.rule (n / G.width)).prereqs.length) := by
  simp only [Graph.initial] at h
  cases hp : (G.rule (n / G.width)).prereqs[n % G.width]? with
  | none => rw [hp] at h; cases h
  | some p =>
    rw [hp] at h
    simp only [Option.some.injEq] at h
    obtain ⟨hl, hg⟩ := List.getElem?_eq_some_iff.mp hp
    refine ⟨hl, ?_, fun m hm => ?_⟩
    · rw [← h]
      exact List.mem_map.mpr ⟨p, by rw [← hg]; exact List.getElem_mem hl, rfl⟩
    · rw [← h] at hm
      simp only at hm
      split at hm
      · rename_i hlt
        exact ⟨by cases hm; rfl, hlt⟩
      · cases hm

theorem lt_of_prereqs {f : Nat} (h : 0 < (G.rule f).prereqs.length) : f < G.length := by
  refine Nat.lt_of_not_le (fun h' => ?_)
  rw [Graph.rule_out h'] at h
  exact absurd h (Nat.lt_irrefl _)

/-- No file is intermediate. -/
def Graph.NoInter (G : Graph) : Prop := ∀ r ∈ G, r.intermediate = false

theorem Graph.NoInter.rule (h : G.NoInter) (f : Nat) : (G.rule f).intermediate = false := by
  by_cases hf : f < G.length
  · exact h _ (Graph.rule_mem hf)
  · rw [Graph.rule_out (by omega)]

theorem Graph.width_pos : 0 < G.width := Nat.succ_pos _

theorem initial_fits (h : G.NoInter) (gs : List Nat) : Fits (G.shape gs) G.initial := by
  refine ⟨fun _ => rfl, fun _ => rfl, fun _ => rfl, fun x => h.rule x, fun f n a => ?_, fun n x a => ?_⟩
  · simp only [Graph.initial] at a
    split at a
    · cases a
    · rename_i hne
      cases a
      have hl : f < G.length := lt_of_prereqs (List.length_pos_iff.mpr hne)
      refine ⟨?_, Nat.mul_lt_mul_of_pos_right hl G.width_pos⟩
      show G.grp (f * G.width / G.width) = G.grp f
      rw [Nat.mul_div_cancel _ G.width_pos]
  · obtain ⟨h1, h2, h3⟩ := initial_dep a
    refine ⟨⟨n / G.width, rfl, h2⟩, fun m hm => ?_⟩
    obtain ⟨rfl, hlt⟩ := h3 m hm
    have hw := G.width_lt (n / G.width)
    have hd := div_step (n := n) (W := G.width) (by omega)
    refine ⟨?_, Nat.lt_succ_self _, ?_⟩
    · show G.grp ((n + 1) / G.width) = G.grp (n / G.width)
      rw [hd.1]
    · have hl : n / G.width < G.length := lt_of_prereqs (by omega)
      rw [← hd.1] at hl
      exact (Nat.div_lt_iff_lt_mul G.width_pos).mp hl

theorem initial_inv0 (h : G.NoInter) (gs : List Nat) : Inv0 (G.shape gs) G.initial :=
  ⟨initial_fits h gs, ⟨List.nodup_nil, fun f d a => (nomatch a)⟩, fun x a => (nomatch a)⟩

theorem initial_noFlag : NoFlag G.initial := fun _ => rfl

theorem initial_noFail : NoFail G.initial :=
  ⟨fun _ a => (nomatch a), fun _ a => (nomatch a), fun x a => (nomatch a)⟩

theorem initial_some (f j : Nat) (h : j < (G.rule f).prereqs.length) : ∃ x, G.initial.dep (f * G.width + j) = some x ∧
    x.file = ((G.rule f).prereqs[j]).1 ∧
    x.next = (if j + 1 < (G.rule f).prereqs.length then some (f * G.width + (j + 1)) else none) := by
  have hw := G.width_lt f
  have h1 : (f * G.width + j) / G.width = f := by
    rw [Nat.mul_comm, Nat.mul_add_div G.width_pos, Nat.div_eq_of_lt (by omega)]; rfl
  have h2 : (f * G.width + j) % G.width = j := by
    rw [Nat.mul_comm, Nat.mul_add_mod, Nat.mod_eq_of_lt (by omega)]
  simp only [Graph.initial]
  rw [h1, h2, List.getElem?_eq_getElem h]
  exact ⟨_, rfl, rfl, rfl⟩

theorem initial_solid (h : G.NoInter) : Solid G.initial := by
  refine ⟨fun x => h.rule x, fun f n a => ?_, fun n x m a b => ?_⟩
  · simp only [Graph.initial] at a
    split at a
    · cases a
    · rename_i hne
      cases a
      obtain ⟨x, hx, _⟩ := initial_some (G := G) f 0 (List.length_pos_iff.mpr hne)
      rw [Nat.add_zero] at hx
      rw [hx]; rfl
  · obtain ⟨h1, h2, h3⟩ := initial_dep a
    obtain ⟨rfl, hlt⟩ := h3 m b
    have hw := G.width_lt (n / G.width)
    have hd := div_step (n := n) (W := G.width) (by omega)
    obtain ⟨x, hx, _⟩ := initial_some (G := G) (n / G.width) (n % G.width + 1) hlt
    have e : n / G.width * G.width + (n % G.width + 1) = n + 1 := by
      have := Nat.div_add_mod n G.width
      rw [Nat.mul_comm]; omega
    rw [e] at hx
    rw [hx]; rfl

theorem initial_seg (f : Nat) (k j : Nat) (hk : k + j = (G.rule f).prereqs.length) :
    ∃ l, Stretch G.initial.dep (if j < (G.rule f).prereqs.length then some (f * G.width + j) else none) l none ∧
      l.map Prod.snd = (G.pre f).drop j ∧ ∀ i p, j ≤ i → (G.rule f).prereqs[i]? = some p → (f * G.width + i, p.1) ∈ l := by
  induction k generalizing j with
  | zero =>
    rw [if_neg (by omega)]
    refine ⟨[], .nil _, ?_, fun i p hi hp => ?_⟩
    · rw [List.drop_eq_nil_of_le]
      · rfl
      · unfold Graph.pre; rw [List.length_map]; omega
    · rw [List.getElem?_eq_none (by omega)] at hp; cases hp
  | succ k ih =>
    obtain ⟨l, hl, hm, ha⟩ := ih (j + 1) (by omega)
    have hj : j < (G.rule f).prereqs.length := by omega
    obtain ⟨x, hx, hf, hn⟩ := initial_some (G := G) f j hj
    rw [if_pos hj]
    rw [← hn] at hl
    refine ⟨_, .cons hx hl, ?_, fun i p hi hp => ?_⟩
    · rw [List.map_cons, hm, hf]
      have : j < (G.pre f).length := by unfold Graph.pre; rw [List.length_map]; exact hj
      rw [List.drop_eq_getElem_cons this]
      congr 1
      simp [Graph.pre]
    · by_cases hij : i = j
      · subst hij
        rw [List.getElem?_eq_getElem hj] at hp
        cases hp
        rw [hf]
        exact List.mem_cons_self ..
      · exact List.mem_cons_of_mem _ (ha i p (by omega) hp)

/-- Neither double-colon rules nor grouped targets nor intermediate files. -/
def Graph.Plain (G : Graph) : Prop := ∀ r ∈ G, r.colons = none ∧ r.group = none ∧ r.intermediate = false

theorem Graph.Plain.noInter (h : G.Plain) : G.NoInter := fun r hr => (h r hr).2.2

theorem Graph.Plain.rule (h : G.Plain) (f : Nat) : (G.rule f).colons = none ∧ (G.rule f).group = none := by
  by_cases hf : f < G.length
  · exact ⟨(h _ (Graph.rule_mem hf)).1, (h _ (Graph.rule_mem hf)).2.1⟩
  · rw [Graph.rule_out (by omega)]; exact ⟨rfl, rfl⟩

theorem Graph.Plain.entries (h : G.Plain) (f : Nat) : G.entries f = [f] := by
  unfold Graph.entries; rw [(h.rule f).1]

theorem Graph.Plain.mates (h : G.Plain) (f : Nat) : G.mates f = [] := by
  unfold Graph.mates; rw [(h.rule f).2]

theorem Graph.Plain.grp (h : G.Plain) (f : Nat) : G.grp f = f := by
  unfold Graph.grp; rw [h.mates]; rfl

theorem Graph.Plain.shape (h : G.Plain) (gs : List Nat) : (G.shape gs).Plain :=
  ⟨fun x => by show (G.entries x).headD x = x; rw [h.entries]; rfl, fun x => h.entries x, fun x => h.mates x, fun x => h.grp x⟩

theorem initial_inv1 (h : G.Plain) (gs : List Nat) : Inv1 (G.shape gs) G.pre (fun _ => True) 0 G.initial := by
  refine ⟨fun x => ⟨fun a => (nomatch a), fun a => (nomatch a)⟩, fun _ _ => rfl, fun x a => (nomatch a), fun x st a => (nomatch a),
    fun x => ⟨fun a => (nomatch a), fun a => (nomatch a)⟩, List.nodup_nil, fun x a => (nomatch a), fun x a => .inl trivial, fun _ => rfl,
    Nat.le_refl _, fun f => ?_, fun l1 ev l2 f a => ?_, fun x a => (nomatch a)⟩
  · obtain ⟨l, hl, hm, ha⟩ := initial_seg (G := G) f _ 0 (Nat.add_zero _)
    refine ⟨l, ?_, fun d hd => .inr (by rw [hm]; exact hd), fun q ⟨j, p, hj, hq⟩ => .inr (by rw [hq]; exact ha j p (Nat.zero_le _) hj)⟩
    rw [Nat.add_zero] at hl
    show Stretch G.initial.dep (if (G.rule f).prereqs = [] then none else some (f * G.width)) l none
    by_cases he : (G.rule f).prereqs = []
    · rw [if_pos he]; rw [he, if_neg (by simp)] at hl; exact hl
    · rw [if_neg he]; rw [if_pos (List.length_pos_iff.mpr he)] at hl; exact hl
  · exact absurd a (by show [] ≠ _; simp)

/-- When the first pass begins. -/
theorem initial_top (h : G.Plain) (gs : List Nat) : Top (G.shape gs) G.pre 0 { G.initial with considered := 1 } := by
  have i := initial_inv1 h gs
  refine ⟨nextPass_inv 1 (initial_inv0 h.noInter gs), initial_noFlag, { i with cons := fun x a => ?_ }⟩
  cases a

end Remake
