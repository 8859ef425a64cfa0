import Verif.Auto.DfaOps
import Verif.Auto.DfaCorrect

set_option linter.unusedSectionVars false

/-! # Lemmas about the removal of states -/

namespace Verif.Auto

variable {C : Type} [CharSetLike C]

/-- Number of active states before `i`: the new number of state `i`. -/
def rank (active : Bits) (i : Nat) : Nat := (active.take i).count true

theorem rank_zero (active : Bits) : rank active 0 = 0 := by simp [rank]

theorem rank_succ {active : Bits} {i : Nat} {b : Bool} (h : active[i]? = some b) :
    rank active (i + 1) = rank active i + if b then 1 else 0 := by
  unfold rank
  rw [List.take_add_one, h, List.count_append]
  cases b <;> simp

theorem rank_le (active : Bits) (i : Nat) : rank active i ≤ i :=
  Nat.le_trans List.count_le_length (by simp; omega)

theorem rank_mono (active : Bits) {i j : Nat} (h : i ≤ j) : rank active i ≤ rank active j := by
  unfold rank
  have : active.take j = active.take i ++ (active.drop i).take (j - i) := by
    rw [← List.take_append_drop i (active.take j), List.take_take, List.drop_take, Nat.min_eq_left h]
  rw [this, List.count_append]; omega

theorem rank_lt {active : Bits} {i j : Nat} (h : i < j) (hi : B active i) : rank active i < rank active j := by
  have h1 := rank_succ hi
  have h2 := rank_mono active (i := i + 1) (j := j) h
  simp at h1; omega

theorem rank_inj {active : Bits} {i j : Nat} (hi : B active i) (hj : B active j) (h : rank active i = rank active j) : i = j := by
  rcases Nat.lt_trichotomy i j with hlt | rfl | hgt
  · have := rank_lt hlt hi; omega
  · rfl
  · have := rank_lt hgt hj; omega

/-- Every number below the rank is the rank of an active state. -/
theorem rank_surj {active : Bits} : ∀ {n k : Nat}, n ≤ active.length → k < rank active n → ∃ i, i < n ∧ B active i ∧ rank active i = k := by
  intro n
  induction n with
  | zero => intro k _ h; simp [rank] at h
  | succ n ih =>
    intro k hn h
    have hb : active[n]? = some active[n] := List.getElem?_eq_getElem (by omega)
    by_cases hk : k < rank active n
    · obtain ⟨i, h1, h2⟩ := ih (by omega) hk; exact ⟨i, by omega, h2⟩
    · rw [rank_succ hb] at h
      cases hv : active[n] with
      | false => rw [hv] at h; simp at h; omega
      | true =>
        rw [hv] at h hb; simp at h
        exact ⟨n, by omega, hb, by omega⟩

/-- The compaction loop: entries below `curr` are those of the active states seen, entries from `i` on are
untouched. -/
theorem compactLoop_spec (active : Bits) (rs0 : Rules C) (acc0 : List Nat) (N : Nat) (hr : N ≤ rs0.length) (ha : N ≤ acc0.length)
    (hact : active.length = N) :
    ∀ (m i : Nat) (k : Compact C), i + m = N → k.curr = rank active i → k.rules.length = rs0.length → k.accept.length = acc0.length →
      k.mapping.length = N →
      (∀ p, i ≤ p → k.rules[p]? = rs0[p]?) → (∀ p, i ≤ p → k.accept[p]? = acc0[p]?) →
      (∀ p, p < i → B active p → k.rules[rank active p]? = rs0[p]? ∧ k.accept[rank active p]? = acc0[p]? ∧ k.mapping[p]? = some (rank active p)) →
      ∃ k', compactLoop active (List.range' i m) k = some k' ∧ k'.curr = rank active N ∧ k'.rules.length = rs0.length ∧
        k'.accept.length = acc0.length ∧
        (∀ p, p < N → B active p → k'.rules[rank active p]? = rs0[p]? ∧ k'.accept[rank active p]? = acc0[p]? ∧ k'.mapping[p]? = some (rank active p)) := by
  intro m
  induction m with
  | zero =>
    intro i k hi hc h1 h2 h3 h4 h5 h6
    have : i = N := by omega
    subst this
    exact ⟨k, by simp [compactLoop], hc, h1, h2, h6⟩
  | succ m ih =>
    intro i k hi hc h1 h2 h3 h4 h5 h6
    have hb : active[i]? = some active[i] := List.getElem?_eq_getElem (by omega)
    have hrk := rank_succ hb
    have hle := rank_le active i
    rw [List.range'_succ, compactLoop, hb]
    cases hv : active[i] with
    | false =>
      simp only
      rw [hv] at hrk; simp at hrk
      refine ih (i + 1) k (by omega) (by omega) h1 h2 h3 (fun p hp => h4 p (by omega)) (fun p hp => h5 p (by omega)) fun p hp hB => ?_
      have hpi : p ≠ i := by rintro rfl; unfold B at hB; rw [hb, hv] at hB; simp at hB
      exact h6 p (by omega) hB
    | true =>
      simp only
      rw [hv] at hrk hb; simp at hrk
      have er : k.rules[i]? = some rs0[i] := by rw [h4 i (Nat.le_refl _)]; exact List.getElem?_eq_getElem (by omega)
      have ea : k.accept[i]? = some acc0[i] := by rw [h5 i (Nat.le_refl _)]; exact List.getElem?_eq_getElem (by omega)
      simp only [er, ea, Option.bind_eq_bind, Option.bind_some]
      rw [if_pos ⟨by omega, by omega, by omega⟩]
      refine ih (i + 1) _ (by omega) (by simp only; omega) (by simpa using h1) (by simpa using h2) (by simpa using h3) ?_ ?_ ?_
      · intro p hp
        simp only
        rw [List.getElem?_set, if_neg (by omega)]
        exact h4 p (by omega)
      · intro p hp
        simp only
        rw [List.getElem?_set, if_neg (by omega)]
        exact h5 p (by omega)
      · intro p hp hB
        simp only
        by_cases hpi : p = i
        · subst hpi
          refine ⟨?_, ?_, ?_⟩
          · rw [List.getElem?_set, if_pos hc, if_pos (by omega)]
            exact (List.getElem?_eq_getElem (by omega)).symm
          · rw [List.getElem?_set, if_pos hc, if_pos (by omega)]
            exact (List.getElem?_eq_getElem (by omega)).symm
          · rw [List.getElem?_set, if_pos rfl, if_pos (by omega), hc]
        · have := rank_lt (show p < i by omega) hB
          obtain ⟨g1, g2, g3⟩ := h6 p (by omega) hB
          refine ⟨?_, ?_, ?_⟩
          · rw [List.getElem?_set, if_neg (by omega)]; exact g1
          · rw [List.getElem?_set, if_neg (by omega)]; exact g2
          · rw [List.getElem?_set, if_neg (fun h => hpi h.symm)]; exact g3

theorem keepRules_spec {active : Bits} {mapping : List Nat} {N : Nat} (hact : active.length = N)
    (hm : ∀ p, B active p → mapping[p]? = some (rank active p)) (es : List (C × Nat)) (hes : ∀ c j, (c, j) ∈ es → j < N) :
    ∃ es', keepRules active mapping es = some es' ∧ ∀ c j', (c, j') ∈ es' ↔ ∃ j, (c, j) ∈ es ∧ B active j ∧ j' = rank active j := by
  induction es with
  | nil => exact ⟨[], rfl, by simp⟩
  | cons e es ih =>
    obtain ⟨c, j⟩ := e
    obtain ⟨es', h1, h2⟩ := ih fun c j hm => hes c j (List.mem_cons_of_mem _ hm)
    have hj := hes c j List.mem_cons_self
    have hb : active[j]? = some active[j] := List.getElem?_eq_getElem (by omega)
    simp only [keepRules, hb]
    cases hv : active[j] with
    | false =>
      refine ⟨es', h1, fun c' j' => ?_⟩
      rw [h2]
      constructor
      · rintro ⟨q, hq, r⟩; exact ⟨q, List.mem_cons_of_mem _ hq, r⟩
      · rintro ⟨q, hq, hB, r⟩
        rcases List.mem_cons.mp hq with heq | hq
        · simp only [Prod.mk.injEq] at heq
          rw [heq.2] at hB; unfold B at hB; rw [hb, hv] at hB; simp at hB
        · exact ⟨q, hq, hB, r⟩
    | true =>
      rw [hv] at hb
      refine ⟨(c, rank active j) :: es', by simp [hm j hb, h1], fun c' j' => ?_⟩
      rw [List.mem_cons, h2]
      constructor
      · rintro (heq | ⟨q, hq, r⟩)
        · simp only [Prod.mk.injEq] at heq
          exact ⟨j, by rw [heq.1]; exact List.mem_cons_self, hb, heq.2⟩
        · exact ⟨q, List.mem_cons_of_mem _ hq, r⟩
      · rintro ⟨q, hq, hB, rfl⟩
        rcases List.mem_cons.mp hq with heq | hq
        · simp only [Prod.mk.injEq] at heq
          left; rw [heq.1, heq.2]
        · exact Or.inr ⟨q, hq, hB, rfl⟩

/-- One transition per target. -/
def OnePer (rs : Rules C) : Prop := ∀ es ∈ rs, es.Pairwise (fun a b => a.2 ≠ b.2)

theorem keepRules_one {active : Bits} {mapping : List Nat} (hm : ∀ p, B active p → mapping[p]? = some (rank active p))
    {es es' : List (C × Nat)} (h : keepRules active mapping es = some es') (hp : es.Pairwise (fun a b => a.2 ≠ b.2)) :
    es'.Pairwise (fun a b => a.2 ≠ b.2) ∧ ∀ c j', (c, j') ∈ es' → ∃ j, (c, j) ∈ es ∧ B active j ∧ j' = rank active j := by
  induction es generalizing es' with
  | nil => simp [keepRules] at h; subst h; simp
  | cons e es ih =>
    obtain ⟨c, j⟩ := e
    simp only [keepRules] at h
    obtain ⟨hp1, hp2⟩ := List.pairwise_cons.mp hp
    split at h
    · cases h
    · obtain ⟨i1, i2⟩ := ih h hp2
      refine ⟨i1, fun c' j' hm' => ?_⟩
      obtain ⟨q, hq, r⟩ := i2 c' j' hm'
      exact ⟨q, List.mem_cons_of_mem _ hq, r⟩
    · rename_i hb
      simp only [hm j hb, Option.bind_eq_bind, Option.bind_some, Option.bind_eq_some_iff] at h
      obtain ⟨es2, h1, h2⟩ := h
      simp only [Option.pure_def, Option.some.injEq] at h2
      subst h2
      obtain ⟨i1, i2⟩ := ih h1 hp2
      refine ⟨List.pairwise_cons.mpr ⟨?_, i1⟩, ?_⟩
      · rintro ⟨c', j'⟩ hm' heq
        obtain ⟨q, hq, hBq, hr⟩ := i2 c' j' hm'
        simp only at heq; exact hp1 (c', q) hq (rank_inj hb hBq (by rw [heq]; exact hr))
      · intro c' j' hm'
        rcases List.mem_cons.mp hm' with heq | hm'
        · simp only [Prod.mk.injEq] at heq
          exact ⟨j, by rw [heq.1]; exact List.mem_cons_self, hb, heq.2⟩
        · obtain ⟨q, hq, r⟩ := i2 c' j' hm'
          exact ⟨q, List.mem_cons_of_mem _ hq, r⟩

/-- What `filterStates` does. -/
structure FilterSpec (d d' : DFA C) (active : Bits) : Prop where
  nstates : d'.nstates = rank active d.nstates
  wf : d'.Wf
  edge : ∀ i' c j', HasEdge d'.rules i' c j' ↔ ∃ i j, B active i ∧ B active j ∧ i' = rank active i ∧ j' = rank active j ∧ HasEdge d.rules i c j
  accept : ∀ i, B active i → d'.accept[rank active i]? = d.accept[i]?
  one : OnePer d.rules → OnePer d'.rules

theorem filterStates_spec {d : DFA C} (hd : d.Wf) {active : Bits} (hact : active.length = d.nstates) :
    ∃ d', d.filterStates active = some d' ∧ FilterSpec d d' active := by
  have hN1 := hd.rules
  have hN2 := hd.accept
  obtain ⟨k, k1, k2, k3, k4, k5⟩ := compactLoop_spec active d.rules d.accept d.nstates (by omega) (by omega) hact d.nstates 0
    ⟨0, d.rules, d.accept, List.replicate d.nstates 0⟩ (by omega) (by simp [rank]) rfl rfl (by simp) (fun _ _ => rfl) (fun _ _ => rfl)
    (fun p hp => by omega)
  have k5' : ∀ p, B active p → k.rules[rank active p]? = d.rules[p]? ∧ k.accept[rank active p]? = d.accept[p]? ∧
      k.mapping[p]? = some (rank active p) := fun p hB => k5 p (by have := hB.lt; omega) hB
  have hkept : ∀ i', i' < k.curr → ∃ i, B active i ∧ rank active i = i' ∧ (k.rules.take k.curr)[i']? = d.rules[i]? := by
    intro i' hi'
    obtain ⟨i, hi, hB, hri⟩ := rank_surj (active := active) (n := d.nstates) (by omega) (by omega : i' < rank active d.nstates)
    refine ⟨i, hB, hri, ?_⟩
    rw [List.getElem?_take, if_pos hi', ← hri, (k5' i hB).1]
  have hlt : ∀ i, B active i → rank active i < k.curr := by
    intro i hB
    rw [k2]
    have h1 := rank_succ hB
    have h2 := rank_mono active (i := i + 1) (j := d.nstates) (by have := hB.lt; omega)
    simp at h1; omega
  have hcl : k.curr ≤ d.nstates := by rw [k2]; exact rank_le _ _
  have hlen : (k.rules.take k.curr).length = k.curr := by simp; omega
  obtain ⟨rules, r1, r2, r3⟩ := mapM_some (keepRules active k.mapping) (k.rules.take k.curr) (by
    intro es hes
    obtain ⟨i', hi'⟩ := List.mem_iff_getElem?.mp hes
    have hi'' := (List.getElem?_eq_some_iff.mp hi').1
    obtain ⟨i, hB, hri, he⟩ := hkept i' (by omega)
    rw [he] at hi'
    obtain ⟨es', h, _⟩ := keepRules_spec hact (fun p hB => (k5' p hB).2.2) es (fun c j hm => hd.target i c j ⟨es, hi', hm⟩)
    exact ⟨es', h⟩)
  have edge : ∀ i' c j', HasEdge rules i' c j' ↔ ∃ i j, B active i ∧ B active j ∧ i' = rank active i ∧ j' = rank active j ∧ HasEdge d.rules i c j := by
    intro i' c j'
    constructor
    · rintro ⟨es', he', hm⟩
      obtain ⟨es, hes, hk⟩ := (r3 i' es').mp he'
      have hi'' := (List.getElem?_eq_some_iff.mp hes).1
      obtain ⟨i, hB, hri, he⟩ := hkept i' (by omega)
      rw [he] at hes
      obtain ⟨es2, h, h'⟩ := keepRules_spec hact (fun p hB => (k5' p hB).2.2) es (fun c j hm => hd.target i c j ⟨es, hes, hm⟩)
      rw [hk] at h; cases h
      obtain ⟨j, hj, hBj, hr⟩ := (h' c j').mp hm
      exact ⟨i, j, hB, hBj, hri.symm, hr, es, hes, hj⟩
    · rintro ⟨i, j, hBi, hBj, rfl, rfl, es, hes, hm⟩
      obtain ⟨es', h, h'⟩ := keepRules_spec hact (fun p hB => (k5' p hB).2.2) es (fun c j hm => hd.target i c j ⟨es, hes, hm⟩)
      refine ⟨es', (r3 _ es').mpr ⟨es, ?_, h⟩, (h' c _).mpr ⟨j, hm, hBj, rfl⟩⟩
      rw [List.getElem?_take, if_pos (hlt i hBi), (k5' i hBi).1, hes]
  refine ⟨⟨k.curr, rules, d.numActions, k.accept.take k.curr⟩, ?_, k2, ?_, edge, ?_, ?_⟩
  · simp only [DFA.filterStates, List.range_eq_range', k1, Option.bind_eq_bind, Option.bind_some, r1]
    rfl
  · refine ⟨by show rules.length = k.curr; omega, by simp; omega, ?_, ?_, ?_, ?_⟩
    · intro i' c j' he
      obtain ⟨i, j, _, hBj, _, rfl, _⟩ := (edge _ _ _).mp he
      exact hlt j hBj
    · intro i' c j' he
      obtain ⟨i, j, _, _, _, _, he⟩ := (edge _ _ _).mp he
      exact hd.noEps _ _ _ he
    · intro i' c j' c2 j2 y he he2 hy hy2
      obtain ⟨i, j, hBi, hBj, hi, rfl, e1⟩ := (edge _ _ _).mp he
      obtain ⟨i2, j2, hBi2, hBj2, hi2, rfl, e2⟩ := (edge _ _ _).mp he2
      have := rank_inj hBi hBi2 (by omega)
      subst this
      rw [hd.det _ _ _ _ _ _ e1 e2 hy hy2]
    · intro a ha
      obtain ⟨i', hi'⟩ := List.mem_iff_getElem?.mp ha
      simp only at hi' ⊢
      have hi'' := (List.getElem?_eq_some_iff.mp hi').1
      obtain ⟨i, hB, hri, _⟩ := hkept i' (by simp at hi''; omega)
      rw [List.getElem?_take, if_pos (by simp at hi''; omega), ← hri, (k5' i hB).2.1] at hi'
      exact hd.action a (List.mem_of_getElem? hi')
  · intro i hB
    simp only
    rw [List.getElem?_take, if_pos (hlt i hB), (k5' i hB).2.1]
  · intro hone es' hes'
    obtain ⟨i', hi'⟩ := List.mem_iff_getElem?.mp hes'
    obtain ⟨es, hes, hk⟩ := (r3 i' es').mp hi'
    have hi'' := (List.getElem?_eq_some_iff.mp hes).1
    obtain ⟨i, hB, hri, he⟩ := hkept i' (by omega)
    rw [he] at hes
    exact (keepRules_one (fun p hB => (k5' p hB).2.2) hk (hone es (List.mem_of_getElem? hes))).1

/-! ### Runs -/

/-- Active sets closed under transitions: runs are kept. -/
theorem FilterSpec.run {d d' : DFA C} {active : Bits} (h : FilterSpec d d' active) {i q' : Nat} {w : List Nat} (hi : B active i)
    (hr : Run d'.rules (rank active i) w q') : ∃ q, q' = rank active q ∧ B active q ∧ Run d.rules i w q := by
  generalize hp : rank active i = p at hr
  induction hr generalizing i with
  | nil => exact ⟨i, hp.symm, hi, .nil⟩
  | eps e he _ ih =>
    obtain ⟨i2, j, hB, hBj, hi2, rfl, e'⟩ := (h.edge _ _ _).mp e
    have := rank_inj hi hB (by omega)
    subst this
    obtain ⟨q, h1, h2, h3⟩ := ih hBj rfl
    exact ⟨q, h1, h2, .eps e' he h3⟩
  | chr e he ha _ ih =>
    obtain ⟨i2, j, hB, hBj, hi2, rfl, e'⟩ := (h.edge _ _ _).mp e
    have := rank_inj hi hB (by omega)
    subst this
    obtain ⟨q, h1, h2, h3⟩ := ih hBj rfl
    exact ⟨q, h1, h2, .chr e' he ha h3⟩

/-- Runs through active states are kept. -/
theorem FilterSpec.run_back {d d' : DFA C} {active : Bits} (h : FilterSpec d d' active) {i q : Nat} {w : List Nat}
    (hr : Run d.rules i w q) (hall : ∀ p, (∃ u, Run d.rules i u p) → (∃ v, Run d.rules p v q) → B active p) :
    Run d'.rules (rank active i) w (rank active q) := by
  induction hr with
  | nil => exact .nil
  | @eps i c j w k e he hr ih =>
    have hi := hall i ⟨[], .nil⟩ ⟨w, .eps e he hr⟩
    have hj := hall j ⟨[], .eps e he .nil⟩ ⟨w, hr⟩
    refine .eps ((h.edge _ _ _).mpr ⟨i, j, hi, hj, rfl, rfl, e⟩) he (ih fun p ⟨u, hu⟩ hv => hall p ⟨u, .eps e he hu⟩ hv)
  | @chr i c j x w k e he ha hr ih =>
    have hi := hall i ⟨[], .nil⟩ ⟨x :: w, .chr e he ha hr⟩
    have hj := hall j ⟨[x], .chr e he ha .nil⟩ ⟨w, hr⟩
    refine .chr ((h.edge _ _ _).mpr ⟨i, j, hi, hj, rfl, rfl, e⟩) he ha (ih fun p ⟨u, hu⟩ hv => hall p ⟨x :: u, .chr e he ha hu⟩ hv)

theorem run_path {rs : Rules C} {i k : Nat} {w : List Nat} (h : Run rs i w k) : Path (fun _ => true) rs i k := by
  induction h with
  | nil => exact .refl
  | eps e _ _ ih => exact .step e rfl ih
  | chr e _ _ _ ih => exact .step e rfl ih

/-! ### Unarrivable states -/

theorem arrivable_spec {d : DFA C} (hd : d.Wf) (h0 : 0 < d.nstates) :
    ∃ s t, single d.nstates 0 = some s ∧ closureLoop (fun _ => true) d.rules s [0] = some t ∧ t.length = d.nstates ∧
      ∀ i, B t i ↔ Path (fun _ => true) d.rules 0 i := by
  obtain ⟨s, h1, h2, h3⟩ := single_spec h0
  obtain ⟨t, g1, g2, g3, g4, g5⟩ := closureLoop_spec (p := fun _ => true) (N := d.nstates) (rs := d.rules) (by have := hd.rules; omega)
    (fun i c j h => hd.target i c j h) s [0] h2 (fun i hi => by simp at hi; subst hi; exact (h3 0).mpr rfl)
    (fun i c j hb hn => by rw [h3] at hb; simp [hb] at hn)
  refine ⟨s, t, h1, g1, g2, fun i => ⟨fun hi => ?_, fun hi => ?_⟩⟩
  · obtain ⟨j, hj, hr⟩ := g4 i hi
    rw [h3] at hj; subst hj; exact hr
  · exact path_closed g5 hi (g3 0 ((h3 0).mpr rfl))

theorem eliminateUnarrivable_spec {d : DFA C} (hd : d.Wf) (h0 : 0 < d.nstates) :
    ∃ d', d.eliminateUnarrivable = some d' ∧ d'.Wf ∧ 0 < d'.nstates ∧ (∀ w a, d'.Ends w a ↔ d.Ends w a) ∧
      (∀ i, i < d'.nstates → Path (fun _ => true) d'.rules 0 i) ∧ (∀ a ∈ d'.accept, a ∈ d.accept) ∧
      (NoEmpty d.rules → NoEmpty d'.rules) ∧ d'.numActions = d.numActions := by
  obtain ⟨s, t, h1, h2, h3, h4⟩ := arrivable_spec hd h0
  obtain ⟨d', f1, f2⟩ := filterStates_spec hd h3
  have hB0 : B t 0 := (h4 0).mpr .refl
  have r0 := rank_zero t
  have acc' : ∀ a ∈ d'.accept, a ∈ d.accept := by
    intro a ha
    obtain ⟨i', hi'⟩ := List.mem_iff_getElem?.mp ha
    have hlt := (List.getElem?_eq_some_iff.mp hi').1
    rw [f2.wf.accept, f2.nstates] at hlt
    obtain ⟨i, _, hB, hri⟩ := rank_surj (by omega) hlt
    rw [← hri, f2.accept i hB] at hi'
    exact List.mem_of_getElem? hi'
  refine ⟨d', by simp only [DFA.eliminateUnarrivable, h1, h2, Option.bind_eq_bind, Option.bind_some]; exact f1, f2.wf, ?_, ?_, ?_, acc', ?_, ?_⟩
  · rw [f2.nstates]
    have := rank_lt h0 hB0
    omega
  · intro w a
    constructor
    · rintro ⟨q', hr, ha⟩
      rw [← r0] at hr
      obtain ⟨q, rfl, hB, hr⟩ := f2.run hB0 hr
      exact ⟨q, hr, by rw [← f2.accept q hB, ha]⟩
    · rintro ⟨q, hr, ha⟩
      have hB : B t q := (h4 q).mpr (run_path hr)
      refine ⟨rank t q, ?_, by rw [f2.accept q hB, ha]⟩
      have := f2.run_back hr fun p ⟨u, hu⟩ _ => (h4 p).mpr (run_path hu)
      rwa [r0] at this
  · intro i' hi'
    rw [f2.nstates] at hi'
    obtain ⟨i, _, hB, hri⟩ := rank_surj (by omega) hi'
    have hp := (h4 i).mp hB
    have : ∀ i p, Path (fun _ => true) d.rules p i → Path (fun _ => true) d.rules 0 p → Path (fun _ => true) d'.rules (rank t p) (rank t i) := by
      intro i p hp
      induction hp with
      | refl => intro _; exact .refl
      | @step p c j k e he hr ih =>
        intro h
        have hj := h.trans (.step e he .refl)
        exact .step ((f2.edge _ _ _).mpr ⟨p, j, (h4 p).mpr h, (h4 j).mpr hj, rfl, rfl, e⟩) he (ih hj)
    have := this i 0 hp .refl
    rwa [r0, hri] at this
  · intro hne i c j he hc
    obtain ⟨_, _, _, _, _, _, e⟩ := (f2.edge _ _ _).mp he
    exact hne _ _ _ e hc
  · simp only [DFA.filterStates, Option.bind_eq_bind] at f1
    cases hk : compactLoop t (List.range d.nstates) ⟨0, d.rules, d.accept, List.replicate d.nstates 0⟩ with
    | none => rw [hk] at f1; simp at f1
    | some k =>
      rw [hk] at f1
      simp only [Option.bind_some] at f1
      cases hr : (k.rules.take k.curr).mapM (keepRules t k.mapping) with
      | none => rw [hr] at f1; simp at f1
      | some r => rw [hr] at f1; simp at f1; rw [← f1]

theorem eliminateUnarrivable_one {d d' : DFA C} (hd : d.Wf) (h0 : 0 < d.nstates) (h : d.eliminateUnarrivable = some d')
    (ho : OnePer d.rules) : OnePer d'.rules := by
  obtain ⟨s, t, h1, h2, h3, h4⟩ := arrivable_spec hd h0
  obtain ⟨d2, f1, f2⟩ := filterStates_spec hd h3
  simp only [DFA.eliminateUnarrivable, h1, h2, Option.bind_eq_bind, Option.bind_some, f1] at h
  cases h
  exact f2.one ho

end Verif.Auto
