import Verif.Auto.LengthLemmas
import Verif.Auto.NegateLemmas

set_option linter.unusedSectionVars false

/-! # What the operations keep: kinds of first arrivals, non-empty labels, useful states, no epsilon cycles -/

namespace Verif.Auto

variable {C : Type} [CharSetLike C]

/-! ### First arrivals (for `minLength`) -/

/-- In a part `k .. k+N-1` of an automaton entered only at its start, by epsilon transitions, first arrivals are those of the part. -/
theorem avoid_region {rs rs' : Rules C} {k N v : Nat}
    (hin : ∀ z c u, HasEdge rs' z c u → k ≤ u → u < k + N →
      (k ≤ z ∧ z < k + N ∧ HasEdge rs (z - k) c (u - k)) ∨ (u = k ∧ CharSetLike.isEps c = true))
    {z : Nat} (h : Avoid rs' (v + k) z) : k ≤ z → z < k + N → Avoid rs v (z - k) := by
  induction h with
  | start h0 =>
    intro h1 _
    have : k = 0 := by omega
    subst this; exact .start (by omega)
  | @step z c u _ e hu ih =>
    intro h1 h2
    rcases hin z c u e h1 h2 with ⟨a, b, hc⟩ | ⟨rfl, _⟩
    · exact .step (ih a b) hc (by omega)
    · rw [Nat.sub_self]; exact .start (by omega)

theorem not_avoid_zero {rs : Rules C} {z : Nat} : ¬ Avoid rs 0 z := by
  intro h
  induction h with
  | start h => exact h rfl
  | step _ _ _ ih => exact ih

theorem tidy_region {rs rs' : Rules C} {k N : Nat} (ht : Tidy rs)
    (hin : ∀ z c u, HasEdge rs' z c u → k ≤ u → u < k + N →
      (k ≤ z ∧ z < k + N ∧ HasEdge rs (z - k) c (u - k)) ∨ (u = k ∧ CharSetLike.isEps c = true))
    {v z z' : Nat} {c c' : C} (h1 : k ≤ v) (h2 : v < k + N) (ha : Avoid rs' v z) (e : HasEdge rs' z c v) (ha' : Avoid rs' v z')
    (e' : HasEdge rs' z' c' v) : CharSetLike.isEps c = CharSetLike.isEps c' := by
  obtain ⟨w, rfl⟩ : ∃ w, v = w + k := ⟨v - k, by omega⟩
  have key : ∀ z c, Avoid rs' (w + k) z → HasEdge rs' z c (w + k) →
      (∃ y, Avoid rs w y ∧ HasEdge rs y c w) ∨ (w = 0 ∧ CharSetLike.isEps c = true) := by
    intro z c ha e
    rcases hin z c _ e h1 h2 with ⟨a, b, d⟩ | ⟨a, b⟩
    · rw [Nat.add_sub_cancel] at d
      exact Or.inl ⟨z - k, avoid_region hin ha a b, d⟩
    · exact Or.inr ⟨by omega, b⟩
  rcases key z c ha e with ⟨y, a1, a2⟩ | ⟨rfl, a2⟩
  · rcases key z' c' ha' e' with ⟨y', b1, b2⟩ | ⟨rfl, b2⟩
    · exact ht w y c y' c' a1 a2 b1 b2
    · exact absurd a1 not_avoid_zero
  · rcases key z' c' ha' e' with ⟨y', b1, b2⟩ | ⟨_, b2⟩
    · exact absurd b1 not_avoid_zero
    · rw [a2, b2]

theorem tidy_empty : Tidy (NFA.empty : NFA C).rules := by
  intro v z c z' c' _ h; simp [NFA.empty, hasEdge_cons, hasEdge_nil] at h

theorem tidy_emptyWord : Tidy (NFA.emptyWord : NFA C).rules := by
  intro v z c z' c' _ h; simp [NFA.emptyWord, hasEdge_cons, hasEdge_nil] at h

theorem tidy_ofSet (s : C) : Tidy (NFA.ofSet s).rules := by
  intro v z c z' c' _ h _ h'
  rw [edge_ofSet] at h h'
  rw [h.2.2, h'.2.2]

theorem tidy_alt {n o r : NFA C} (hn : n.Wf) (ho : o.Wf) (h : n.alt o = some r) (t1 : Tidy n.rules) (t2 : Tidy o.rules) : Tidy r.rules := by
  obtain ⟨r', h1, -, -, -, h5⟩ := alt_eq hn ho
  rw [h] at h1; cases h1
  have s1 := hn.single
  have s2 := ho.single
  intro v z c z' c' ha e ha' e'
  by_cases hv : 1 ≤ v ∧ v < 1 + n.nstates
  · refine tidy_region t1 (k := 1) (N := n.nstates) ?_ hv.1 hv.2 ha e ha' e'
    intro z c u e g1 g2
    rw [h5] at e
    rcases e with ⟨rfl, rfl, e⟩ | ⟨i', j', rfl, rfl, e⟩ | ⟨i', j', rfl, rfl, e⟩ | e | e
    · exact Or.inr ⟨by omega, isEps_eps'⟩
    · exact Or.inl ⟨by omega, by have := (hn.target _ _ _ e).1; omega, by simpa using e⟩
    · omega
    · omega
    · omega
  · by_cases hv2 : n.nstates + 1 ≤ v ∧ v < n.nstates + 1 + o.nstates
    · refine tidy_region t2 (k := n.nstates + 1) (N := o.nstates) ?_ hv2.1 hv2.2 ha e ha' e'
      intro z c u e g1 g2
      rw [h5] at e
      rcases e with ⟨rfl, rfl, e⟩ | ⟨i', j', rfl, rfl, e⟩ | ⟨i', j', rfl, rfl, e⟩ | e | e
      · exact Or.inr ⟨by omega, isEps_eps'⟩
      · have := (hn.target _ _ _ e).2; omega
      · exact Or.inl ⟨by omega, by have := (ho.target _ _ _ e).1; omega, by simpa using e⟩
      · omega
      · omega
    · have key : ∀ z c, HasEdge r.rules z c v → CharSetLike.isEps c = true := by
        intro z c ez
        rw [h5] at ez
        rcases ez with ⟨rfl, rfl, ez⟩ | ⟨i', j', rfl, rfl, ez⟩ | ⟨i', j', rfl, rfl, ez⟩ | ⟨_, rfl, _⟩ | ⟨_, rfl, _⟩
        · exact isEps_eps'
        · have := (hn.target _ _ _ ez).2; omega
        · have := (ho.target _ _ _ ez).2; omega
        · exact isEps_eps'
        · exact isEps_eps'
      rw [key z c e, key z' c' e']

theorem tidy_concat {n o r : NFA C} (hn : n.Wf) (ho : o.Wf) (h : n.concat o = some r) (t1 : Tidy n.rules) (t2 : Tidy o.rules) : Tidy r.rules := by
  obtain ⟨r', h1, -, -, -, h5⟩ := concat_eq hn ho
  rw [h] at h1; cases h1
  have s1 := hn.single
  have s2 := ho.single
  intro v z c z' c' ha e ha' e'
  by_cases hv : v < 0 + n.nstates
  · refine tidy_region t1 (k := 0) (N := n.nstates) ?_ (by omega) hv ha e ha' e'
    intro z c u e g1 g2
    rw [h5] at e
    rcases e with e | ⟨i', j', rfl, rfl, e⟩ | ⟨_, _, e⟩
    · exact Or.inl ⟨by omega, by have := (hn.target _ _ _ e).1; omega, by simpa using e⟩
    · omega
    · omega
  · refine tidy_region t2 (k := n.nstates) (N := o.nstates) ?_ (by omega) ?_ ha e ha' e'
    · intro z c u e g1 g2
      rw [h5] at e
      rcases e with e | ⟨i', j', rfl, rfl, e⟩ | ⟨_, rfl, e⟩
      · have := (hn.target _ _ _ e).2; omega
      · exact Or.inl ⟨by omega, by have := (ho.target _ _ _ e).1; omega, by simpa using e⟩
      · exact Or.inr ⟨e, isEps_eps'⟩
    · rw [h5] at e
      rcases e with e | ⟨i', j', rfl, rfl, e⟩ | ⟨_, rfl, e⟩
      · have := (hn.target _ _ _ e).2; omega
      · have := (ho.target _ _ _ e).2; omega
      · omega

theorem tidy_star {n r : NFA C} (hn : n.Wf) (h : n.star = some r) (t1 : Tidy n.rules) : Tidy r.rules := by
  obtain ⟨r', h1, -, -, -, h5⟩ := star_eq hn
  rw [h] at h1; cases h1
  have s1 := hn.single
  intro v z c z' c' ha e ha' e'
  by_cases hv : v < 0 + n.nstates
  · refine tidy_region t1 (k := 0) (N := n.nstates) ?_ (by omega) hv ha e ha' e'
    intro z c u e g1 g2
    rw [h5] at e
    rcases e with e | ⟨_, rfl, e⟩ | ⟨_, _, e⟩
    · exact Or.inl ⟨by omega, by have := (hn.target _ _ _ e).1; omega, by simpa using e⟩
    · exact Or.inr ⟨e, isEps_eps'⟩
    · omega
  · have key : ∀ z c, HasEdge r.rules z c v → CharSetLike.isEps c = true := by
      intro z c e
      rw [h5] at e
      rcases e with e | ⟨_, rfl, e⟩ | ⟨_, rfl, e⟩
      · have := (hn.target _ _ _ e).2; omega
      · exact isEps_eps'
      · exact isEps_eps'
    rw [key z c e, key z' c' e']

/-! ### Labels -/

theorem noEmpty_ofSet {s : C} (h : CharSetLike.empty s = false) : NoEmpty (NFA.ofSet s).rules := by
  intro i c j e _; rw [edge_ofSet] at e; rw [e.2.2]; exact h

theorem noEmpty_alt {n o r : NFA C} (hn : n.Wf) (ho : o.Wf) (h : n.alt o = some r) (t1 : NoEmpty n.rules) (t2 : NoEmpty o.rules) : NoEmpty r.rules := by
  obtain ⟨r', h1, -, -, -, h5⟩ := alt_eq hn ho
  rw [h] at h1; cases h1
  intro i c j e he
  rw [h5] at e
  rcases e with ⟨_, rfl, _⟩ | ⟨i', j', rfl, rfl, e⟩ | ⟨i', j', rfl, rfl, e⟩ | ⟨_, rfl, _⟩ | ⟨_, rfl, _⟩
  · rw [isEps_eps'] at he; cases he
  · exact t1 _ _ _ e he
  · exact t2 _ _ _ e he
  · rw [isEps_eps'] at he; cases he
  · rw [isEps_eps'] at he; cases he

theorem noEmpty_concat {n o r : NFA C} (hn : n.Wf) (ho : o.Wf) (h : n.concat o = some r) (t1 : NoEmpty n.rules) (t2 : NoEmpty o.rules) : NoEmpty r.rules := by
  obtain ⟨r', h1, -, -, -, h5⟩ := concat_eq hn ho
  rw [h] at h1; cases h1
  intro i c j e he
  rw [h5] at e
  rcases e with e | ⟨i', j', rfl, rfl, e⟩ | ⟨_, rfl, _⟩
  · exact t1 _ _ _ e he
  · exact t2 _ _ _ e he
  · rw [isEps_eps'] at he; cases he

theorem noEmpty_star {n r : NFA C} (hn : n.Wf) (h : n.star = some r) (t1 : NoEmpty n.rules) : NoEmpty r.rules := by
  obtain ⟨r', h1, -, -, -, h5⟩ := star_eq hn
  rw [h] at h1; cases h1
  intro i c j e he
  rw [h5] at e
  rcases e with e | ⟨_, rfl, _⟩ | ⟨_, rfl, _⟩
  · exact t1 _ _ _ e he
  · rw [isEps_eps'] at he; cases he
  · rw [isEps_eps'] at he; cases he

theorem DfaSpec.noEmpty {n : NFA C} {d : DFA C} (h : DfaSpec n d) (hne : NoEmpty n.rules) : NoEmpty d.rules := by
  obtain ⟨st, s1, s2, s3, s4, s5, s6, s7⟩ := h.sets
  intro i c j he _
  have := he.lt
  rw [h.nrules] at this
  obtain ⟨x, hx⟩ := s4 i this
  obtain ⟨t, hs, _, ht⟩ := s6 x i hx
  obtain ⟨y, hy, _⟩ := (ht c j).mp he
  exact hs.nonempty hne _ hy

theorem complete_noEmpty {d : DFA C} (hne : NoEmpty d.rules) (hsz : 0 < CharSetLike.size C) : NoEmpty d.complete.rules := by
  intro i c j e he
  rw [complete_edge] at e
  obtain ⟨es, h1, h2⟩ := e
  rcases h2 with h2 | ⟨h2, rfl, _⟩
  · by_cases hi : i < d.rules.length
    · rw [List.getElem?_append_left hi] at h1
      exact hne i c j ⟨es, h1, h2⟩ he
    · rw [List.getElem?_append_right (by omega)] at h1
      have := List.mem_of_getElem? h1
      simp at this; subst this
      simp at h2
      rw [h2.1]
      refine Bool.eq_false_iff.mpr fun hf => ?_
      have := (CharSetLike.empty_iff (CharSetLike.full : C)).mp hf 0
      rw [CharSetLike.accepts_full] at this
      simp at this; omega
  · exact h2

/-! ### Useful states -/

/-- Every state lies on a path from the start to the accepting state. -/
structure Trimmed (n : NFA C) : Prop where
  arrive : ∀ i, i < n.nstates → Path (fun _ => true) n.rules 0 i
  leave : ∀ i, i < n.nstates → Path (fun _ => true) n.rules i n.accept

/-- The accepting state is reached from the start, and every state on a cycle lies on a path from the start to the accepting state. -/
structure Trim (n : NFA C) : Prop where
  live : Path (fun _ => true) n.rules 0 n.accept
  cyc : ∀ u c v, HasEdge n.rules u c v → Path (fun _ => true) n.rules v u → Path (fun _ => true) n.rules 0 u ∧ Path (fun _ => true) n.rules u n.accept

theorem Trimmed.trim {n : NFA C} (hn : n.Wf) (h : Trimmed n) : Trim n := by
  have := hn.single
  exact ⟨h.arrive _ (by omega), fun u c v e _ => ⟨h.arrive u (hn.target _ _ _ e).1, h.leave u (hn.target _ _ _ e).1⟩⟩

theorem Path.shift {p : C → Bool} {rs rs' : Rules C} {k : Nat} (H : ∀ i c j, HasEdge rs i c j → HasEdge rs' (i + k) c (j + k))
    {i j : Nat} (h : Path p rs i j) : Path p rs' (i + k) (j + k) := by
  induction h with
  | refl => exact .refl
  | step e he _ ih => exact .step (H _ _ _ e) he ih

theorem Path.one {rs : Rules C} {i j : Nat} {c : C} (e : HasEdge rs i c j) : Path (fun _ => true) rs i j := .step e rfl .refl

theorem trim_emptyWord : Trim (NFA.emptyWord : NFA C) :=
  ⟨.refl, by intro u c v h; simp [NFA.emptyWord, hasEdge_cons, hasEdge_nil] at h⟩

theorem trim_ofSet (s : C) : Trim (NFA.ofSet s) := by
  have e : Path (fun _ => true) (NFA.ofSet s).rules 0 1 := .one (edge_ofSet.mpr ⟨rfl, rfl, rfl⟩)
  refine ⟨e, fun u c v h _ => ?_⟩
  obtain ⟨rfl, _, _⟩ := edge_ofSet.mp h
  exact ⟨.refl, e⟩

/-- Paths inside a region that is not entered again once it is left. -/
theorem path_region {rs rs' : Rules C} {k N : Nat} {P : Nat → Prop} (hP : ∀ i c j, P i → HasEdge rs' i c j → P j) (hk : ∀ i, P i → ¬ (k ≤ i ∧ i < k + N))
    (H : ∀ i c j, i < N → HasEdge rs' (i + k) c j → (∃ j', j = j' + k ∧ j' < N ∧ HasEdge rs i c j') ∨ P j)
    {i j : Nat} (hi : i < N) (hj : j < N) (h : Path (fun _ => true) rs' (i + k) (j + k)) : Path (fun _ => true) rs i j := by
  have out : ∀ {a b : Nat}, Path (fun _ => true) rs' a b → P a → P b := by
    intro a b h
    induction h with
    | refl => exact id
    | step e _ _ ih => exact fun ha => ih (hP _ _ _ ha e)
  generalize ha : i + k = a at h
  generalize hb : j + k = b at h
  induction h generalizing i with
  | refl => rw [show i = j by omega]; exact .refl
  | @step a c x b e _ h' ih =>
    subst ha
    rcases H i c x hi e with ⟨j', rfl, h1, h2⟩ | hx
    · exact .step h2 rfl (ih h1 rfl hb)
    · exact absurd ⟨by omega, by omega⟩ (hk b (out h' hx))

theorem trim_alt_of {n o r : NFA C} (hn : n.Wf) (ho : o.Wf) (h : n.alt o = some r)
    (t1 : ∀ u c v, HasEdge n.rules u c v → Path (fun _ => true) n.rules v u → Path (fun _ => true) n.rules 0 u ∧ Path (fun _ => true) n.rules u n.accept)
    (t2 : Trim o) : Trim r := by
  obtain ⟨r', h1, g2, g3, -, h5⟩ := alt_eq hn ho
  rw [h] at h1; cases h1
  have s1 := hn.single
  have s2 := ho.single
  have e1 : HasEdge r.rules 0 CharSetLike.eps 1 := (h5 _ _ _).mpr (Or.inl ⟨rfl, rfl, Or.inl rfl⟩)
  have e2 : HasEdge r.rules 0 CharSetLike.eps (n.nstates + 1) := (h5 _ _ _).mpr (Or.inl ⟨rfl, rfl, Or.inr rfl⟩)
  have f1 : HasEdge r.rules (n.accept + 1) CharSetLike.eps r.accept := (h5 _ _ _).mpr (Or.inr (Or.inr (Or.inr (Or.inl ⟨rfl, rfl, by omega⟩))))
  have f2 : HasEdge r.rules (o.accept + (n.nstates + 1)) CharSetLike.eps r.accept :=
    (h5 _ _ _).mpr (Or.inr (Or.inr (Or.inr (Or.inr ⟨by omega, rfl, by omega⟩))))
  have m1 : ∀ {i j}, Path (fun _ => true) n.rules i j → Path (fun _ => true) r.rules (i + 1) (j + 1) :=
    Path.shift fun i c j e => (h5 _ _ _).mpr (Or.inr (Or.inl ⟨i, j, rfl, rfl, e⟩))
  have m2 : ∀ {i j}, Path (fun _ => true) o.rules i j → Path (fun _ => true) r.rules (i + (n.nstates + 1)) (j + (n.nstates + 1)) :=
    Path.shift fun i c j e => (h5 _ _ _).mpr (Or.inr (Or.inr (Or.inl ⟨i, j, rfl, rfl, e⟩)))
  have stop : ∀ i c j, i = n.nstates + o.nstates + 1 → HasEdge r.rules i c j → j = n.nstates + o.nstates + 1 := by
    rintro i c j rfl e
    rcases (h5 _ _ _).mp e with ⟨h, _⟩ | ⟨i', j', h, _, e⟩ | ⟨i', j', h, _, e⟩ | ⟨h, _⟩ | ⟨h, _⟩
    · omega
    · have := (hn.target _ _ _ e).1; omega
    · have := (ho.target _ _ _ e).1; omega
    · omega
    · omega
  have q1 : ∀ {i j}, i < n.nstates → j < n.nstates → Path (fun _ => true) r.rules (i + 1) (j + 1) → Path (fun _ => true) n.rules i j := by
    refine path_region (P := fun i => i = n.nstates + o.nstates + 1) stop (by omega) fun i c j hi e => ?_
    rcases (h5 _ _ _).mp e with ⟨h, _⟩ | ⟨i', j', h, rfl, e'⟩ | ⟨i', j', h, rfl, e'⟩ | ⟨_, _, rfl⟩ | ⟨_, _, rfl⟩
    · omega
    · obtain rfl : i = i' := by omega
      exact Or.inl ⟨j', rfl, (hn.target _ _ _ e').2, e'⟩
    · omega
    · exact Or.inr rfl
    · exact Or.inr rfl
  have q2 : ∀ {i j}, i < o.nstates → j < o.nstates → Path (fun _ => true) r.rules (i + (n.nstates + 1)) (j + (n.nstates + 1)) → Path (fun _ => true) o.rules i j := by
    refine path_region (P := fun i => i = n.nstates + o.nstates + 1) stop (by omega) fun i c j hi e => ?_
    rcases (h5 _ _ _).mp e with ⟨h, _⟩ | ⟨i', j', h, rfl, e'⟩ | ⟨i', j', h, rfl, e'⟩ | ⟨_, _, rfl⟩ | ⟨_, _, rfl⟩
    · omega
    · have := (hn.target _ _ _ e').1; omega
    · obtain rfl : i = i' := by omega
      exact Or.inl ⟨j', rfl, (ho.target _ _ _ e').2, e'⟩
    · exact Or.inr rfl
    · exact Or.inr rfl
  have out : ∀ {a b}, Path (fun _ => true) r.rules a b → a = n.nstates + o.nstates + 1 → b = n.nstates + o.nstates + 1 := by
    intro a b h
    induction h with
    | refl => exact id
    | step e _ _ ih => exact fun ha => ih (stop _ _ _ ha e)
  have pos : ∀ {a b}, Path (fun _ => true) r.rules a b → 0 < a → 0 < b := by
    intro a b h
    induction h with
    | refl => exact id
    | step e _ _ ih => exact fun _ => ih (by rcases (h5 _ _ _).mp e with ⟨_, _, rfl | rfl⟩ | ⟨i', j', _, rfl, _⟩ | ⟨i', j', _, rfl, _⟩ | ⟨_, _, rfl⟩ | ⟨_, _, rfl⟩ <;> omega)
  refine ⟨.step e2 rfl ?_, fun u c v e p => ?_⟩
  · exact (by simpa using m2 t2.live : Path (fun _ => true) r.rules (n.nstates + 1) (o.accept + (n.nstates + 1))).trans (.one f2)
  · rcases (h5 _ _ _).mp e with ⟨rfl, _, rfl | rfl⟩ | ⟨i', j', rfl, rfl, e'⟩ | ⟨i', j', rfl, rfl, e'⟩ | ⟨rfl, _, rfl⟩ | ⟨rfl, _, rfl⟩
    · have := pos p (by omega); omega
    · have := pos p (by omega); omega
    · have ht := hn.target _ _ _ e'
      obtain ⟨a1, a2⟩ := t1 i' c j' e' (q1 ht.2 ht.1 p)
      exact ⟨.step e1 rfl (by simpa using m1 a1), (m1 a2).trans (.one f1)⟩
    · have ht := ho.target _ _ _ e'
      obtain ⟨a1, a2⟩ := t2.cyc i' c j' e' (q2 ht.2 ht.1 p)
      exact ⟨.step e2 rfl (by simpa using m2 a1), (m2 a2).trans (.one f2)⟩
    · have := out p rfl; omega
    · have := out p rfl; omega

theorem trim_alt {n o r : NFA C} (hn : n.Wf) (ho : o.Wf) (h : n.alt o = some r) (t1 : Trim n) (t2 : Trim o) : Trim r := trim_alt_of hn ho h t1.cyc t2

theorem trim_concat {n o r : NFA C} (hn : n.Wf) (ho : o.Wf) (h : n.concat o = some r) (t1 : Trim n) (t2 : Trim o) : Trim r := by
  obtain ⟨r', h1, g2, g3, -, h5⟩ := concat_eq hn ho
  rw [h] at h1; cases h1
  have s1 := hn.single
  have s2 := ho.single
  have m1 : ∀ {i j}, Path (fun _ => true) n.rules i j → Path (fun _ => true) r.rules (i + 0) (j + 0) :=
    Path.shift fun i c j e => (h5 _ _ _).mpr (Or.inl e)
  simp only [Nat.add_zero] at m1
  have m2 : ∀ {i j}, Path (fun _ => true) o.rules i j → Path (fun _ => true) r.rules (i + n.nstates) (j + n.nstates) :=
    Path.shift fun i c j e => (h5 _ _ _).mpr (Or.inr (Or.inl ⟨i, j, rfl, rfl, e⟩))
  have m : Path (fun _ => true) r.rules n.accept (0 + n.nstates) := .one ((h5 _ _ _).mpr (Or.inr (Or.inr ⟨rfl, rfl, by omega⟩)))
  have stop : ∀ i c j, n.nstates ≤ i → HasEdge r.rules i c j → n.nstates ≤ j := by
    intro i c j hi e
    rcases (h5 _ _ _).mp e with e | ⟨i', j', _, rfl, _⟩ | ⟨_, _, rfl⟩
    · have := (hn.target _ _ _ e).1; omega
    · omega
    · omega
  have q1 : ∀ {i j}, i < n.nstates → j < n.nstates → Path (fun _ => true) r.rules (i + 0) (j + 0) → Path (fun _ => true) n.rules i j := by
    refine path_region (P := fun i => n.nstates ≤ i) stop (by omega) fun i c j hi e => ?_
    rcases (h5 _ _ _).mp e with e | ⟨i', j', h, _, _⟩ | ⟨_, _, rfl⟩
    · exact Or.inl ⟨j, rfl, (hn.target _ _ _ e).2, e⟩
    · omega
    · exact Or.inr (Nat.le_refl _)
  have q2 : ∀ {i j}, i < o.nstates → j < o.nstates → Path (fun _ => true) r.rules (i + n.nstates) (j + n.nstates) → Path (fun _ => true) o.rules i j := by
    refine path_region (P := fun _ => False) (fun _ _ _ h _ => h) (fun _ h => h.elim) fun i c j hi e => ?_
    rcases (h5 _ _ _).mp e with e | ⟨i', j', h, rfl, e⟩ | ⟨h, _, rfl⟩
    · have := (hn.target _ _ _ e).1; omega
    · obtain rfl : i = i' := by omega
      exact Or.inl ⟨j', rfl, (ho.target _ _ _ e).2, e⟩
    · omega
  have out : ∀ {a b}, Path (fun _ => true) r.rules a b → n.nstates ≤ a → n.nstates ≤ b := by
    intro a b h
    induction h with
    | refl => exact id
    | step e _ _ ih => exact fun ha => ih (stop _ _ _ ha e)
  refine ⟨(m1 t1.live).trans (m.trans (by rw [g3]; exact m2 t2.live)), fun u c v e p => ?_⟩
  rw [g3]
  rcases (h5 _ _ _).mp e with e' | ⟨i', j', rfl, rfl, e'⟩ | ⟨rfl, _, rfl⟩
  · have ht := hn.target _ _ _ e'
    obtain ⟨a1, a2⟩ := t1.cyc u c v e' (q1 ht.2 ht.1 p)
    exact ⟨m1 a1, (m1 a2).trans (m.trans (m2 t2.live))⟩
  · have ht := ho.target _ _ _ e'
    obtain ⟨a1, a2⟩ := t2.cyc i' c j' e' (q2 ht.2 ht.1 p)
    exact ⟨(m1 t1.live).trans (m.trans (m2 a1)), m2 a2⟩
  · have := out p (Nat.le_refl _); omega

theorem trim_star {n r : NFA C} (hn : n.Wf) (h : n.star = some r) (t1 : Trim n) : Trim r := by
  obtain ⟨r', h1, g2, g3, -, h5⟩ := star_eq hn
  rw [h] at h1; cases h1
  have s1 := hn.single
  have m1 : ∀ {i j}, Path (fun _ => true) n.rules i j → Path (fun _ => true) r.rules (i + 0) (j + 0) :=
    Path.shift fun i c j e => (h5 _ _ _).mpr (Or.inl e)
  simp only [Nat.add_zero] at m1
  have e1 : Path (fun _ => true) r.rules n.accept 0 := .one ((h5 _ _ _).mpr (Or.inr (Or.inl ⟨rfl, rfl, rfl⟩)))
  have e2 : Path (fun _ => true) r.rules 0 r.accept := .one ((h5 _ _ _).mpr (Or.inr (Or.inr ⟨rfl, rfl, g3⟩)))
  have stop : ∀ {a b}, Path (fun _ => true) r.rules a b → n.nstates ≤ a → b = a := by
    intro a b h
    cases h with
    | refl => exact fun _ => rfl
    | step e _ _ =>
      intro ha
      rcases (h5 _ _ _).mp e with e | ⟨rfl, _⟩ | ⟨rfl, _⟩
      · have := (hn.target _ _ _ e).1; omega
      · omega
      · omega
  -- a path is one of `n`, or goes through 0
  have key : ∀ {a b}, Path (fun _ => true) r.rules a b → a < n.nstates → b < n.nstates →
      Path (fun _ => true) n.rules a b ∨ (Path (fun _ => true) r.rules a 0 ∧ Path (fun _ => true) r.rules 0 b) := by
    intro a b h
    induction h with
    | refl => exact fun _ _ => Or.inl .refl
    | @step a c x b e _ h' ih =>
      intro ha hb
      rcases (h5 _ _ _).mp e with e' | ⟨rfl, _, rfl⟩ | ⟨rfl, _, rfl⟩
      · rcases ih (hn.target _ _ _ e').2 hb with h | ⟨h, h2⟩
        · exact Or.inl (.step e' rfl h)
        · exact Or.inr ⟨.step e rfl h, h2⟩
      · exact Or.inr ⟨e1, h'⟩
      · have := stop h' (Nat.le_refl _); omega
  refine ⟨e2, fun u c v e p => ?_⟩
  rcases (h5 _ _ _).mp e with e' | ⟨rfl, _, rfl⟩ | ⟨rfl, _, rfl⟩
  · have ht := hn.target _ _ _ e'
    rcases key p ht.2 ht.1 with h | ⟨h, h2⟩
    · obtain ⟨a1, a2⟩ := t1.cyc u c v e' h
      exact ⟨m1 a1, (m1 a2).trans (e1.trans e2)⟩
    · exact ⟨h2, (Path.one e).trans (h.trans e2)⟩
  · exact ⟨p, e1.trans e2⟩
  · exact ⟨.refl, e2⟩

theorem trim_lang {n : NFA C} (hn : n.Wf) (hne : NoEmpty n.rules) (ht : Trim n) : ∃ w, n.Lang w := by
  have hs := hn.single
  obtain ⟨m, hm⟩ := path_from ht.live 0 .start
  obtain ⟨w, hw, _⟩ := (lang_from hn.toM hne m).mpr ⟨n.accept, by omega, by omega, hm⟩
  exact ⟨w, hw⟩

/-! ### No epsilon cycles -/

/-- Epsilon transitions decrease a rank. -/
def Ranked (rs : Rules C) : Prop := ∃ rk : Nat → Nat, ∀ i c j, HasEdge rs i c j → CharSetLike.isEps c = true → rk j < rk i

theorem ranked_empty : Ranked (NFA.empty : NFA C).rules := ⟨fun _ => 0, by intro i c j h; simp [NFA.empty, hasEdge_cons, hasEdge_nil] at h⟩

theorem ranked_emptyWord : Ranked (NFA.emptyWord : NFA C).rules :=
  ⟨fun _ => 0, by intro i c j h; simp [NFA.emptyWord, hasEdge_cons, hasEdge_nil] at h⟩

theorem ranked_ofSet (s : C) : Ranked (NFA.ofSet s).rules := ⟨fun i => 1 - i, by
    intro i c j h; rw [edge_ofSet] at h; obtain ⟨rfl, rfl, _⟩ := h; simp⟩

/-- A bound of a rank on the states of an automaton. -/
theorem rank_bound (f : Nat → Nat) (N : Nat) : ∃ M, ∀ i, i < N → f i < M := by
  induction N with
  | zero => exact ⟨0, by simp⟩
  | succ N ih =>
    obtain ⟨M, hM⟩ := ih
    refine ⟨M + f N + 1, fun i hi => ?_⟩
    by_cases h : i = N
    · subst h; omega
    · have := hM i (by omega); omega

theorem ranked_alt {n o r : NFA C} (hn : n.Wf) (ho : o.Wf) (h : n.alt o = some r) (t1 : Ranked n.rules) (t2 : Ranked o.rules) : Ranked r.rules := by
  obtain ⟨r', h1, -, -, -, h5⟩ := alt_eq hn ho
  rw [h] at h1; cases h1
  have s1 := hn.single
  have s2 := ho.single
  obtain ⟨f, hf⟩ := t1
  obtain ⟨g, hg⟩ := t2
  obtain ⟨M1, hM1⟩ := rank_bound f n.nstates
  obtain ⟨M2, hM2⟩ := rank_bound g o.nstates
  refine ⟨fun i => if i = 0 then M1 + M2 + 1 else if i < n.nstates + 1 then f (i - 1) + 1 else
    if i < n.nstates + 1 + o.nstates then g (i - (n.nstates + 1)) + 1 else 0, ?_⟩
  intro i c j e he
  rw [h5] at e
  rcases e with ⟨rfl, _, rfl | rfl⟩ | ⟨i', j', rfl, rfl, e⟩ | ⟨i', j', rfl, rfl, e⟩ | ⟨rfl, _, rfl⟩ | ⟨rfl, _, rfl⟩
  · have := hM1 0 (by omega); grind
  · have := hM2 0 (by omega); grind
  · have := hn.target _ _ _ e
    have := hf _ _ _ e he
    grind
  · have := ho.target _ _ _ e
    have := hg _ _ _ e he
    grind
  · grind
  · grind

theorem ranked_concat {n o r : NFA C} (hn : n.Wf) (ho : o.Wf) (h : n.concat o = some r) (t1 : Ranked n.rules) (t2 : Ranked o.rules) : Ranked r.rules := by
  obtain ⟨r', h1, -, -, -, h5⟩ := concat_eq hn ho
  rw [h] at h1; cases h1
  have s1 := hn.single
  have s2 := ho.single
  obtain ⟨f, hf⟩ := t1
  obtain ⟨g, hg⟩ := t2
  refine ⟨fun i => if i < n.nstates then f i + g 0 + 1 else g (i - n.nstates), ?_⟩
  intro i c j e he
  rw [h5] at e
  rcases e with e | ⟨i', j', rfl, rfl, e⟩ | ⟨rfl, _, rfl⟩
  · have := hn.target _ _ _ e
    have := hf _ _ _ e he
    simp only; rw [if_pos (by omega), if_pos (by omega)]; omega
  · have := hg _ _ _ e he
    simp only; rw [if_neg (by omega), if_neg (by omega), Nat.add_sub_cancel, Nat.add_sub_cancel]; exact this
  · simp only; rw [if_neg (by omega), if_pos (by omega), Nat.sub_self]; omega

open Classical in
theorem ranked_star {n r : NFA C} (hn : n.Wf) (h : n.star = some r) (h0 : ¬ n.Lang []) (t1 : Ranked n.rules) : Ranked r.rules := by
  obtain ⟨r', h1, -, -, -, h5⟩ := star_eq hn
  rw [h] at h1; cases h1
  have s1 := hn.single
  rw [lang_single hn] at h0
  obtain ⟨f, hf⟩ := t1
  refine ⟨fun i => if i < n.nstates then 1 + f i + (if Run n.rules i [] n.accept then f 0 + 1 else 0) else 0, ?_⟩
  intro i c j e he
  rw [h5] at e
  rcases e with e | ⟨rfl, _, rfl⟩ | ⟨rfl, _, rfl⟩
  · have := hn.target _ _ _ e
    have hlt := hf _ _ _ e he
    by_cases hj : Run n.rules j [] n.accept
    · have := Run.eps e he hj
      simp [*]
    · simp [hj, this.1, this.2]; omega
  · have : Run n.rules n.accept [] n.accept := .nil
    have h1 : n.accept < n.nstates := by omega
    have h2 : 0 < n.nstates := by omega
    simp [h0, h1, h2, this]; omega
  · have h2 : 0 < n.nstates := by omega
    simp [h2]; omega

/-! ### The complement -/

theorem negate_shape {n : NFA C} (hn : n.WfM) (ha : n.accept < n.nstates) (order : List Bits → List Bits) (ho : Enumerates order) :
    ∃ F r, (∀ fuel, F ≤ fuel → n.negate order fuel = some r) ∧ Tidy r.rules ∧ Ranked r.rules ∧
      (NoEmpty n.rules → 0 < CharSetLike.size C → NoEmpty r.rules) ∧ ((∃ w, r.Lang w) → Trim r) := by
  obtain ⟨F, d, hF, hd⟩ := dfa_spec hn order ho
  have hpos : 0 < d.nstates := by
    obtain ⟨st, s1, _, _, _, ⟨s, hs, _⟩, _⟩ := hd.sets
    have := (s1 s 0 hs).2; omega
  obtain ⟨c1, c2, c3⟩ := complete_spec hd.wf hpos (by rw [hd.nactions]; omega)
  obtain ⟨d1, u1, u2, u3, u4, u5, u6, u7, _⟩ := eliminateUnarrivable_spec c1 (by show 0 < d.nstates + 1; omega)
  obtain ⟨d2, i1, i2, _, i3, i6, i7, i4⟩ := eliminateInactive_spec u2
  obtain ⟨i8, i5, _⟩ := i4 u5
  obtain ⟨r, r1, r2, r3, r4, r5, r6, r7, r8⟩ := nfa_spec i2
  have hone : ∀ a ∈ d2.accept, a ≤ 1 := fun a h => c2 a (u6 a (i3 a h))
  have hr : r.Wf := r5 hone
  refine ⟨F, r, fun fuel hf => ?_, ?_, ?_, fun hne hsz => r6 (i6 (u7 (complete_noEmpty (hd.noEmpty hne) hsz))), ?_⟩
  · simp only [NFA.negate, hF fuel hf, u1, i1, r1, Option.bind_eq_bind, Option.bind_some]
  all_goals rcases Nat.eq_zero_or_pos d2.nstates with h0 | h0
  · rw [r7 h0]; exact tidy_empty
  · obtain ⟨_, ed⟩ := r8 h0
    have key : ∀ p c j, HasEdge r.rules p c j → CharSetLike.isEps c = decide (d2.nstates ≤ j) := by
      intro p c j e
      rcases (ed p c j).mp e with e | ⟨rfl, a, _, rfl⟩
      · have := i2.target _ _ _ e
        rw [i2.noEps _ _ _ e]; simp; omega
      · rw [isEps_eps']; simp
    intro v z c z' c' _ e _ e'
    rw [key _ _ _ e, key _ _ _ e']
  · rw [r7 h0]; exact ranked_empty
  · obtain ⟨_, ed⟩ := r8 h0
    refine ⟨fun i => if i < d2.nstates then 1 else 0, fun i c j e he => ?_⟩
    rcases (ed i c j).mp e with e | ⟨rfl, a, ha, rfl⟩
    · rw [i2.noEps _ _ _ e] at he; cases he
    · have := (List.getElem?_eq_some_iff.mp ha).1
      rw [i2.accept] at this
      simp only; rw [if_neg (by omega), if_pos this]; omega
  · rintro ⟨w, hw⟩
    rw [r7 h0] at hw; exact absurd hw (lang_empty w)
  · intro _
    obtain ⟨ha, ed⟩ := r8 h0
    have hs := hr.single
    have m1 : ∀ {i j}, Path (fun _ => true) d2.rules i j → Path (fun _ => true) r.rules (i + 0) (j + 0) :=
      Path.shift fun i c j e => (ed _ _ _).mpr (Or.inl e)
    simp only [Nat.add_zero] at m1
    have leave : ∀ i, i < d2.nstates → Path (fun _ => true) r.rules i r.accept := by
      intro i hi
      obtain ⟨k, a, hp, hk, hka⟩ := i7 i hi
      have : a = 1 := by have := hone a (List.mem_of_getElem? hk); omega
      subst this
      exact (m1 hp).trans (.one ((ed _ _ _).mpr (Or.inr ⟨rfl, 0, hk, by omega⟩)))
    refine Trimmed.trim hr ?_
    constructor
    · intro i hi
      by_cases h1 : i < d2.nstates
      · exact m1 (i8 i h1)
      · rw [show i = r.accept by omega]; exact leave 0 h0
    · intro i hi
      by_cases h1 : i < d2.nstates
      · exact leave i h1
      · rw [show i = r.accept by omega]; exact .refl

end Verif.Auto
