import Verif.Auto.Spec

set_option linter.unusedSectionVars false

namespace Verif.Auto

variable {C : Type} [CharSetLike C]

/-! ### Edges of composed rule tables -/

theorem HasEdge.lt {rs : Rules C} {i j : Nat} {c : C} (h : HasEdge rs i c j) : i < rs.length := by
  obtain ⟨es, h, _⟩ := h
  exact (List.getElem?_eq_some_iff.mp h).1

theorem hasEdge_append {a b : Rules C} {i j : Nat} {c : C} :
    HasEdge (a ++ b) i c j ↔ HasEdge a i c j ∨ (a.length ≤ i ∧ HasEdge b (i - a.length) c j) := by
  by_cases h : i < a.length
  · simp only [HasEdge, List.getElem?_append_left h]
    constructor
    · exact Or.inl
    · rintro (h' | h')
      · exact h'
      · omega
  · have h' : a.length ≤ i := by omega
    simp only [HasEdge, List.getElem?_append_right h', List.getElem?_eq_none h', h', true_and]
    simp

theorem hasEdge_replicate {n i j : Nat} {c : C} : ¬ HasEdge (List.replicate n []) i c j := by
  rintro ⟨es, h, h'⟩
  have := List.mem_of_getElem? h
  rw [List.mem_replicate] at this
  simp [this.2] at h'

theorem hasEdge_nil {i j : Nat} {c : C} : ¬ HasEdge [] i c j := by
  rintro ⟨es, h, _⟩; simp at h

theorem hasEdge_cons {es : List (C × Nat)} {rs : Rules C} {i j : Nat} {c : C} :
    HasEdge (es :: rs) i c j ↔ (i = 0 ∧ (c, j) ∈ es) ∨ (∃ i', i = i' + 1 ∧ HasEdge rs i' c j) := by
  cases i with
  | zero => simp [HasEdge]
  | succ i => simp [HasEdge]

theorem hasEdge_map {rs : Rules C} {k i j : Nat} {c : C} :
    HasEdge (rs.map (shift k)) i c j ↔ ∃ j', j = j' + k ∧ HasEdge rs i c j' := by
  simp only [HasEdge, List.getElem?_map, Option.map_eq_some_iff]
  constructor
  · rintro ⟨_, ⟨es, h, rfl⟩, h'⟩
    simp only [shift, List.mem_map, Prod.mk.injEq] at h'
    obtain ⟨e, he, rfl, rfl⟩ := h'
    exact ⟨e.2, rfl, es, h, he⟩
  · rintro ⟨j', rfl, es, h, h'⟩
    exact ⟨_, ⟨es, h, rfl⟩, List.mem_map.mpr ⟨(c, j'), h', rfl⟩⟩

theorem hasEdge_take {rs : Rules C} {n i j : Nat} {c : C} :
    HasEdge (rs.take n) i c j ↔ i < n ∧ HasEdge rs i c j := by
  simp only [HasEdge, List.getElem?_take]
  split
  · simp [*]
  · simp [*]

theorem hasEdge_drop {rs : Rules C} {n i j : Nat} {c : C} :
    HasEdge (rs.drop n) i c j ↔ HasEdge rs (n + i) c j := by
  simp only [HasEdge, List.getElem?_drop]

theorem resize_length (rs : Rules C) (n : Nat) : (resize rs n).length = n := by
  simp [resize]; omega

theorem hasEdge_resize {rs : Rules C} {n i j : Nat} {c : C} :
    HasEdge (resize rs n) i c j ↔ i < n ∧ HasEdge rs i c j := by
  rw [resize, hasEdge_append, hasEdge_take]
  simp [hasEdge_replicate]

theorem pushAt_eq {rs : Rules C} {i : Nat} (h : i < rs.length) (e : C × Nat) :
    ∃ rs', pushAt rs i e = some rs' ∧ rs'.length = rs.length ∧
      ∀ p c j, HasEdge rs' p c j ↔ HasEdge rs p c j ∨ (p = i ∧ (c, j) = e) := by
  refine ⟨_, by rw [pushAt, if_pos h], by simp, fun p c j => ?_⟩
  simp only [HasEdge, List.getElem?_modify]
  by_cases hp : i = p
  · subst hp
    simp [List.getElem?_eq_getElem h]
  · have : ¬ p = i := fun h => hp h.symm
    simp [hp, this]

theorem copied_eq {o : NFA C} (h : o.nstates ≤ o.rules.length) (k : Nat) :
    ∃ os, copied o k = some os ∧ os.length = o.nstates ∧
      ∀ i c j, HasEdge os i c j ↔ i < o.nstates ∧ ∃ j', j = j' + k ∧ HasEdge o.rules i c j' := by
  refine ⟨_, by rw [copied, if_pos h], by simp; omega, fun i c j => ?_⟩
  rw [hasEdge_map]
  simp only [hasEdge_take]
  constructor
  · rintro ⟨j', rfl, h1, h2⟩; exact ⟨h1, j', rfl, h2⟩
  · rintro ⟨h1, j', rfl, h2⟩; exact ⟨j', rfl, h1, h2⟩

/-! ### Runs -/

theorem Run.trans {rs : Rules C} {i j k : Nat} {u v : List Nat} (h : Run rs i u j) (h' : Run rs j v k) :
    Run rs i (u ++ v) k := by
  induction h with
  | nil => exact h'
  | eps e he _ ih => exact .eps e he (ih h')
  | chr e he ha _ ih => exact .chr e he ha (ih h')

theorem Run.epsStep {rs : Rules C} {i j k : Nat} {u : List Nat} {c : C} (h : Run rs i u j) (e : HasEdge rs j c k)
    (he : CharSetLike.isEps c = true) : Run rs i u k := by
  have := h.trans (.eps e he .nil)
  simpa using this

/-- Transport along a renumbering. -/
theorem Run.mono {rs rs' : Rules C} {k : Nat} (H : ∀ i c j, HasEdge rs i c j → HasEdge rs' (i + k) c (j + k))
    {i j : Nat} {w : List Nat} (h : Run rs i w j) : Run rs' (i + k) w (j + k) := by
  induction h with
  | nil => exact .nil
  | eps e he _ ih => exact .eps (H _ _ _ e) he ih
  | chr e he ha _ ih => exact .chr (H _ _ _ e) he ha ih

/-- A property of residual languages that every transition respects holds for every run. -/
theorem Run.residual {rs : Rules C} {k : Nat} (P : Nat → Lang) (h0 : P k [])
    (heps : ∀ i c j w, HasEdge rs i c j → CharSetLike.isEps c = true → P j w → P i w)
    (hchr : ∀ i c j x w, HasEdge rs i c j → CharSetLike.isEps c = false → CharSetLike.accepts c x = true →
      P j w → P i (x :: w))
    {i : Nat} {w : List Nat} (h : Run rs i w k) : P i w := by
  induction h with
  | nil => exact h0
  | eps e he _ ih => exact heps _ _ _ _ e he (ih h0)
  | chr e he ha _ ih => exact hchr _ _ _ _ _ e he ha (ih h0)

theorem lang_single {n : NFA C} (h : n.Wf) (w : List Nat) : n.Lang w ↔ Run n.rules 0 w n.accept := by
  have := h.single
  constructor
  · rintro ⟨k, hk, hr⟩
    have : k = 0 := by omega
    subst this; exact hr
  · intro hr; exact ⟨0, by omega, hr⟩

theorem isEps_eps' : CharSetLike.isEps (CharSetLike.eps : C) = true := CharSetLike.isEps_eps

/-! ### Primitive automata -/

theorem wf_empty : (NFA.empty : NFA C).Wf :=
  ⟨rfl, Nat.le_refl _, by intro i c j h; simp [NFA.empty, hasEdge_cons, hasEdge_nil] at h⟩

theorem wf_emptyWord : (NFA.emptyWord : NFA C).Wf :=
  ⟨rfl, Nat.le_refl _, by intro i c j h; simp [NFA.emptyWord, hasEdge_cons, hasEdge_nil] at h⟩

theorem edge_ofSet {s c : C} {i j : Nat} : HasEdge (NFA.ofSet s).rules i c j ↔ i = 0 ∧ j = 1 ∧ c = s := by
  simp [NFA.ofSet, hasEdge_cons, hasEdge_nil, Prod.ext_iff, and_comm]

theorem wf_ofSet (s : C) : (NFA.ofSet s).Wf :=
  ⟨rfl, Nat.le_refl _, by intro i c j h; rw [edge_ofSet] at h; simp [NFA.ofSet]; omega⟩

theorem lang_empty (w : List Nat) : ¬ (NFA.empty : NFA C).Lang w := by
  rw [lang_single wf_empty]
  intro h
  have : (fun (i : Nat) (_ : List Nat) => i = 1) 0 w := by
    refine Run.residual (fun i _ => i = 1) rfl ?_ ?_ h
    · intro i c j w h; simp [NFA.empty, hasEdge_cons, hasEdge_nil] at h
    · intro i c j x w h; simp [NFA.empty, hasEdge_cons, hasEdge_nil] at h
  simp at this

theorem lang_emptyWord (w : List Nat) : (NFA.emptyWord : NFA C).Lang w ↔ w = [] := by
  rw [lang_single wf_emptyWord]
  constructor
  · intro h
    refine Run.residual (fun _ w => w = []) rfl ?_ ?_ h
    · intro i c j w h; simp [NFA.emptyWord, hasEdge_cons, hasEdge_nil] at h
    · intro i c j x w h; simp [NFA.emptyWord, hasEdge_cons, hasEdge_nil] at h
  · rintro rfl; exact .nil

theorem lang_ofSet (s : C) (hs : CharSetLike.isEps s = false) (w : List Nat) :
    (NFA.ofSet s).Lang w ↔ ∃ x, w = [x] ∧ CharSetLike.accepts s x = true := by
  rw [lang_single (wf_ofSet s)]
  constructor
  · intro h
    have : (fun (i : Nat) (w : List Nat) => (i = 0 ∧ ∃ x, w = [x] ∧ CharSetLike.accepts s x = true) ∨ (i = 1 ∧ w = [])) 0 w := by
      refine Run.residual (fun i w => (i = 0 ∧ ∃ x, w = [x] ∧ CharSetLike.accepts s x = true) ∨ (i = 1 ∧ w = []))
        (Or.inr ⟨rfl, rfl⟩) ?_ ?_ h
      · intro i c j w e he; rw [edge_ofSet] at e; rw [e.2.2, hs] at he; cases he
      · intro i c j x w e he ha hp
        rw [edge_ofSet] at e
        obtain ⟨rfl, rfl, rfl⟩ := e
        rcases hp with ⟨h, _⟩ | ⟨_, rfl⟩
        · cases h
        · exact Or.inl ⟨rfl, x, rfl, ha⟩
    rcases this with ⟨_, h⟩ | ⟨h, _⟩
    · exact h
    · cases h
  · rintro ⟨x, rfl, h⟩
    exact .chr (edge_ofSet.mpr ⟨rfl, rfl, rfl⟩) hs h .nil

/-! ### Union -/

theorem alt_eq {n o : NFA C} (hn : n.Wf) (ho : o.Wf) :
    ∃ r, n.alt o = some r ∧ r.nstates = n.nstates + o.nstates + 2 ∧ r.accept = n.nstates + o.nstates + 1 ∧
      r.nstates ≤ r.rules.length ∧
      ∀ i c j, HasEdge r.rules i c j ↔
        (i = 0 ∧ c = CharSetLike.eps ∧ (j = 1 ∨ j = n.nstates + 1)) ∨
        (∃ i' j', i = i' + 1 ∧ j = j' + 1 ∧ HasEdge n.rules i' c j') ∨
        (∃ i' j', i = i' + (n.nstates + 1) ∧ j = j' + (n.nstates + 1) ∧ HasEdge o.rules i' c j') ∨
        (i = n.accept + 1 ∧ c = CharSetLike.eps ∧ j = n.nstates + o.nstates + 1) ∨
        (i = n.nstates + o.nstates ∧ c = CharSetLike.eps ∧ j = n.nstates + o.nstates + 1) := by
  have h1 := hn.single
  have h2 := ho.single
  obtain ⟨os, c1, c2, c3⟩ := copied_eq ho.size (n.adjust 1).nstates
  have hal : (n.adjust 1).rules.length = n.nstates + 1 := by
    simp [NFA.adjust, resize_length]
  have hns : (n.adjust 1).nstates = n.nstates + 1 := rfl
  have hac : (n.adjust 1).accept = n.accept + 1 := rfl
  have hedge : ∀ i c j, HasEdge (n.adjust 1).rules i c j ↔ ∃ i' j', i = i' + 1 ∧ j = j' + 1 ∧ HasEdge n.rules i' c j' := by
    intro i c j
    rw [NFA.adjust, hasEdge_append, hasEdge_map]
    simp only [hasEdge_resize, List.length_replicate, hasEdge_replicate, false_or]
    constructor
    · rintro ⟨hi, j', rfl, hi', h⟩
      exact ⟨i - 1, j', by omega, rfl, h⟩
    · rintro ⟨i', j', rfl, rfl, h⟩
      exact ⟨by omega, j', rfl, by have := (hn.target _ _ _ h).1; omega, by simpa using h⟩
  obtain ⟨r1, p1, l1, e1⟩ := pushAt_eq (rs := (n.adjust 1).rules ++ os ++ [[], []]) (i := 0) (by simp; omega) (CharSetLike.eps, 1)
  have hl : ((n.adjust 1).rules ++ os ++ [[], []]).length = n.nstates + o.nstates + 3 := by
    simp [hal, c2]; omega
  obtain ⟨r2, p2, l2, e2⟩ := pushAt_eq (rs := r1) (i := 0) (by omega) (CharSetLike.eps, (n.adjust 1).nstates)
  obtain ⟨r3, p3, l3, e3⟩ := pushAt_eq (rs := r2) (i := (n.adjust 1).accept) (by omega)
    (CharSetLike.eps, (n.adjust 1).nstates + o.nstates)
  obtain ⟨r4, p4, l4, e4⟩ := pushAt_eq (rs := r3) (i := (n.adjust 1).nstates + o.nstates - 1) (by omega)
    (CharSetLike.eps, (n.adjust 1).nstates + o.nstates)
  refine ⟨⟨(n.adjust 1).nstates + o.nstates + 1, r4, (n.adjust 1).nstates + o.nstates⟩, ?_, ?_, ?_, ?_, ?_⟩
  · simp only [NFA.alt, c1, Option.bind_eq_bind, Option.bind_some]
    simp only [p1, p2, p3, p4, Option.bind_some]; rfl
  · simp only [hns]; omega
  · simp only [hns]; omega
  · simp only; omega
  · intro i c j
    simp only
    have hz : ∀ p, ¬ HasEdge ([[], []] : Rules C) p c j := fun p h => hasEdge_replicate (n := 2) h
    rw [e4, e3, e2, e1, hasEdge_append, hasEdge_append, hedge, c3, hal]
    simp only [hz, and_false, or_false, Prod.mk.injEq, hns, hac]
    constructor
    · rintro (((((h | h) | h) | h) | h) | h)
      · exact Or.inr (Or.inl h)
      · obtain ⟨hi, hlt, j', rfl, h⟩ := h
        exact Or.inr (Or.inr (Or.inl ⟨i - (n.nstates + 1), j', by omega, rfl, h⟩))
      · exact Or.inl ⟨h.1, h.2.1, Or.inl h.2.2⟩
      · exact Or.inl ⟨h.1, h.2.1, Or.inr h.2.2⟩
      · exact Or.inr (Or.inr (Or.inr (Or.inl ⟨h.1, h.2.1, by omega⟩)))
      · exact Or.inr (Or.inr (Or.inr (Or.inr ⟨by omega, h.2.1, by omega⟩)))
    · rintro (⟨rfl, rfl, h | h⟩ | h | h | h | h)
      · exact Or.inl (Or.inl (Or.inl (Or.inr ⟨rfl, rfl, h⟩)))
      · exact Or.inl (Or.inl (Or.inr ⟨rfl, rfl, h⟩))
      · exact Or.inl (Or.inl (Or.inl (Or.inl (Or.inl h))))
      · obtain ⟨i', j', rfl, rfl, h⟩ := h
        refine Or.inl (Or.inl (Or.inl (Or.inl (Or.inr ⟨by omega, ?_, j', rfl, ?_⟩))))
        · have := (ho.target _ _ _ h).1; omega
        · rw [Nat.add_sub_cancel]; exact h
      · exact Or.inl (Or.inr ⟨h.1, h.2.1, by omega⟩)
      · exact Or.inr ⟨by omega, h.2.1, by omega⟩

theorem alt_spec {n o : NFA C} (hn : n.Wf) (ho : o.Wf) :
    ∃ r, n.alt o = some r ∧ r.Wf ∧ ∀ w, r.Lang w ↔ n.Lang w ∨ o.Lang w := by
  obtain ⟨r, h1, h2, h3, h4, h5⟩ := alt_eq hn ho
  have hs := hn.single
  have hs' := ho.single
  have hwf : r.Wf := by
    refine ⟨by omega, h4, fun i c j h => ?_⟩
    rw [h5] at h
    rcases h with h | ⟨i', j', rfl, rfl, h⟩ | ⟨i', j', rfl, rfl, h⟩ | h | h
    · omega
    · have := hn.target _ _ _ h; omega
    · have := ho.target _ _ _ h; omega
    · omega
    · omega
  refine ⟨r, h1, hwf, fun w => ?_⟩
  rw [lang_single hwf, lang_single hn, lang_single ho, h3]
  constructor
  · intro h
    let P : Nat → Lang := fun i w =>
      (i = 0 ∧ (Run n.rules 0 w n.accept ∨ Run o.rules 0 w o.accept)) ∨
      (∃ i', i = i' + 1 ∧ i' < n.nstates ∧ Run n.rules i' w n.accept) ∨
      (∃ i', i = i' + (n.nstates + 1) ∧ i' < o.nstates ∧ Run o.rules i' w o.accept) ∨
      (i = n.nstates + o.nstates + 1 ∧ w = [])
    have hP : P 0 w := by
      refine Run.residual P (Or.inr (Or.inr (Or.inr ⟨rfl, rfl⟩))) ?_ ?_ h
      · intro i c j w e he hp
        rw [h5] at e
        rcases e with ⟨rfl, rfl, rfl | rfl⟩ | ⟨i', j', rfl, rfl, e⟩ | ⟨i', j', rfl, rfl, e⟩ | ⟨rfl, rfl, rfl⟩ | ⟨rfl, rfl, rfl⟩
        · rcases hp with hp | ⟨i', hi, _, hp⟩ | ⟨i', hi, hlt, hp⟩ | hp
          · omega
          · have : i' = 0 := by omega
            subst this; exact Or.inl ⟨rfl, Or.inl hp⟩
          · omega
          · omega
        · rcases hp with hp | ⟨i', hi, _, hp⟩ | ⟨i', hi, hlt, hp⟩ | hp
          · omega
          · omega
          · have : i' = 0 := by omega
            subst this; exact Or.inl ⟨rfl, Or.inr hp⟩
          · omega
        · have ht := hn.target _ _ _ e
          rcases hp with hp | ⟨k, hk, _, hp⟩ | ⟨k, hk, hlt, hp⟩ | hp
          · omega
          · have : k = j' := by omega
            subst this
            exact Or.inr (Or.inl ⟨i', rfl, ht.1, .eps e he hp⟩)
          · omega
          · omega
        · have ht := ho.target _ _ _ e
          rcases hp with hp | ⟨k, hk, _, hp⟩ | ⟨k, hk, hlt, hp⟩ | hp
          · omega
          · omega
          · have : k = j' := by omega
            subst this
            exact Or.inr (Or.inr (Or.inl ⟨i', rfl, ht.1, .eps e he hp⟩))
          · omega
        · rcases hp with hp | ⟨k, hk, _, hp⟩ | ⟨k, hk, hlt, hp⟩ | ⟨_, rfl⟩
          · omega
          · omega
          · omega
          · exact Or.inr (Or.inl ⟨n.accept, rfl, by omega, .nil⟩)
        · rcases hp with hp | ⟨k, hk, _, hp⟩ | ⟨k, hk, hlt, hp⟩ | ⟨_, rfl⟩
          · omega
          · omega
          · omega
          · exact Or.inr (Or.inr (Or.inl ⟨o.accept, by omega, by omega, .nil⟩))
      · intro i c j x w e he ha hp
        rw [h5] at e
        rcases e with ⟨rfl, rfl, _⟩ | ⟨i', j', rfl, rfl, e⟩ | ⟨i', j', rfl, rfl, e⟩ | ⟨rfl, rfl, rfl⟩ | ⟨rfl, rfl, rfl⟩
        · rw [isEps_eps'] at he; cases he
        · have ht := hn.target _ _ _ e
          rcases hp with hp | ⟨k, hk, _, hp⟩ | ⟨k, hk, hlt, hp⟩ | hp
          · omega
          · have : k = j' := by omega
            subst this
            exact Or.inr (Or.inl ⟨i', rfl, ht.1, .chr e he ha hp⟩)
          · omega
          · omega
        · have ht := ho.target _ _ _ e
          rcases hp with hp | ⟨k, hk, _, hp⟩ | ⟨k, hk, hlt, hp⟩ | hp
          · omega
          · omega
          · have : k = j' := by omega
            subst this
            exact Or.inr (Or.inr (Or.inl ⟨i', rfl, ht.1, .chr e he ha hp⟩))
          · omega
        · rw [isEps_eps'] at he; cases he
        · rw [isEps_eps'] at he; cases he
    rcases hP with ⟨_, h⟩ | ⟨i', hi, _⟩ | ⟨i', hi, _⟩ | ⟨hi, _⟩
    · exact h
    · omega
    · omega
    · omega
  · rintro (h | h)
    · have hm := Run.mono (k := 1) (rs' := r.rules) (fun i c j e => (h5 _ _ _).mpr (Or.inr (Or.inl ⟨i, j, rfl, rfl, e⟩))) h
      exact .eps ((h5 _ _ _).mpr (Or.inl ⟨rfl, rfl, Or.inl rfl⟩)) isEps_eps'
        (hm.epsStep ((h5 _ _ _).mpr (Or.inr (Or.inr (Or.inr (Or.inl ⟨rfl, rfl, rfl⟩))))) isEps_eps')
    · have hm := Run.mono (k := n.nstates + 1) (rs' := r.rules)
        (fun i c j e => (h5 _ _ _).mpr (Or.inr (Or.inr (Or.inl ⟨i, j, rfl, rfl, e⟩)))) h
      rw [Nat.zero_add] at hm
      exact .eps ((h5 _ _ _).mpr (Or.inl ⟨rfl, rfl, Or.inr rfl⟩)) isEps_eps'
        (hm.epsStep ((h5 _ _ _).mpr (Or.inr (Or.inr (Or.inr (Or.inr ⟨by omega, rfl, rfl⟩))))) isEps_eps')

/-! ### Concatenation -/

theorem concat_eq {n o : NFA C} (hn : n.Wf) (ho : o.Wf) :
    ∃ r, n.concat o = some r ∧ r.nstates = n.nstates + o.nstates ∧ r.accept = o.accept + n.nstates ∧
      r.nstates ≤ r.rules.length ∧
      ∀ i c j, HasEdge r.rules i c j ↔ HasEdge n.rules i c j ∨
        (∃ i' j', i = i' + n.nstates ∧ j = j' + n.nstates ∧ HasEdge o.rules i' c j') ∨
        (i = n.accept ∧ c = CharSetLike.eps ∧ j = n.nstates) := by
  have h1 := hn.single
  have h2 := ho.single
  obtain ⟨r1, p1, l1, e1⟩ := pushAt_eq (rs := resize n.rules (n.nstates + o.nstates + 1)) (i := n.accept)
    (by rw [resize_length]; omega) (CharSetLike.eps, n.nstates)
  rw [resize_length] at l1
  obtain ⟨os, c1, c2, c3⟩ := copied_eq ho.size n.nstates
  refine ⟨⟨n.nstates + o.nstates, r1.take n.nstates ++ os ++ r1.drop (n.nstates + o.nstates), o.accept + n.nstates⟩,
    by simp [NFA.concat, p1, c1], rfl, rfl, by simp [c2, l1]; omega, fun i c j => ?_⟩
  have hlen : (r1.take n.nstates).length = n.nstates := by simp [l1]; omega
  simp only
  rw [hasEdge_append, hasEdge_append, hasEdge_take, hasEdge_drop, e1, e1, c3, List.length_append, hlen, c2]
  simp only [hasEdge_resize, Prod.mk.injEq]
  constructor
  · rintro ((⟨hi, ⟨_, h⟩ | h⟩ | ⟨hi, hlt, j', rfl, h⟩) | ⟨hi, ⟨_, h⟩ | h⟩)
    · exact Or.inl h
    · exact Or.inr (Or.inr h)
    · exact Or.inr (Or.inl ⟨i - n.nstates, j', by omega, rfl, h⟩)
    · have := (hn.target _ _ _ h).1; omega
    · omega
  · rintro (h | ⟨i', j', rfl, rfl, h⟩ | h)
    · have := (hn.target _ _ _ h).1
      exact Or.inl (Or.inl ⟨this, Or.inl ⟨by omega, h⟩⟩)
    · have := (ho.target _ _ _ h).1
      refine Or.inl (Or.inr ⟨by omega, by omega, j', rfl, ?_⟩)
      rw [Nat.add_sub_cancel]; exact h
    · exact Or.inl (Or.inl ⟨by omega, Or.inr h⟩)

theorem concat_spec {n o : NFA C} (hn : n.Wf) (ho : o.Wf) :
    ∃ r, n.concat o = some r ∧ r.Wf ∧ ∀ w, r.Lang w ↔ Cat n.Lang o.Lang w := by
  obtain ⟨r, h1, h2, h3, h4, h5⟩ := concat_eq hn ho
  have hs := hn.single
  have hs' := ho.single
  have hwf : r.Wf := by
    refine ⟨by omega, h4, fun i c j h => ?_⟩
    rw [h5] at h
    rcases h with h | ⟨i', j', rfl, rfl, h⟩ | h
    · have := hn.target _ _ _ h; omega
    · have := ho.target _ _ _ h; omega
    · omega
  refine ⟨r, h1, hwf, fun w => ?_⟩
  have hcat : Cat n.Lang o.Lang w ↔ ∃ u v, w = u ++ v ∧ Run n.rules 0 u n.accept ∧ Run o.rules 0 v o.accept := by
    simp only [Cat, lang_single hn, lang_single ho]
  rw [lang_single hwf, hcat, h3]
  constructor
  · intro h
    let P : Nat → Lang := fun i w =>
      (i < n.nstates ∧ ∃ u v, w = u ++ v ∧ Run n.rules i u n.accept ∧ Run o.rules 0 v o.accept) ∨
      (∃ i', i = i' + n.nstates ∧ i' < o.nstates ∧ Run o.rules i' w o.accept)
    have hP : P 0 w := by
      refine Run.residual P (Or.inr ⟨o.accept, rfl, by omega, .nil⟩) ?_ ?_ h
      · intro i c j w e he hp
        rw [h5] at e
        rcases e with e | ⟨i', j', rfl, rfl, e⟩ | ⟨rfl, rfl, rfl⟩
        · have ht := hn.target _ _ _ e
          rcases hp with ⟨_, u, v, rfl, hu, hv⟩ | ⟨k, hk, _⟩
          · exact Or.inl ⟨ht.1, u, v, rfl, .eps e he hu, hv⟩
          · omega
        · have ht := ho.target _ _ _ e
          rcases hp with ⟨hlt, _⟩ | ⟨k, hk, _, hp⟩
          · omega
          · have : k = j' := by omega
            subst this
            exact Or.inr ⟨i', rfl, ht.1, .eps e he hp⟩
        · rcases hp with ⟨hlt, _⟩ | ⟨k, hk, _, hp⟩
          · omega
          · have : k = 0 := by omega
            subst this
            exact Or.inl ⟨by omega, [], w, rfl, .nil, hp⟩
      · intro i c j x w e he ha hp
        rw [h5] at e
        rcases e with e | ⟨i', j', rfl, rfl, e⟩ | ⟨rfl, rfl, rfl⟩
        · have ht := hn.target _ _ _ e
          rcases hp with ⟨_, u, v, rfl, hu, hv⟩ | ⟨k, hk, _⟩
          · exact Or.inl ⟨ht.1, x :: u, v, rfl, .chr e he ha hu, hv⟩
          · omega
        · have ht := ho.target _ _ _ e
          rcases hp with ⟨hlt, _⟩ | ⟨k, hk, _, hp⟩
          · omega
          · have : k = j' := by omega
            subst this
            exact Or.inr ⟨i', rfl, ht.1, .chr e he ha hp⟩
        · rw [isEps_eps'] at he; cases he
    rcases hP with ⟨_, h⟩ | ⟨i', hi, _⟩
    · exact h
    · omega
  · rintro ⟨u, v, rfl, hu, hv⟩
    have m1 := Run.mono (k := 0) (rs' := r.rules) (fun i c j e => (h5 _ _ _).mpr (Or.inl e)) hu
    have m2 := Run.mono (k := n.nstates) (rs' := r.rules)
      (fun i c j e => (h5 _ _ _).mpr (Or.inr (Or.inl ⟨i, j, rfl, rfl, e⟩))) hv
    rw [Nat.zero_add] at m2
    exact (Run.epsStep m1 ((h5 _ _ _).mpr (Or.inr (Or.inr ⟨rfl, rfl, rfl⟩))) isEps_eps').trans m2

/-! ### Star -/

theorem star_eq {n : NFA C} (hn : n.Wf) :
    ∃ r, n.star = some r ∧ r.nstates = n.nstates + 1 ∧ r.accept = n.nstates ∧ r.nstates ≤ r.rules.length ∧
      ∀ i c j, HasEdge r.rules i c j ↔ HasEdge n.rules i c j ∨
        (i = n.accept ∧ c = CharSetLike.eps ∧ j = 0) ∨ (i = 0 ∧ c = CharSetLike.eps ∧ j = n.nstates) := by
  have h1 := hn.single
  have h2 := hn.size
  obtain ⟨r1, p1, l1, e1⟩ := pushAt_eq (rs := n.rules) (i := n.accept) (by omega) (CharSetLike.eps, 0)
  obtain ⟨r2, p2, l2, e2⟩ := pushAt_eq (rs := r1) (i := 0) (by omega) (CharSetLike.eps, n.nstates)
  refine ⟨⟨n.nstates + 1, resize r2 (n.nstates + 1), n.nstates⟩, by simp [NFA.star, p1, p2], rfl, rfl,
    by simp [resize_length], fun i c j => ?_⟩
  simp only
  rw [hasEdge_resize, e2, e1]
  simp only [Prod.mk.injEq, or_assoc]
  constructor
  · exact fun h => h.2
  · rintro (h | h | h)
    · have := (hn.target _ _ _ h).1; exact ⟨by omega, Or.inl h⟩
    · exact ⟨by omega, Or.inr (Or.inl h)⟩
    · exact ⟨by omega, Or.inr (Or.inr h)⟩

theorem Star.append {L : Lang} {u v : List Nat} (h : Star L u) (h' : Star L v) : Star L (u ++ v) := by
  induction h with
  | nil => exact h'
  | app hu _ ih => rw [List.append_assoc]; exact .app hu ih

theorem Star.one {L : Lang} {u : List Nat} (h : L u) : Star L u := by
  have := Star.app h Star.nil
  simpa using this

/-- What `operator*` really computes: iterations of words of the automaton or of loops at its start. -/
theorem star_spec {n : NFA C} (hn : n.Wf) :
    ∃ r, n.star = some r ∧ r.Wf ∧ ∀ w, r.Lang w ↔ Star (fun u => n.Lang u ∨ n.Loop u) w := by
  obtain ⟨r, h1, h2, h3, h4, h5⟩ := star_eq hn
  have hs := hn.single
  have hwf : r.Wf := by
    refine ⟨by omega, h4, fun i c j h => ?_⟩
    rw [h5] at h
    rcases h with h | h | h
    · have := hn.target _ _ _ h; omega
    · omega
    · omega
  refine ⟨r, h1, hwf, fun w => ?_⟩
  rw [lang_single hwf, h3]
  have hL : ∀ u, n.Lang u ↔ Run n.rules 0 u n.accept := lang_single hn
  constructor
  · intro h
    let P : Nat → Lang := fun i w =>
      (i < n.nstates ∧ ∃ u v, w = u ++ v ∧ (Run n.rules i u n.accept ∨ Run n.rules i u 0) ∧
        Star (fun u => n.Lang u ∨ n.Loop u) v) ∨ (i = n.nstates ∧ w = [])
    have hP : P 0 w := by
      refine Run.residual P (Or.inr ⟨rfl, rfl⟩) ?_ ?_ h
      · intro i c j w e he hp
        rw [h5] at e
        rcases e with e | ⟨rfl, rfl, rfl⟩ | ⟨rfl, rfl, rfl⟩
        · have ht := hn.target _ _ _ e
          rcases hp with ⟨_, u, v, rfl, hu, hv⟩ | ⟨hk, _⟩
          · refine Or.inl ⟨ht.1, u, v, rfl, ?_, hv⟩
            rcases hu with hu | hu
            · exact Or.inl (.eps e he hu)
            · exact Or.inr (.eps e he hu)
          · omega
        · rcases hp with ⟨_, u, v, rfl, hu, hv⟩ | ⟨hk, _⟩
          · refine Or.inl ⟨by omega, [], u ++ v, rfl, Or.inl .nil, .app ?_ hv⟩
            rcases hu with hu | hu
            · exact Or.inl ((hL u).mpr hu)
            · exact Or.inr hu
          · omega
        · rcases hp with ⟨hlt, _⟩ | ⟨_, rfl⟩
          · omega
          · exact Or.inl ⟨by omega, [], [], rfl, Or.inr .nil, .nil⟩
      · intro i c j x w e he ha hp
        rw [h5] at e
        rcases e with e | ⟨rfl, rfl, rfl⟩ | ⟨rfl, rfl, rfl⟩
        · have ht := hn.target _ _ _ e
          rcases hp with ⟨_, u, v, rfl, hu, hv⟩ | ⟨hk, _⟩
          · refine Or.inl ⟨ht.1, x :: u, v, rfl, ?_, hv⟩
            rcases hu with hu | hu
            · exact Or.inl (.chr e he ha hu)
            · exact Or.inr (.chr e he ha hu)
          · omega
        · rw [isEps_eps'] at he; cases he
        · rw [isEps_eps'] at he; cases he
    rcases hP with ⟨_, u, v, rfl, hu, hv⟩ | ⟨hi, _⟩
    · refine .app ?_ hv
      rcases hu with hu | hu
      · exact Or.inl ((hL u).mpr hu)
      · exact Or.inr hu
    · omega
  · intro h
    have loop : Run r.rules 0 w 0 := by
      induction h with
      | nil => exact .nil
      | app hu _ ih =>
        refine Run.trans ?_ ih
        rcases hu with hu | hu
        · have m := Run.mono (k := 0) (rs' := r.rules) (fun i c j e => (h5 _ _ _).mpr (Or.inl e)) ((hL _).mp hu)
          exact Run.epsStep m ((h5 _ _ _).mpr (Or.inr (Or.inl ⟨rfl, rfl, rfl⟩))) isEps_eps'
        · exact Run.mono (k := 0) (rs' := r.rules) (fun i c j e => (h5 _ _ _).mpr (Or.inl e)) hu
    exact loop.epsStep ((h5 _ _ _).mpr (Or.inr (Or.inr ⟨rfl, rfl, rfl⟩))) isEps_eps'

end Verif.Auto
