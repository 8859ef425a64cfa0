import Verif.Auto.NfaLemmas

set_option linter.unusedSectionVars false

/-! # The list constructor -/

namespace Verif.Auto

variable {C : Type} [CharSetLike C]

/-- Number of states before the `k`-th automaton. -/
def off (ns : List (NFA C)) (k : Nat) : Nat := ((ns.take k).map (·.nstates)).sum

theorem off_succ (n : NFA C) (ns : List (NFA C)) (k : Nat) : off (n :: ns) (k + 1) = n.nstates + off ns k := by
  simp [off]

theorem off_zero (ns : List (NFA C)) : off ns 0 = 0 := by simp [off]

theorem off_len (ns : List (NFA C)) : off ns ns.length = (ns.map (·.nstates)).sum := by simp [off]

theorem off_step : ∀ (ns : List (NFA C)) (k : Nat) (n : NFA C), ns[k]? = some n → off ns (k + 1) = off ns k + n.nstates := by
  intro ns
  induction ns with
  | nil => intro k n h; simp at h
  | cons m ns ih =>
    intro k n h
    cases k with
    | zero => simp at h; subst h; rw [off_succ, off_zero, off_zero]; omega
    | succ k => rw [off_succ, off_succ, ih k n (by simpa using h)]; omega

theorem off_mono (ns : List (NFA C)) : ∀ {k k' : Nat}, k ≤ k' → off ns k ≤ off ns k' := by
  induction ns with
  | nil => intro k k' _; simp [off]
  | cons m ns ih =>
    intro k k' h
    cases k with
    | zero => rw [off_zero]; omega
    | succ k =>
      cases k' with
      | zero => omega
      | succ k' => rw [off_succ, off_succ]; have := ih (k := k) (k' := k') (by omega); omega

/-- Two automata of the list do not share states. -/
theorem off_disjoint (ns : List (NFA C)) {k k' i i' : Nat} {n n' : NFA C} (h : ns[k]? = some n) (h' : ns[k']? = some n')
    (hi : i < n.nstates) (hi' : i' < n'.nstates) (e : off ns k + i = off ns k' + i') : k = k' ∧ i = i' := by
  rcases Nat.lt_trichotomy k k' with hlt | rfl | hlt
  · have := off_mono ns (k := k + 1) (k' := k') (by omega)
    rw [off_step ns k n h] at this; omega
  · exact ⟨rfl, by omega⟩
  · have := off_mono ns (k := k' + 1) (k' := k) (by omega)
    rw [off_step ns k' n' h'] at this; omega

theorem off_lt (ns : List (NFA C)) {k i : Nat} {n : NFA C} (h : ns[k]? = some n) (hi : i < n.nstates) :
    off ns k + i < (ns.map (·.nstates)).sum := by
  have hk := (List.getElem?_eq_some_iff.mp h).1
  have := off_mono ns (k := k + 1) (k' := ns.length) (by omega)
  rw [off_step ns k n h, off_len] at this; omega

theorem listLoop_eq : ∀ (ns : List (NFA C)) (start acc : Nat), (∀ n ∈ ns, n.Wf) →
    ∃ rs starts, listLoop ns start acc = some (rs, starts) ∧ rs.length = (ns.map (·.nstates)).sum ∧
      (∀ e, e ∈ starts ↔ ∃ k, k < ns.length ∧ e = (CharSetLike.eps, start + off ns k)) ∧
      ∀ i c j, HasEdge rs i c j ↔ ∃ k n, ns[k]? = some n ∧ ∃ i', i = off ns k + i' ∧ i' < n.nstates ∧
        ((∃ j', j = j' + (start + off ns k) ∧ HasEdge n.rules i' c j') ∨
          (i' = n.accept ∧ c = CharSetLike.eps ∧ j = acc + k)) := by
  intro ns
  induction ns with
  | nil =>
    intro start acc _
    exact ⟨[], [], rfl, rfl, by simp, fun i c j => by simp [hasEdge_nil]⟩
  | cons n ns ih =>
    intro start acc hwf
    have hn := hwf n List.mem_cons_self
    have hs := hn.single
    obtain ⟨os, c1, c2, c3⟩ := copied_eq hn.size start
    obtain ⟨r1, p1, l1, e1⟩ := pushAt_eq (rs := os) (i := n.nstates - 1) (by omega) (CharSetLike.eps, acc)
    obtain ⟨rs, starts, i1, i2, i3, i4⟩ := ih (start + n.nstates) (acc + 1) fun m hm => hwf m (List.mem_cons_of_mem _ hm)
    refine ⟨r1 ++ rs, (CharSetLike.eps, start) :: starts, ?_, ?_, ?_, ?_⟩
    · simp only [listLoop, c1, Option.bind_eq_bind, Option.bind_some]
      rw [if_neg (by omega)]
      simp [p1, i1]
    · simp [l1, c2, i2]
    · intro e
      rw [List.mem_cons, i3]
      constructor
      · rintro (rfl | ⟨k, hk, rfl⟩)
        · exact ⟨0, by simp, by simp [off_zero]⟩
        · exact ⟨k + 1, by simpa using hk, by rw [off_succ]; simp only [Prod.mk.injEq, true_and]; omega⟩
      · rintro ⟨k, hk, rfl⟩
        cases k with
        | zero => left; simp [off_zero]
        | succ k =>
          right
          exact ⟨k, by simpa using hk, by rw [off_succ]; simp only [Prod.mk.injEq, true_and]; omega⟩
    · intro i c j
      rw [hasEdge_append, e1, c3, l1, c2, i4]
      constructor
      · rintro ((⟨hi, j', rfl, h⟩ | ⟨rfl, h⟩) | ⟨hi, k, m, hk, i', hi', hlt, h⟩)
        · exact ⟨0, n, rfl, i, by rw [off_zero]; omega, hi, Or.inl ⟨j', by rw [off_zero]; omega, h⟩⟩
        · simp only [Prod.mk.injEq] at h
          exact ⟨0, n, rfl, n.accept, by rw [off_zero]; omega, by omega, Or.inr ⟨rfl, h.1, by omega⟩⟩
        · refine ⟨k + 1, m, by simpa using hk, i', by clear h; rw [off_succ]; omega, hlt, ?_⟩
          rcases h with ⟨j', rfl, h⟩ | ⟨h1, h2, h3⟩
          · exact Or.inl ⟨j', by rw [off_succ]; omega, h⟩
          · exact Or.inr ⟨h1, h2, by omega⟩
      · rintro ⟨k, m, hk, i', hi', hlt, h⟩
        cases k with
        | zero =>
          simp at hk; subst hk
          rw [off_zero, Nat.zero_add] at hi'
          subst hi'
          left
          rcases h with ⟨j', rfl, h⟩ | ⟨h1, h2, h3⟩
          · rw [off_zero] at *; exact Or.inl ⟨hlt, j', rfl, h⟩
          · exact Or.inr ⟨by omega, by simp only [Prod.mk.injEq]; exact ⟨h2, by omega⟩⟩
        | succ k =>
          right
          rw [off_succ] at hi'
          refine ⟨by omega, k, m, by simpa using hk, i', by omega, hlt, ?_⟩
          rcases h with ⟨j', rfl, h⟩ | ⟨h1, h2, h3⟩
          · exact Or.inl ⟨j', by rw [off_succ]; omega, h⟩
          · exact Or.inr ⟨h1, h2, by omega⟩

/-- Well-formed automata with several accepting states. -/
structure NFA.WfM (n : NFA C) : Prop where
  accept : n.accept ≤ n.nstates
  start : 0 < n.nstates
  size : n.nstates ≤ n.rules.length
  target : ∀ i c j, HasEdge n.rules i c j → i < n.nstates ∧ j < n.nstates

theorem NFA.Wf.toM {n : NFA C} (h : n.Wf) : n.WfM :=
  ⟨by have := h.single; omega, by have := h.single; omega, h.size, h.target⟩

theorem ofList_spec (l : List (NFA C)) (h : ∀ n ∈ l, n.Wf) (hne : l ≠ []) :
    ∃ r, NFA.ofList l = some r ∧ r.WfM ∧ r.nstates = r.accept + l.length ∧
      ∀ k w, r.LangAt k w ↔ ∃ n, l[k]? = some n ∧ n.Lang w := by
  obtain ⟨rs, starts, h1, h2, h3, h4⟩ := listLoop_eq l 1 (1 + (l.map (·.nstates)).sum) h
  have he : l.isEmpty = false := by cases l <;> simp_all
  refine ⟨⟨1 + (l.map (·.nstates)).sum + l.length, starts :: rs ++ List.replicate l.length [], 1 + (l.map (·.nstates)).sum⟩,
    by simp [NFA.ofList, he, h1], ?_, rfl, ?_⟩
  all_goals
    have h5 : ∀ i c j, HasEdge (starts :: rs ++ List.replicate l.length []) i c j ↔
        (i = 0 ∧ c = CharSetLike.eps ∧ ∃ k, k < l.length ∧ j = 1 + off l k) ∨
        ∃ k n, l[k]? = some n ∧ ∃ i', i = off l k + i' + 1 ∧ i' < n.nstates ∧
        ((∃ j', j = j' + (1 + off l k) ∧ HasEdge n.rules i' c j') ∨
          (i' = n.accept ∧ c = CharSetLike.eps ∧ j = 1 + (l.map (·.nstates)).sum + k)) := by
      intro i c j
      rw [hasEdge_append, hasEdge_cons]
      simp only [hasEdge_replicate, and_false, or_false, h3, h4, Prod.mk.injEq]
      constructor
      · rintro (⟨h, k, hk, rfl, rfl⟩ | ⟨i1, rfl, k, n, hk, i', rfl, hlt, h⟩)
        · exact Or.inl ⟨h, rfl, k, hk, rfl⟩
        · exact Or.inr ⟨k, n, hk, i', rfl, hlt, h⟩
      · rintro (⟨h, rfl, k, hk, rfl⟩ | ⟨k, n, hk, i', rfl, hlt, h⟩)
        · exact Or.inl ⟨h, k, hk, rfl, rfl⟩
        · exact Or.inr ⟨_, rfl, k, n, hk, i', rfl, hlt, h⟩
  · refine ⟨by simp, by simp only; omega, by simp [h2]; omega, fun i c j h' => ?_⟩
    simp only at h' ⊢
    rw [h5] at h'
    rcases h' with ⟨rfl, _, k, hk, rfl⟩ | ⟨k, n, hk, i', rfl, hlt, h'⟩
    · have hg : l[k]? = some l[k] := List.getElem?_eq_getElem hk
      have hw := (h _ (List.mem_of_getElem? hg)).single
      have := off_lt l hg (i := 0) (by omega)
      omega
    · have hlt' := off_lt l hk hlt
      have hkl := (List.getElem?_eq_some_iff.mp hk).1
      rcases h' with ⟨j', rfl, e⟩ | ⟨rfl, _, rfl⟩
      · have := off_lt l hk ((h n (List.mem_of_getElem? hk)).target _ _ _ e).2
        omega
      · omega
  · intro k w
    simp only [NFA.LangAt]
    constructor
    · rintro ⟨hk, hr⟩
      have hk' : k < l.length := by omega
      have hg : l[k]? = some l[k] := List.getElem?_eq_getElem hk'
      refine ⟨l[k], hg, ?_⟩
      have hw := h _ (List.mem_of_getElem? hg)
      rw [lang_single hw]
      generalize l[k] = m at *
      let P : Nat → Lang := fun i w =>
        (i = 0 ∧ Run m.rules 0 w m.accept) ∨
        (∃ i', i = off l k + i' + 1 ∧ i' < m.nstates ∧ Run m.rules i' w m.accept) ∨
        (i = 1 + (l.map (·.nstates)).sum + k ∧ w = [])
      have hP : P 0 w := by
        refine Run.residual P (Or.inr (Or.inr ⟨rfl, rfl⟩)) ?_ ?_ hr
        · intro i c j w e he hp
          rw [h5] at e
          rcases e with ⟨rfl, rfl, k', hk2, rfl⟩ | ⟨k', m', hk2, i', rfl, hlt, e⟩
          · have hg' : l[k']? = some l[k'] := List.getElem?_eq_getElem hk2
            have hs' := (h _ (List.mem_of_getElem? hg')).single
            have hb := off_lt l hg' (i := 0) (by omega)
            rcases hp with ⟨hp, _⟩ | ⟨i2, hi2, hlt2, hp⟩ | ⟨hp, _⟩
            · omega
            · obtain ⟨rfl, rfl⟩ := off_disjoint l hg' hg (i := 0) (i' := i2) (by omega) hlt2 (by omega)
              exact Or.inl ⟨rfl, hp⟩
            · omega
          · have hb := off_lt l hk2 hlt
            have hw' := h m' (List.mem_of_getElem? hk2)
            rcases e with ⟨j', rfl, e⟩ | ⟨rfl, rfl, rfl⟩
            · have ht := hw'.target _ _ _ e
              have hb' := off_lt l hk2 ht.2
              rcases hp with ⟨hp, _⟩ | ⟨i2, hi2, hlt2, hp⟩ | ⟨hp, _⟩
              · omega
              · obtain ⟨rfl, rfl⟩ := off_disjoint l hk2 hg (i := j') (i' := i2) ht.2 hlt2 (by omega)
                rw [hg] at hk2; cases hk2
                exact Or.inr (Or.inl ⟨i', rfl, hlt, .eps e he hp⟩)
              · omega
            · rcases hp with ⟨hp, _⟩ | ⟨i2, hi2, hlt2, hp⟩ | ⟨hp, rfl⟩
              · omega
              · have := off_lt l hg hlt2; omega
              · have : k' = k := by omega
                subst this
                rw [hg] at hk2; cases hk2
                exact Or.inr (Or.inl ⟨m.accept, rfl, hlt, .nil⟩)
        · intro i c j x w e he ha hp
          rw [h5] at e
          rcases e with ⟨rfl, rfl, _⟩ | ⟨k', m', hk2, i', rfl, hlt, e⟩
          · rw [isEps_eps'] at he; cases he
          · have hb := off_lt l hk2 hlt
            have hw' := h m' (List.mem_of_getElem? hk2)
            rcases e with ⟨j', rfl, e⟩ | ⟨rfl, rfl, rfl⟩
            · have ht := hw'.target _ _ _ e
              have hb' := off_lt l hk2 ht.2
              rcases hp with ⟨hp, _⟩ | ⟨i2, hi2, hlt2, hp⟩ | ⟨hp, _⟩
              · omega
              · obtain ⟨rfl, rfl⟩ := off_disjoint l hk2 hg (i := j') (i' := i2) ht.2 hlt2 (by omega)
                rw [hg] at hk2; cases hk2
                exact Or.inr (Or.inl ⟨i', rfl, hlt, .chr e he ha hp⟩)
              · omega
            · rw [isEps_eps'] at he; cases he
      rcases hP with ⟨_, hP⟩ | ⟨i', hi, _⟩ | ⟨hi, _⟩
      · exact hP
      · omega
      · omega
    · rintro ⟨m, hg, hm⟩
      have hw := h m (List.mem_of_getElem? hg)
      have hk := (List.getElem?_eq_some_iff.mp hg).1
      rw [lang_single hw] at hm
      refine ⟨by omega, ?_⟩
      have hmono := Run.mono (k := 1 + off l k) (rs' := starts :: rs ++ List.replicate l.length [])
        (fun i c j e => (h5 _ _ _).mpr (Or.inr ⟨k, m, hg, i, by omega, (hw.target _ _ _ e).1, Or.inl ⟨j, rfl, e⟩⟩)) hm
      rw [Nat.zero_add] at hmono
      refine .eps ((h5 _ _ _).mpr (Or.inl ⟨rfl, rfl, k, hk, rfl⟩)) isEps_eps' ?_
      refine hmono.epsStep ((h5 _ _ _).mpr (Or.inr ⟨k, m, hg, m.accept, by omega, ?_, Or.inr ⟨rfl, rfl, rfl⟩⟩)) isEps_eps'
      have := hw.single; omega

end Verif.Auto
