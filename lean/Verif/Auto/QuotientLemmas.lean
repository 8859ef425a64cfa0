import Verif.Auto.MinLemmas

set_option linter.unusedSectionVars false

/-! # Lemmas about the merged automaton -/

namespace Verif.Auto

variable {C : Type} [CharSetLike C]

theorem mergeLoop_spec {rs : Rules C} {N n : Nat} {accept groups : List Nat} (hG : Groups N n groups) (hsz : rs.length = N)
    (hacc : accept.length = N) (ht : ∀ i c j, HasEdge rs i c j → j < N) (is : List Nat) :
    ∀ (rules : Rules C) (acc : List Nat), rules.length = n → acc.length = n → (∀ i ∈ is, i < N) →
    (∀ (i j : Nat), i ∈ is → j ∈ is → groups[i]? = groups[j]? → accept[i]? = accept[j]?) →
    ∃ rules' acc', mergeLoop rs accept groups is (rules, acc) = some (rules', acc') ∧ rules'.length = n ∧ acc'.length = n ∧
      (∀ p c q, HasEdge rules' p c q ↔ HasEdge rules p c q ∨
        ∃ i ∈ is, groups[i]? = some p ∧ ∃ j, HasEdge rs i c j ∧ groups[j]? = some q) ∧
      (∀ i ∈ is, ∀ p, groups[i]? = some p → acc'[p]? = accept[i]?) ∧
      (∀ p, (∀ i ∈ is, groups[i]? ≠ some p) → acc'[p]? = acc[p]?) := by
  induction is with
  | nil => intro rules acc h1 h2 _ _; exact ⟨rules, acc, rfl, h1, h2, by simp, by simp, fun _ _ => rfl⟩
  | cons i is ih =>
    intro rules acc h1 h2 his hsame
    have hi := his i List.mem_cons_self
    obtain ⟨g, hg⟩ := hG.get hi
    have hgn := hG.lt i g hg
    have ea : accept[i]? = some (accept[i]'(by omega)) := List.getElem?_eq_getElem (by omega)
    have er : rs[i]? = some (rs[i]'(by omega)) := List.getElem?_eq_getElem (by omega)
    obtain ⟨es', m1, m2, m3⟩ := mapM_some (renameEdge groups) (rs[i]'(by omega)) (by
      rintro ⟨c, j⟩ hm
      obtain ⟨q, hq⟩ := hG.get (ht i c j ⟨_, er, hm⟩)
      exact ⟨(c, q), by simp [renameEdge, hq]⟩)
    have mem : ∀ c q, (c, q) ∈ es' ↔ ∃ j, HasEdge rs i c j ∧ groups[j]? = some q := by
      intro c q
      rw [mapM_mem m3]
      constructor
      · rintro ⟨⟨c', j⟩, hm, he⟩
        simp only [renameEdge, Option.bind_eq_bind, Option.bind_eq_some_iff] at he
        obtain ⟨q', hq', he⟩ := he
        simp at he
        obtain ⟨rfl, rfl⟩ := he
        exact ⟨j, ⟨_, er, hm⟩, hq'⟩
      · rintro ⟨j, ⟨es, hes, hm⟩, hq⟩
        rw [er] at hes; cases hes
        exact ⟨(c, j), hm, by simp [renameEdge, hq]⟩
    obtain ⟨rules', acc', k1, k2, k3, k4, k5, k6⟩ := ih (rules.modify g (· ++ es')) (acc.set g (accept[i]'(by omega)))
      (by simpa using h1) (by simpa using h2) (fun j hj => his j (List.mem_cons_of_mem _ hj))
      (fun a b ha hb => hsame a b (List.mem_cons_of_mem _ ha) (List.mem_cons_of_mem _ hb))
    have hE : ∀ p c q, HasEdge (rules.modify g (· ++ es')) p c q ↔ HasEdge rules p c q ∨ (p = g ∧ (c, q) ∈ es') := by
      intro p c q
      simp only [HasEdge, modify_get]
      by_cases hp : g = p
      · subst hp
        rw [if_pos rfl, List.getElem?_eq_getElem (by omega)]
        simp
      · rw [if_neg hp]
        constructor
        · exact Or.inl
        · rintro (h | ⟨h, _⟩)
          · exact h
          · exact absurd h.symm hp
    refine ⟨rules', acc', ?_, k2, k3, ?_, ?_, ?_⟩
    · simp only [mergeLoop, hg, ea, er, m1, Option.bind_eq_bind, Option.bind_some]
      rw [if_pos ⟨by omega, by omega⟩]; exact k1
    · intro p c q
      rw [k4, hE, mem]
      constructor
      · rintro ((h | ⟨rfl, h⟩) | ⟨a, ha, r⟩)
        · exact Or.inl h
        · exact Or.inr ⟨i, List.mem_cons_self, hg, h⟩
        · exact Or.inr ⟨a, List.mem_cons_of_mem _ ha, r⟩
      · rintro (h | ⟨a, ha, hp, r⟩)
        · exact Or.inl (Or.inl h)
        · rcases List.mem_cons.mp ha with rfl | ha
          · rw [hg] at hp
            exact Or.inl (Or.inr ⟨(Option.some.inj hp).symm, r⟩)
          · exact Or.inr ⟨a, ha, hp, r⟩
    · intro a ha p hp
      by_cases hex : ∃ b ∈ is, groups[b]? = some p
      · obtain ⟨b, hb, hbp⟩ := hex
        rw [k5 b hb p hbp]
        exact hsame b a (List.mem_cons_of_mem _ hb) ha (by rw [hbp, hp])
      · rcases List.mem_cons.mp ha with rfl | ha
        · rw [hg] at hp; cases hp
          rw [k6 g (fun b hb hbp => hex ⟨b, hb, hbp⟩), List.getElem?_set, if_pos rfl, if_pos (by omega), ea]
        · exact absurd ⟨a, ha, hp⟩ hex
    · intro p hp
      have hgp : g ≠ p := fun h => hp i List.mem_cons_self (by rw [hg, h])
      rw [k6 p (fun b hb => hp b (List.mem_cons_of_mem _ hb)), List.getElem?_set, if_neg hgp]

theorem unionRules_spec (es : List (C × Nat)) (m : List C) (h : ∀ c j, (c, j) ∈ es → j < m.length) :
    ∃ m', unionRules es m = some m' ∧ m'.length = m.length ∧
      ∀ (k : Nat) (s s' : C), m[k]? = some s → m'[k]? = some s' → CharSetLike.isEps s' = CharSetLike.isEps s ∧
        ∀ y, CharSetLike.accepts s' y = true ↔ CharSetLike.accepts s y = true ∨ ∃ c, (c, k) ∈ es ∧ CharSetLike.accepts c y = true := by
  induction es generalizing m with
  | nil =>
    refine ⟨m, rfl, rfl, fun k s s' h h' => ?_⟩
    rw [h] at h'; cases h'; simp
  | cons e es ih =>
    obtain ⟨c, j⟩ := e
    have hj := h c j List.mem_cons_self
    obtain ⟨m', h1, h2, h3⟩ := ih (m.modify j fun s => CharSetLike.unite s c) (fun c' j' hm => by simpa using h c' j' (List.mem_cons_of_mem _ hm))
    refine ⟨m', by rw [unionRules, if_pos hj]; exact h1, by simpa using h2, fun k s s' hs hs' => ?_⟩
    by_cases hk : j = k
    · subst hk
      obtain ⟨a, b⟩ := h3 j (CharSetLike.unite s c) s' (by rw [modify_get, if_pos rfl, hs]; rfl) hs'
      refine ⟨by rw [a, CharSetLike.unite_eps], fun y => ?_⟩
      rw [b, CharSetLike.accepts_unite, Bool.or_eq_true]
      constructor
      · rintro ((h | h) | ⟨c', hm, r⟩)
        · exact Or.inl h
        · exact Or.inr ⟨c, List.mem_cons_self, h⟩
        · exact Or.inr ⟨c', List.mem_cons_of_mem _ hm, r⟩
      · rintro (h | ⟨c', hm, r⟩)
        · exact Or.inl (Or.inl h)
        · rcases List.mem_cons.mp hm with heq | hm
          · simp only [Prod.mk.injEq] at heq
            rw [heq.1] at r; exact Or.inl (Or.inr r)
          · exact Or.inr ⟨c', hm, r⟩
    · obtain ⟨a, b⟩ := h3 k s s' (by rw [modify_get, if_neg hk, hs]) hs'
      refine ⟨a, fun y => ?_⟩
      rw [b]
      constructor
      · rintro (h | ⟨c', hm, r⟩)
        · exact Or.inl h
        · exact Or.inr ⟨c', List.mem_cons_of_mem _ hm, r⟩
      · rintro (h | ⟨c', hm, r⟩)
        · exact Or.inl h
        · rcases List.mem_cons.mp hm with heq | hm
          · simp only [Prod.mk.injEq] at heq
            exact absurd heq.2.symm hk
          · exact Or.inr ⟨c', hm, r⟩

theorem compress_spec {N : Nat} (es : List (C × Nat)) (h : ∀ c j, (c, j) ∈ es → j < N) :
    ∃ es', compress N es = some es' ∧
      (∀ s j, (s, j) ∈ es' → j < N ∧ CharSetLike.isEps s = false ∧ CharSetLike.empty s = false ∧
        ∀ y, CharSetLike.accepts s y = true ↔ ∃ c, (c, j) ∈ es ∧ CharSetLike.accepts c y = true) ∧
      (∀ c j y, (c, j) ∈ es → CharSetLike.accepts c y = true → ∃ s, (s, j) ∈ es') ∧
      es'.Pairwise (fun a b => a.2 ≠ b.2) := by
  obtain ⟨m, h1, h2, h3⟩ := unionRules_spec es (List.replicate N CharSetLike.emptySet) (by simpa using h)
  simp only [List.length_replicate] at h2
  refine ⟨(m.zip (List.range N)).filter fun e => !CharSetLike.empty e.1, by simp [compress, h1], ?_, ?_, ?_⟩
  · have mem : ∀ s j, (s, j) ∈ m.zip (List.range N) → j < N ∧ m[j]? = some s := by
      intro s j hm
      obtain ⟨i, hi⟩ := List.mem_iff_getElem?.mp hm
      rw [List.getElem?_zip_eq_some] at hi
      obtain ⟨hi1, hi2⟩ := hi
      have hlt := (List.getElem?_eq_some_iff.mp hi1).1
      rw [List.getElem?_range (by omega)] at hi2
      have : i = j := Option.some.inj hi2
      subst this
      exact ⟨by omega, hi1⟩
    intro s j hm
    simp only [List.mem_filter, Bool.not_eq_true'] at hm
    obtain ⟨hj, hs⟩ := mem s j hm.1
    obtain ⟨a, b⟩ := h3 j _ s (by rw [List.getElem?_replicate, if_pos hj]) hs
    refine ⟨hj, by rw [a, CharSetLike.emptySet_eps], hm.2, fun y => ?_⟩
    rw [b, CharSetLike.accepts_emptySet]; simp
  · intro c j y hm hy
    have hj := h c j hm
    have hs : m[j]? = some (m[j]'(by omega)) := List.getElem?_eq_getElem (by omega)
    refine ⟨m[j]'(by omega), ?_⟩
    simp only [List.mem_filter, Bool.not_eq_true']
    obtain ⟨_, b⟩ := h3 j _ _ (by rw [List.getElem?_replicate, if_pos hj]) hs
    refine ⟨List.mem_iff_getElem?.mpr ⟨j, ?_⟩, not_empty_of_accepts ((b y).mpr (Or.inr ⟨c, hm, hy⟩))⟩
    rw [List.getElem?_zip_eq_some]
    exact ⟨hs, List.getElem?_range hj⟩
  · refine List.Pairwise.filter _ ?_
    have : ((m.zip (List.range N)).map Prod.snd).Pairwise (· ≠ ·) := by
      rw [List.map_snd_zip (by simp; omega)]
      exact List.nodup_range
    exact List.pairwise_map.mp this

/-- The automaton merged along stable groups. -/
structure QuotSpec (d q : DFA C) (groups : List Nat) : Prop where
  wf : q.Wf
  acts : q.numActions = d.numActions
  noEmpty : NoEmpty q.rules
  one : OnePer q.rules
  step : ∀ (p g G y : Nat), p < d.nstates → groups[p]? = some g →
    ((∃ c, HasEdge q.rules g c G ∧ CharSetLike.accepts c y = true) ↔ Into d.rules groups p G y)
  accept : ∀ (p g : Nat), p < d.nstates → groups[p]? = some g → q.accept[g]? = d.accept[p]?

theorem quotient_spec {d : DFA C} (hd : d.Wf) (h0 : 0 < d.nstates) (hall : ∀ a ≤ d.numActions, a ∈ d.accept) :
    ∃ F q groups, (∀ fuel, F ≤ fuel → d.quotient fuel = some q) ∧ QuotSpec d q groups ∧ Groups d.nstates q.nstates groups ∧
      groups[0]? = some 0 := by
  have hN1 := hd.rules
  have hN2 := hd.accept
  have ha0 : d.accept[0]? = some (d.accept[0]'(by omega)) := List.getElem?_eq_getElem (by omega)
  obtain ⟨gr, i1, i2, i3, i4⟩ := init_parts hN2 hd.action ha0
  obtain ⟨groups, n, l1, l2⟩ := minLoop_spec hd.rules hd.target (d.nstates + 1) gr (List.replicate d.nstates 0) i2 (i4 hall) (by simp) (by omega)
  have hmono : ∀ fuel gr gs r, minLoop d.rules d.nstates fuel gr gs = some r → ∀ fuel', fuel ≤ fuel' →
      minLoop d.rules d.nstates fuel' gr gs = some r := by
    intro fuel
    induction fuel with
    | zero => intro gr gs r h; simp [minLoop] at h
    | succ fuel ih =>
      intro gr gs r h fuel' hf
      obtain ⟨f', rfl⟩ : ∃ f', fuel' = f' + 1 := ⟨fuel' - 1, by omega⟩
      simp only [minLoop, Option.bind_eq_bind, Option.bind_eq_some_iff] at h ⊢
      obtain ⟨g1, a1, gr', a2, a3⟩ := h
      refine ⟨g1, a1, gr', a2, ?_⟩
      split at a3
      · rw [if_pos (by assumption)]; exact a3
      · rw [if_neg (by assumption)]; exact ih _ _ _ a3 f' (by omega)
  obtain ⟨rules, acc, m1, m2, m3, m4, m5, m6⟩ := mergeLoop_spec l2.ok hd.rules hd.accept hd.target (List.range d.nstates)
    (List.replicate n []) (List.replicate n 0) (by simp) (by simp) (fun i hi => by simpa using hi)
    (fun i j hi hj => l2.action i j (by simpa using hi) (by simpa using hj))
  simp only [hasEdge_replicate, false_or, List.mem_range] at m4
  have htgt : ∀ p c q, HasEdge rules p c q → q < n := by
    intro p c q h
    obtain ⟨i, _, _, j, _, hq⟩ := (m4 p c q).mp h
    exact l2.ok.lt j q hq
  obtain ⟨rules', c1, c2, c3⟩ := mapM_some (compress n) rules (by
    intro es hes
    obtain ⟨p, hp⟩ := List.mem_iff_getElem?.mp hes
    obtain ⟨es', h, _⟩ := compress_spec (N := n) es (fun c j hm => htgt p c j ⟨es, hp, hm⟩)
    exact ⟨es', h⟩)
  have comp : ∀ (p : Nat) (es' : List (C × Nat)), rules'[p]? = some es' → ∃ es, rules[p]? = some es ∧
      (∀ s j, (s, j) ∈ es' → j < n ∧ CharSetLike.isEps s = false ∧ CharSetLike.empty s = false ∧
        ∀ y, CharSetLike.accepts s y = true ↔ ∃ c, (c, j) ∈ es ∧ CharSetLike.accepts c y = true) ∧
      (∀ c j y, (c, j) ∈ es → CharSetLike.accepts c y = true → ∃ s, (s, j) ∈ es') ∧
      es'.Pairwise (fun a b => a.2 ≠ b.2) := by
    intro p es' h
    obtain ⟨es, hes, hc⟩ := (c3 p es').mp h
    obtain ⟨es2, h1, h2⟩ := compress_spec (N := n) es (fun c j hm => htgt p c j ⟨es, hes, hm⟩)
    rw [hc] at h1; cases h1
    exact ⟨es, hes, h2⟩
  have edge : ∀ g G y, (∃ c, HasEdge rules' g c G ∧ CharSetLike.accepts c y = true) ↔
      ∃ p, p < d.nstates ∧ groups[p]? = some g ∧ Into d.rules groups p G y := by
    intro g G y
    constructor
    · rintro ⟨c, ⟨es', hes', hm⟩, hy⟩
      obtain ⟨es, hes, k1, _, _⟩ := comp g es' hes'
      obtain ⟨c', hm', hy'⟩ := ((k1 c G hm).2.2.2 y).mp hy
      obtain ⟨i, hi, hg, j, hE, hG⟩ := (m4 g c' G).mp ⟨es, hes, hm'⟩
      exact ⟨i, hi, hg, c', j, hE, hG, hy'⟩
    · rintro ⟨p, hp, hg, c, j, hE, hG, hy⟩
      obtain ⟨es, hes, hm⟩ := (m4 g c G).mpr ⟨p, hp, hg, j, hE, hG⟩
      have hlt := (List.getElem?_eq_some_iff.mp hes).1
      have hes' : rules'[g]? = some (rules'[g]'(by omega)) := List.getElem?_eq_getElem (by omega)
      obtain ⟨es2, hes2, k1, k2, _⟩ := comp g _ hes'
      rw [hes] at hes2; cases hes2
      obtain ⟨s, hs⟩ := k2 c G y hm hy
      exact ⟨s, ⟨_, hes', hs⟩, ((k1 s G hs).2.2.2 y).mpr ⟨c, hm, hy⟩⟩
  have step : ∀ (p g G y : Nat), p < d.nstates → groups[p]? = some g →
      ((∃ c, HasEdge rules' g c G ∧ CharSetLike.accepts c y = true) ↔ Into d.rules groups p G y) := by
    intro p g G y hp hg
    rw [edge]
    constructor
    · rintro ⟨p', hp', hg', hI⟩
      exact ((l2.alike p' p hp' hp (by rw [hg, hg'])).2 G y).mp hI
    · intro hI; exact ⟨p, hp, hg, hI⟩
  refine ⟨d.nstates + 1, ⟨n, rules', d.numActions, acc⟩, groups, fun fuel hf => ?_, ⟨?_, rfl, ?_, ?_, step, ?_⟩, l2.ok, l2.zero h0⟩
  · simp only [DFA.quotient, if_neg (show ¬ d.nstates = 0 by omega), ha0, i1, hmono _ _ _ _ l1 fuel hf, m1, c1, Option.bind_eq_bind,
      Option.bind_some]
    rfl
  · refine ⟨by show rules'.length = n; omega, m3, ?_, ?_, ?_, ?_⟩
    · rintro i c j ⟨es', hes', hm⟩
      obtain ⟨es, hes, k1, _, _⟩ := comp i es' hes'
      exact (k1 c j hm).1
    · rintro i c j ⟨es', hes', hm⟩
      obtain ⟨es, hes, k1, _, _⟩ := comp i es' hes'
      exact (k1 c j hm).2.1
    · intro i c j c' j' y hE hE' hy hy'
      obtain ⟨p, hp, hg, hI⟩ := (edge i j y).mp ⟨c, hE, hy⟩
      have hI' := (step p i j' y hp hg).mp ⟨c', hE', hy'⟩
      obtain ⟨a, b, e1, e2, e3⟩ := hI
      obtain ⟨a', b', e1', e2', e3'⟩ := hI'
      have := hd.det _ _ _ _ _ _ e1 e1' e3 e3'
      subst this
      rw [e2] at e2'; exact Option.some.inj e2'
    · intro a ha
      obtain ⟨p, hp⟩ := List.mem_iff_getElem?.mp ha
      simp only at hp ⊢
      by_cases hex : ∃ i < d.nstates, groups[i]? = some p
      · obtain ⟨i, hi, hg⟩ := hex
        rw [m5 i (by simpa using hi) p hg] at hp
        exact hd.action a (List.mem_of_getElem? hp)
      · rw [m6 p (fun i hi hg => hex ⟨i, by simpa using hi, hg⟩), List.getElem?_replicate] at hp
        split at hp
        · cases hp; omega
        · cases hp
  · rintro i c j ⟨es', hes', hm⟩ _
    obtain ⟨es, hes, k1, _, _⟩ := comp i es' hes'
    exact (k1 c j hm).2.2.1
  · intro es' hes'
    obtain ⟨p, hp⟩ := List.mem_iff_getElem?.mp hes'
    obtain ⟨es, hes, _, _, k⟩ := comp p es' hp
    exact k
  · intro p g hp hg
    exact m5 p (by simpa using hp) g hg

theorem QuotSpec.run {d q : DFA C} {groups : List Nat} (hd : d.Wf) (hG : Groups d.nstates q.nstates groups) (h : QuotSpec d q groups) (w : List Nat) :
    ∀ (p g Q : Nat), p < d.nstates → groups[p]? = some g → (Run q.rules g w Q ↔ ∃ k, Run d.rules p w k ∧ groups[k]? = some Q) := by
  induction w with
  | nil =>
    intro p g Q hp hg
    rw [run_nil_iff h.wf.noEps]
    constructor
    · rintro rfl; exact ⟨p, .nil, hg⟩
    · rintro ⟨k, hr, hk⟩
      rw [run_nil_iff hd.noEps] at hr
      subst hr
      rw [hg] at hk; exact Option.some.inj hk
  | cons y w ih =>
    intro p g Q hp hg
    rw [run_cons_iff h.wf.noEps]
    constructor
    · rintro ⟨c, G, hE, hy, hr⟩
      obtain ⟨c', j, e1, e2, e3⟩ := (h.step p g G y hp hg).mp ⟨c, hE, hy⟩
      obtain ⟨k, hk, hQ⟩ := (ih j G Q (hd.target _ _ _ e1) e2).mp hr
      exact ⟨k, .chr e1 (hd.noEps _ _ _ e1) e3 hk, hQ⟩
    · rintro ⟨k, hr, hQ⟩
      rw [run_cons_iff hd.noEps] at hr
      obtain ⟨c, j, e1, e3, hr⟩ := hr
      have hj := hd.target _ _ _ e1
      obtain ⟨G, hGj⟩ := hG.get hj
      obtain ⟨c', hE, hy⟩ := (h.step p g G y hp hg).mpr ⟨c, j, e1, hGj, e3⟩
      exact ⟨c', G, hE, hy, (ih j G Q hj hGj).mpr ⟨k, hr, hQ⟩⟩

theorem QuotSpec.ends {d q : DFA C} {groups : List Nat} (hd : d.Wf) (h0 : 0 < d.nstates) (hG : Groups d.nstates q.nstates groups)
    (hz : groups[0]? = some 0) (h : QuotSpec d q groups) (w : List Nat) (a : Nat) : q.Ends w a ↔ d.Ends w a := by
  constructor
  · rintro ⟨Q, hr, ha⟩
    obtain ⟨k, hk, hQ⟩ := (h.run hd hG w 0 0 Q h0 hz).mp hr
    exact ⟨k, hk, by rw [← h.accept k Q (hd.run_lt hk h0) hQ, ha]⟩
  · rintro ⟨k, hk, ha⟩
    have hlt := hd.run_lt hk h0
    obtain ⟨Q, hQ⟩ := hG.get hlt
    exact ⟨Q, (h.run hd hG w 0 0 Q h0 hz).mpr ⟨k, hk, hQ⟩, by rw [h.accept k Q hlt hQ, ha]⟩

theorem Run.split {rs : Rules C} {i k : Nat} {u v : List Nat} (h : Run rs i (u ++ v) k) : ∃ p, Run rs i u p ∧ Run rs p v k := by
  generalize hw : u ++ v = w at h
  induction h generalizing u with
  | nil =>
    have := List.append_eq_nil_iff.mp hw
    obtain ⟨rfl, rfl⟩ := this
    exact ⟨_, .nil, .nil⟩
  | eps e he _ ih =>
    obtain ⟨p, h1, h2⟩ := ih hw
    exact ⟨p, .eps e he h1, h2⟩
  | @chr i c j x w k e he ha hr ih =>
    cases u with
    | nil =>
      simp at hw; subst hw
      exact ⟨i, .nil, .chr e he ha hr⟩
    | cons y u =>
      simp at hw
      obtain ⟨rfl, hw⟩ := hw
      obtain ⟨p, h1, h2⟩ := ih hw
      exact ⟨p, .chr e he ha h1, h2⟩

theorem minimize_spec {d : DFA C} (hd : d.Wf) (h0 : 0 < d.nstates)
    (hall : ∀ a ≤ d.numActions, ∃ w v b, d.Ends w a ∧ b ≠ 0 ∧ d.Ends (w ++ v) b) :
    ∃ F d', (∀ fuel, F ≤ fuel → d.minimize fuel = some d') ∧ d'.Wf ∧ d'.numActions = d.numActions ∧ NoEmpty d'.rules ∧
      OnePer d'.rules ∧ ∀ w a, a ≠ 0 → (d'.Ends w a ↔ d.Ends w a) := by
  obtain ⟨d1, u1, u2, u3, u4, u5, u6, _, u8⟩ := eliminateUnarrivable_spec hd h0
  obtain ⟨d2, v1, v2, v3, v4, v5, v6, v7⟩ := eliminateInactive_spec u2
  obtain ⟨v8, v9, v10⟩ := v7 u5
  -- every action is left
  have hall2 : ∀ a ≤ d2.numActions, a ∈ d2.accept := by
    intro a ha
    obtain ⟨w, v, b, h1, h2, h3⟩ := hall a (by omega)
    obtain ⟨q, hq, _⟩ := (v9 (w ++ v) b h2).mpr ((u4 _ _).mpr h3)
    obtain ⟨p, hp, hpq⟩ := hq.split
    have hpos : 0 < d2.nstates := by
      rename_i hqb
      have := (List.getElem?_eq_some_iff.mp hqb).1
      rw [v2.accept] at this; omega
    have hlt := v2.run_lt hp hpos
    have hg : d2.accept[p]? = some (d2.accept[p]'(by rw [v2.accept]; exact hlt)) := List.getElem?_eq_getElem _
    have hE : d.Ends w _ := (u4 _ _).mp (v10 w _ ⟨p, hp, hg⟩)
    rw [hd.ends_det h1 hE]
    exact List.mem_of_getElem? hg
  have hpos : 0 < d2.nstates := by
    have := List.length_pos_of_mem (hall2 0 (by omega))
    rw [v2.accept] at this; exact this
  obtain ⟨F, q, groups, q1, q2, q3, q4⟩ := quotient_spec v2 hpos hall2
  have hqpos : 0 < q.nstates := by have := q3.lt 0 0 q4; omega
  obtain ⟨d3, x1, x2, x3, x4, x5, x6, x7, x8⟩ := eliminateUnarrivable_spec q2.wf hqpos
  obtain ⟨d4, y1, y2, y3, y4, y5, y6, y7⟩ := eliminateInactive_spec x2
  obtain ⟨_, y9, _⟩ := y7 x5
  refine ⟨F, d4, fun fuel hf => ?_, y2, ?_, y5 (x7 q2.noEmpty), eliminateInactive_one x2 y1 (eliminateUnarrivable_one q2.wf hqpos x1 q2.one), fun w a ha => ?_⟩
  · simp only [DFA.minimize, u1, v1, q1 fuel hf, x1, y1, Option.bind_eq_bind, Option.bind_some]
  · rw [y3, x8, q2.acts, v3, u8]
  · rw [y9 w a ha, x4, q2.ends v2 hpos q3 q4, v9 w a ha, u4]

end Verif.Auto
