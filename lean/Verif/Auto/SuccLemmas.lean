import Verif.Auto.DetLemmas

set_option linter.unusedSectionVars false

/-! # Lemmas about the transitions of one set of states -/

namespace Verif.Auto

variable {C : Type} [CharSetLike C]

/-- `mapM` succeeds if every element does. -/
theorem mapM_some {α β : Type} (f : α → Option β) : ∀ (l : List α), (∀ a ∈ l, ∃ b, f a = some b) →
    ∃ l', l.mapM f = some l' ∧ l'.length = l.length ∧ ∀ (k : Nat) (b : β), l'[k]? = some b ↔ ∃ a, l[k]? = some a ∧ f a = some b := by
  intro l
  induction l with
  | nil => intro _; exact ⟨[], rfl, rfl, by simp⟩
  | cons a l ih =>
    intro h
    obtain ⟨b, hb⟩ := h a List.mem_cons_self
    obtain ⟨l', h1, h2, h3⟩ := ih fun a ha => h a (List.mem_cons_of_mem _ ha)
    refine ⟨b :: l', by simp [List.mapM_cons, hb, h1], by simp [h2], fun k c => ?_⟩
    cases k with
    | zero => simp [hb]
    | succ k => simp [h3]

theorem mapM_mem {α β : Type} {f : α → Option β} {l : List α} {l' : List β}
    (h : ∀ (k : Nat) (b : β), l'[k]? = some b ↔ ∃ a, l[k]? = some a ∧ f a = some b) (b : β) : b ∈ l' ↔ ∃ a ∈ l, f a = some b := by
  rw [List.mem_iff_getElem?]
  constructor
  · rintro ⟨k, hk⟩
    obtain ⟨a, ha, hf⟩ := (h k b).mp hk
    exact ⟨a, List.mem_of_getElem? ha, hf⟩
  · rintro ⟨a, ha, hf⟩
    obtain ⟨k, hk⟩ := List.mem_iff_getElem?.mp ha
    exact ⟨k, (h k b).mpr ⟨a, hk, hf⟩⟩

/-- No label of a transition is an empty set. -/
def NoEmpty (rs : Rules C) : Prop := ∀ i c j, HasEdge rs i c j → CharSetLike.isEps c = false → CharSetLike.empty c = false

theorem initPairs_spec {n : NFA C} (hn : n.WfM) {s : Bits} (hl : s.length = n.nstates) :
    ∃ pr, initPairs n s = some pr ∧
      (∀ e, e ∈ pr → CharSetLike.isEps e.1 = false →
        ∃ i j, B s i ∧ HasEdge n.rules i e.1 j ∧ e.2.length = n.nstates ∧ ∀ k, B e.2 k ↔ k = j) ∧
      (∀ i c j, B s i → HasEdge n.rules i c j → ∃ e ∈ pr, e.1 = c ∧ B e.2 j) := by
  have hsz := hn.size
  have inner : ∀ (i : Nat) (es : List (C × Nat)), n.rules[i]? = some es → ∃ ps, edgePairs n.nstates es = some ps ∧
      ∀ e, e ∈ ps ↔ ∃ c j, (c, j) ∈ es ∧ e.1 = c ∧ single n.nstates j = some e.2 := by
    intro i es hes
    obtain ⟨ps, h1, -, h3⟩ := mapM_some (fun e : C × Nat => do return (e.1, ← single n.nstates e.2)) es (by
      rintro ⟨c, j⟩ hm
      obtain ⟨v, hv, -⟩ := single_spec (hn.target i c j ⟨es, hes, hm⟩).2
      exact ⟨(c, v), by simp [hv]⟩)
    refine ⟨ps, h1, fun e => ?_⟩
    rw [mapM_mem h3]
    constructor
    · rintro ⟨⟨c, j⟩, hm, hf⟩
      obtain ⟨v, hv, -⟩ := single_spec (hn.target i c j ⟨es, hes, hm⟩).2
      simp [hv] at hf
      exact ⟨c, j, hm, by rw [← hf], by rw [hv, ← hf]⟩
    · rintro ⟨c, j, hm, rfl, hv⟩
      exact ⟨(e.1, j), hm, by simp [hv]⟩
  obtain ⟨ps, h1, -, h3⟩ := mapM_some (statePairs n s) (List.range n.nstates) (by
    intro i hi
    simp only [List.mem_range] at hi
    have hr : n.rules[i]? = some n.rules[i] := List.getElem?_eq_getElem (by omega)
    obtain ⟨q, hq, -⟩ := inner i _ hr
    have hsi : s[i]? = some s[i] := List.getElem?_eq_getElem (by omega)
    simp only [statePairs, hsi, hr]
    cases s[i] with
    | false => exact ⟨[], rfl⟩
    | true => exact ⟨q, hq⟩)
  refine ⟨List.replicate n.nstates (CharSetLike.eps, []) ++ ps.flatten, by simp [initPairs, h1], ?_, ?_⟩
  · intro e he hc
    rw [List.mem_append] at he
    rcases he with he | he
    · rw [List.mem_replicate] at he
      rw [he.2] at hc; simp [isEps_eps'] at hc
    · rw [List.mem_flatten] at he
      obtain ⟨q, hq, he⟩ := he
      obtain ⟨i, hi, hf⟩ := (mapM_mem h3 q).mp hq
      unfold statePairs at hf
      split at hf
      · cases hf
      · cases hf; simp at he
      · rename_i hb
        split at hf
        · cases hf
        · rename_i es hes
          obtain ⟨q', hq', hm⟩ := inner i es hes
          rw [hf] at hq'; cases hq'
          obtain ⟨c, j, hcj, hc1, hs⟩ := (hm e).mp he
          have hed : HasEdge n.rules i c j := ⟨es, hes, hcj⟩
          obtain ⟨v, hv, hvl, hvB⟩ := single_spec (hn.target i c j hed).2
          rw [hs] at hv; cases hv
          exact ⟨i, j, hb, by rw [hc1]; exact hed, hvl, hvB⟩
  · intro i c j hb hed
    have hlt := (hn.target i c j hed)
    obtain ⟨es, hes, hcj⟩ := hed
    obtain ⟨q, hq, hm⟩ := inner i es hes
    obtain ⟨v, hv, hvl, hvB⟩ := single_spec hlt.2
    refine ⟨(c, v), ?_, rfl, (hvB j).mpr rfl⟩
    rw [List.mem_append]
    right
    rw [List.mem_flatten]
    refine ⟨q, (mapM_mem h3 q).mpr ⟨i, by simpa using hlt.1, ?_⟩, (hm (c, v)).mpr ⟨c, j, hcj, rfl, hv⟩⟩
    unfold B at hb
    simp only [statePairs, hb, hes, hq]

/-- Everything about the transitions of a set `x`. -/
structure SuccSpec (n : NFA C) (x : Bits) (t : Pairs C) : Prop where
  noEps : ∀ e ∈ t, CharSetLike.isEps e.1 = false
  len : ∀ e ∈ t, e.2.length = n.nstates
  target : ∀ e ∈ t, ∀ y, CharSetLike.accepts e.1 y = true → ∀ k, B e.2 k ↔
    ∃ i c j, B x i ∧ HasEdge n.rules i c j ∧ CharSetLike.isEps c = false ∧ CharSetLike.accepts c y = true ∧ Run n.rules j [] k
  complete : ∀ y i c j, B x i → HasEdge n.rules i c j → CharSetLike.isEps c = false → CharSetLike.accepts c y = true →
    ∃ e ∈ t, CharSetLike.accepts e.1 y = true
  disjoint : ∀ (i j : Nat) (a b : C × Bits), t[i]? = some a → t[j]? = some b → i ≠ j →
    ∀ y, ¬ (CharSetLike.accepts a.1 y = true ∧ CharSetLike.accepts b.1 y = true)
  nonempty : NoEmpty n.rules → ∀ e ∈ t, CharSetLike.empty e.1 = false
  inhabited : ∀ e ∈ t, ∃ k, B e.2 k

/-- Positions in a filtered list are positions in the list. -/
theorem filter_pos {α : Type} (p : α → Bool) (l : List α) {i j : Nat} {a b : α} (ha : (l.filter p)[i]? = some a)
    (hb : (l.filter p)[j]? = some b) (hij : i ≠ j) : ∃ i' j' : Nat, l[i']? = some a ∧ l[j']? = some b ∧ i' ≠ j' := by
  induction l generalizing i j with
  | nil => simp at ha
  | cons c l ih =>
    by_cases hc : p c = true
    · rw [List.filter_cons_of_pos hc] at ha hb
      cases i with
      | zero =>
        cases j with
        | zero => exact absurd rfl hij
        | succ j =>
          simp at ha hb
          subst ha
          have hm : b ∈ l.filter p := List.mem_of_getElem? hb
          obtain ⟨k, hk⟩ := List.mem_iff_getElem?.mp (List.mem_filter.mp hm).1
          exact ⟨0, k + 1, rfl, by simpa using hk, by omega⟩
      | succ i =>
        cases j with
        | zero =>
          simp at ha hb
          subst hb
          have hm : a ∈ l.filter p := List.mem_of_getElem? ha
          obtain ⟨k, hk⟩ := List.mem_iff_getElem?.mp (List.mem_filter.mp hm).1
          exact ⟨k + 1, 0, by simpa using hk, rfl, by omega⟩
        | succ j =>
          simp at ha hb
          obtain ⟨i', j', h1, h2, h3⟩ := ih ha hb (by omega)
          exact ⟨i' + 1, j' + 1, by simpa using h1, by simpa using h2, by omega⟩
    · rw [List.filter_cons_of_neg hc] at ha hb
      obtain ⟨i', j', h1, h2, h3⟩ := ih ha hb hij
      exact ⟨i' + 1, j' + 1, by simpa using h1, by simpa using h2, by omega⟩

theorem not_overlap {pr : Pairs C} (h : ∀ i j, j < i → overlap pr i j = false) {i j : Nat} {a b : C × Bits}
    (ha : pr[i]? = some a) (hb : pr[j]? = some b) (hij : i ≠ j) (ea : CharSetLike.isEps a.1 = false)
    (eb : CharSetLike.isEps b.1 = false) (y : Nat) :
    ¬ (CharSetLike.accepts a.1 y = true ∧ CharSetLike.accepts b.1 y = true) := by
  rintro ⟨hya, hyb⟩
  rcases Nat.lt_or_gt_of_ne hij with hlt | hgt
  · have := h j i hlt
    rw [← Bool.not_eq_true] at this
    refine this (overlap_iff.mpr ⟨b, a, hb, ha, eb, ea, not_empty_of_accepts (x := y) ?_⟩)
    simp [CharSetLike.accepts_inter, hya, hyb]
  · have := h i j hgt
    rw [← Bool.not_eq_true] at this
    refine this (overlap_iff.mpr ⟨a, b, ha, hb, ea, eb, not_empty_of_accepts (x := y) ?_⟩)
    simp [CharSetLike.accepts_inter, hya, hyb]

theorem succs_spec {n : NFA C} (hn : n.WfM) {x : Bits} (hl : x.length = n.nstates) :
    ∃ t, n.succs x = some t ∧ SuccSpec n x t := by
  obtain ⟨p0, e0, i1, i2⟩ := initPairs_spec hn hl
  obtain ⟨pr, r1, r2, r3, r4, r5, r6⟩ := refine_spec p0 (N := n.nstates) fun e he hc => (i1 e he hc).choose_spec.choose_spec.2.2.1
  obtain ⟨t, t1, t2, t3⟩ := mapM_some (fun e : C × Bits => do return (e.1, ← n.closure e.2))
    (pr.filter fun e => !CharSetLike.isEps e.1) (by
    intro e he
    simp only [List.mem_filter, Bool.not_eq_true'] at he
    obtain ⟨v, hv, -⟩ := closure_spec hn (r2 e he.1 he.2)
    exact ⟨(e.1, v), by simp [hv]⟩)
  have src : ∀ (k : Nat) (e' : C × Bits), t[k]? = some e' → ∃ e, (pr.filter fun e => !CharSetLike.isEps e.1)[k]? = some e ∧
      e ∈ pr ∧ CharSetLike.isEps e.1 = false ∧ e'.1 = e.1 ∧ n.closure e.2 = some e'.2 := by
    intro k e' hk
    obtain ⟨e, he, hf⟩ := (t3 k e').mp hk
    have hm := List.mem_of_getElem? he
    simp only [List.mem_filter, Bool.not_eq_true'] at hm
    obtain ⟨v, hv, -⟩ := closure_spec hn (r2 e hm.1 hm.2)
    simp [hv] at hf
    exact ⟨e, he, hm.1, hm.2, by rw [← hf], by rw [hv, ← hf]⟩
  have srcm : ∀ e' ∈ t, ∃ e ∈ pr, CharSetLike.isEps e.1 = false ∧ e'.1 = e.1 ∧ n.closure e.2 = some e'.2 := by
    intro e' he'
    obtain ⟨k, hk⟩ := List.mem_iff_getElem?.mp he'
    obtain ⟨e, -, h⟩ := src k e' hk
    exact ⟨e, h⟩
  refine ⟨t, by simp [NFA.succs, NFA.follow, e0, r1]; exact t1, ?_, ?_, ?_, ?_, ?_, ?_, ?_⟩
  · intro e' he'
    obtain ⟨e, _, h, h', _⟩ := srcm e' he'
    rw [h']; exact h
  · intro e' he'
    obtain ⟨e, hm, h, h', hcl⟩ := srcm e' he'
    obtain ⟨v, hv, hvl, -⟩ := closure_spec hn (r2 e hm h)
    rw [hcl] at hv; cases hv; exact hvl
  · intro e' he' y hy k
    obtain ⟨e, hm, h, h', hcl⟩ := srcm e' he'
    obtain ⟨v, hv, hvl, hvB⟩ := closure_spec hn (r2 e hm h)
    rw [hcl] at hv; cases hv
    rw [hvB]
    rw [h'] at hy
    constructor
    · rintro ⟨j, hj, hr⟩
      have := (r3 y j).mp ⟨e, hm, h, hy, hj⟩
      obtain ⟨e1, hm1, hc1, hy1, hj1⟩ := this
      obtain ⟨i, j', hb, hed, _, hBB⟩ := i1 e1 hm1 hc1
      have := (hBB j).mp hj1
      subst this
      exact ⟨i, e1.1, j, hb, hed, hc1, hy1, hr⟩
    · rintro ⟨i, c, j, hb, hed, hc, hyc, hr⟩
      obtain ⟨e1, hm1, rfl, hB1⟩ := i2 i c j hb hed
      obtain ⟨e2, hm2, hc2, hy2, hB2⟩ := (r3 y j).mpr ⟨e1, hm1, hc, hyc, hB1⟩
      -- the pair accepting `y` is unique
      obtain ⟨p, hp⟩ := List.mem_iff_getElem?.mp hm
      obtain ⟨q, hq⟩ := List.mem_iff_getElem?.mp hm2
      have hpq : p = q := Classical.byContradiction fun hne => not_overlap r4 hp hq hne h hc2 y ⟨hy, hy2⟩
      subst hpq
      rw [hp] at hq; cases hq
      exact ⟨j, hB2, hr⟩
  · intro y i c j hb hed hc hyc
    obtain ⟨e1, hm1, rfl, hB1⟩ := i2 i c j hb hed
    obtain ⟨e2, hm2, hc2, hy2, hB2⟩ := (r3 y j).mpr ⟨e1, hm1, hc, hyc, hB1⟩
    obtain ⟨v, hv, -⟩ := closure_spec hn (r2 e2 hm2 hc2)
    refine ⟨(e2.1, v), (mapM_mem t3 _).mpr ⟨e2, by simp [hm2, hc2], by simp [hv]⟩, hy2⟩
  · intro i j a b ha hb hij y
    obtain ⟨a', ha', _, hca, h1, _⟩ := src i a ha
    obtain ⟨b', hb', _, hcb, h2, _⟩ := src j b hb
    obtain ⟨i', j', g1, g2, g3⟩ := filter_pos _ pr ha' hb' hij
    rw [h1, h2]
    exact not_overlap r4 g1 g2 g3 hca hcb y
  · intro hne e' he'
    obtain ⟨e, hm, h, h', hcl⟩ := srcm e' he'
    rw [h']
    refine r5 (fun e1 hm1 hc1 => ?_) e hm h
    obtain ⟨i, j, _, hed, _⟩ := i1 e1 hm1 hc1
    exact hne i e1.1 j hed hc1
  · intro e' he'
    obtain ⟨e, hm, h, h', hcl⟩ := srcm e' he'
    obtain ⟨v, hv, hvl, hvB⟩ := closure_spec hn (r2 e hm h)
    rw [hcl] at hv; cases hv
    rcases r6 e hm h with ⟨k, hk⟩ | ⟨e1, hm1, hc1, hk⟩
    · exact ⟨k, (hvB k).mpr ⟨k, hk, .nil⟩⟩
    · obtain ⟨i, j, _, _, _, hBB⟩ := i1 e1 hm1 hc1
      exact absurd ⟨j, (hBB j).mpr rfl⟩ hk

end Verif.Auto
