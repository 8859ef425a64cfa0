import Verif.Auto.Minimize
import Verif.Auto.NegateLemmas
import Mathlib.Data.Fintype.EquivFin
import Mathlib.Data.Fintype.Card

set_option linter.unusedSectionVars false

/-! # Lemmas about the groups of the minimisation -/

namespace Verif.Auto

variable {C : Type} [CharSetLike C]

/-- On `y`, state `p` has a transition into group `g`. -/
def Into (rs : Rules C) (groups : List Nat) (p g y : Nat) : Prop :=
  ∃ c j, HasEdge rs p c j ∧ groups[j]? = some g ∧ CharSetLike.accepts c y = true

theorem modify_get {α : Type} {v : List α} {f : α → α} {g k : Nat} :
    (v.modify g f)[k]? = if g = k then (v[k]?).map f else v[k]? := by
  rw [List.getElem?_modify]
  split <;> simp

theorem groupSets_spec {groups : List Nat} (es : List (C × Nat)) (v : List C)
    (h : ∀ c j, (c, j) ∈ es → ∃ g, groups[j]? = some g ∧ g < v.length) :
    ∃ v', groupSets groups es v = some v' ∧ v'.length = v.length ∧
      ∀ (k : Nat) (s s' : C), v[k]? = some s → v'[k]? = some s' → CharSetLike.isEps s' = CharSetLike.isEps s ∧
        ∀ y, CharSetLike.accepts s' y = true ↔ CharSetLike.accepts s y = true ∨
          ∃ c j, (c, j) ∈ es ∧ groups[j]? = some k ∧ CharSetLike.accepts c y = true := by
  induction es generalizing v with
  | nil =>
    refine ⟨v, rfl, rfl, fun k s s' h h' => ?_⟩
    rw [h] at h'; cases h'; simp
  | cons e es ih =>
    obtain ⟨c, j⟩ := e
    obtain ⟨g, hg, hlt⟩ := h c j List.mem_cons_self
    obtain ⟨v', h1, h2, h3⟩ := ih (v.modify g fun s => CharSetLike.unite s c) (fun c' j' hm => by
      obtain ⟨g', a, b⟩ := h c' j' (List.mem_cons_of_mem _ hm)
      exact ⟨g', a, by simpa using b⟩)
    refine ⟨v', ?_, by simpa using h2, fun k s s' hs hs' => ?_⟩
    · simp only [groupSets, hg, Option.bind_eq_bind, Option.bind_some, if_pos hlt]; exact h1
    · by_cases hk : g = k
      · subst hk
        obtain ⟨a, b⟩ := h3 g (CharSetLike.unite s c) s' (by rw [modify_get, if_pos rfl, hs]; rfl) hs'
        refine ⟨by rw [a, CharSetLike.unite_eps], fun y => ?_⟩
        rw [b, CharSetLike.accepts_unite, Bool.or_eq_true]
        constructor
        · rintro ((h | h) | ⟨c', j', hm, r⟩)
          · exact Or.inl h
          · exact Or.inr ⟨c, j, List.mem_cons_self, hg, h⟩
          · exact Or.inr ⟨c', j', List.mem_cons_of_mem _ hm, r⟩
        · rintro (h | ⟨c', j', hm, r⟩)
          · exact Or.inl (Or.inl h)
          · rcases List.mem_cons.mp hm with heq | hm
            · simp only [Prod.mk.injEq] at heq
              rw [heq.1] at r; exact Or.inl (Or.inr r.2)
            · exact Or.inr ⟨c', j', hm, r⟩
      · obtain ⟨a, b⟩ := h3 k s s' (by rw [modify_get, if_neg hk, hs]) hs'
        refine ⟨a, fun y => ?_⟩
        rw [b]
        constructor
        · rintro (h | ⟨c', j', hm, r⟩)
          · exact Or.inl h
          · exact Or.inr ⟨c', j', List.mem_cons_of_mem _ hm, r⟩
        · rintro (h | ⟨c', j', hm, r⟩)
          · exact Or.inl h
          · rcases List.mem_cons.mp hm with heq | hm
            · simp only [Prod.mk.injEq] at heq
              rw [heq.2, hg] at r; exact absurd (Option.some.inj r.1) hk
            · exact Or.inr ⟨c', j', hm, r⟩

theorem vecEq_iff : ∀ (a b : List C), vecEq a b = true ↔
    a.length = b.length ∧ ∀ (k : Nat) (s t : C), a[k]? = some s → b[k]? = some t → CharSetLike.beq s t = true := by
  intro a
  induction a with
  | nil => intro b; cases b <;> simp [vecEq]
  | cons s a ih =>
    intro b
    cases b with
    | nil => simp [vecEq]
    | cons t b =>
      simp only [vecEq, Bool.and_eq_true, ih, List.length_cons]
      constructor
      · rintro ⟨h1, h2, h3⟩
        refine ⟨by omega, fun k s' t' hs ht => ?_⟩
        cases k with
        | zero => simp at hs ht; subst hs; subst ht; exact h1
        | succ k => simp at hs ht; exact h3 k s' t' hs ht
      · rintro ⟨h1, h2⟩
        exact ⟨h2 0 s t (by simp) (by simp), by omega, fun k s' t' hs ht => h2 (k + 1) s' t' (by simpa using hs) (by simpa using ht)⟩

/-- The groups are usable: every state has one, below the number of groups. -/
structure Groups (N ng : Nat) (groups : List Nat) : Prop where
  len : groups.length = N
  lt : ∀ (i g : Nat), groups[i]? = some g → g < ng

theorem Groups.get {N ng : Nat} {groups : List Nat} (h : Groups N ng groups) {i : Nat} (hi : i < N) : ∃ g, groups[i]? = some g :=
  ⟨_, List.getElem?_eq_getElem (by have := h.len; omega)⟩

theorem sameGroup_spec {rs : Rules C} {N ng : Nat} {groups : List Nat} (hG : Groups N ng groups) (hsz : rs.length = N)
    (ht : ∀ i c j, HasEdge rs i c j → j < N) {p q : Nat} (hp : p < N) (hq : q < N) :
    ∃ b, sameGroup rs ng groups p q = some b ∧ (b = true ↔ ∀ g y, Into rs groups p g y ↔ Into rs groups q g y) := by
  have hrp : rs[p]? = some rs[p] := List.getElem?_eq_getElem (by omega)
  have hrq : rs[q]? = some rs[q] := List.getElem?_eq_getElem (by omega)
  have pre : ∀ (i : Nat) (es : List (C × Nat)), rs[i]? = some es → ∀ c j, (c, j) ∈ es →
      ∃ g, groups[j]? = some g ∧ g < (List.replicate ng (CharSetLike.eps : C)).length := by
    intro i es hes c j hm
    obtain ⟨g, hg⟩ := hG.get (ht i c j ⟨es, hes, hm⟩)
    exact ⟨g, hg, by simpa using hG.lt j g hg⟩
  obtain ⟨xs, x1, x2, x3⟩ := groupSets_spec rs[p] (List.replicate ng CharSetLike.eps) (pre p _ hrp)
  obtain ⟨ys, y1, y2, y3⟩ := groupSets_spec rs[q] (List.replicate ng CharSetLike.eps) (pre q _ hrq)
  refine ⟨vecEq xs ys, ?_, ?_⟩
  · simp only [sameGroup, hrp, hrq, Option.bind_eq_bind, Option.bind_some, x1, y1]; rfl
  · have into : ∀ (i : Nat) (es : List (C × Nat)), rs[i]? = some es → ∀ g y, Into rs groups i g y ↔
        ∃ c j, (c, j) ∈ es ∧ groups[j]? = some g ∧ CharSetLike.accepts c y = true := by
      intro i es hes g y
      constructor
      · rintro ⟨c, j, ⟨es', h, hm⟩, r⟩
        rw [hes] at h; cases h; exact ⟨c, j, hm, r⟩
      · rintro ⟨c, j, hm, r⟩; exact ⟨c, j, ⟨es, hes, hm⟩, r⟩
    simp only [List.length_replicate] at x2 y2
    have hrep : ∀ k, k < ng → (List.replicate ng (CharSetLike.eps : C))[k]? = some CharSetLike.eps := by
      intro k hk; rw [List.getElem?_replicate, if_pos hk]
    rw [vecEq_iff]
    constructor
    · rintro ⟨_, h⟩ g y
      rw [into p _ hrp, into q _ hrq]
      by_cases hg : g < ng
      · have e1 : xs[g]? = some xs[g] := List.getElem?_eq_getElem (by omega)
        have e2 : ys[g]? = some ys[g] := List.getElem?_eq_getElem (by omega)
        have a := (x3 g _ _ (hrep g hg) e1).2 y
        have b := (y3 g _ _ (hrep g hg) e2).2 y
        have hb := ((CharSetLike.beq_iff _ _).mp (h g _ _ e1 e2)).2 y
        rw [CharSetLike.accepts_eps] at a b
        simp only [Bool.false_eq_true, false_or] at a b
        rw [← a, ← b, hb]
      · constructor
        · rintro ⟨c, j, _, hj, _⟩; exact absurd (hG.lt j g hj) hg
        · rintro ⟨c, j, _, hj, _⟩; exact absurd (hG.lt j g hj) hg
    · intro h
      refine ⟨by omega, fun k s t hs ht => ?_⟩
      have hk : k < ng := by have := (List.getElem?_eq_some_iff.mp hs).1; omega
      have a := x3 k _ _ (hrep k hk) hs
      have b := y3 k _ _ (hrep k hk) ht
      rw [CharSetLike.beq_iff]
      refine ⟨by rw [a.1, b.1], fun y => ?_⟩
      have a := a.2 y
      have b := b.2 y
      rw [CharSetLike.accepts_eps] at a b
      simp only [Bool.false_eq_true, false_or] at a b
      have := h k y
      rw [into p _ hrp, into q _ hrq] at this
      rw [Bool.eq_iff_iff, a, b, this]

/-- The relation the refinement splits by. -/
def Alike (rs : Rules C) (groups : List Nat) (p q : Nat) : Prop :=
  groups[p]? = groups[q]? ∧ ∀ g y, Into rs groups p g y ↔ Into rs groups q g y

theorem Alike.refl {rs : Rules C} {groups : List Nat} (p : Nat) : Alike rs groups p p := ⟨rfl, fun _ _ => Iff.rfl⟩
theorem Alike.symm {rs : Rules C} {groups : List Nat} {p q : Nat} (h : Alike rs groups p q) : Alike rs groups q p :=
  ⟨h.1.symm, fun g y => (h.2 g y).symm⟩
theorem Alike.trans {rs : Rules C} {groups : List Nat} {p q r : Nat} (h : Alike rs groups p q) (h' : Alike rs groups q r) :
    Alike rs groups p r := ⟨h.1.trans h'.1, fun g y => (h.2 g y).trans (h'.2 g y)⟩

theorem place_spec {rs : Rules C} {N ng : Nat} {groups : List Nat} (hG : Groups N ng groups) (hsz : rs.length = N)
    (ht : ∀ i c j, HasEdge rs i c j → j < N) {i : Nat} (hi : i < N) (gr : List (List Nat)) (hne : ∀ g ∈ gr, g ≠ [])
    (hlt : ∀ g ∈ gr, ∀ p ∈ g, p < N) :
    ∃ gr', place rs ng groups i gr = some gr' ∧
      ((∃ (k : Nat) (g : List Nat), gr[k]? = some g ∧ gr' = gr.set k (g ++ [i]) ∧ ∃ h ∈ g, Alike rs groups h i) ∨
        (gr' = gr ++ [[i]] ∧ ∀ g ∈ gr, ∃ h ∈ g, ¬ Alike rs groups h i)) := by
  induction gr with
  | nil => exact ⟨[[i]], rfl, Or.inr ⟨rfl, by simp⟩⟩
  | cons g gs ih =>
    obtain ⟨gr', h1, h2⟩ := ih (fun g hg => hne g (List.mem_cons_of_mem _ hg)) (fun g hg => hlt g (List.mem_cons_of_mem _ hg))
    have hg := hne g List.mem_cons_self
    obtain ⟨h, hs, rfl⟩ : ∃ h hs, g = h :: hs := by cases g with
      | nil => exact absurd rfl hg
      | cons h hs => exact ⟨h, hs, rfl⟩
    have hh : h < N := hlt _ List.mem_cons_self h List.mem_cons_self
    obtain ⟨gh, hgh⟩ := hG.get hh
    obtain ⟨gi, hgi⟩ := hG.get hi
    obtain ⟨b, b1, b2⟩ := sameGroup_spec hG hsz ht hh hi
    have rest : ¬ Alike rs groups h i → ∃ gr'', (some ((h :: hs) :: gr') : Option (List (List Nat))) = some gr'' ∧
        ((∃ (k : Nat) (g : List Nat), ((h :: hs) :: gs)[k]? = some g ∧ gr'' = ((h :: hs) :: gs).set k (g ++ [i]) ∧ ∃ h ∈ g, Alike rs groups h i) ∨
        (gr'' = ((h :: hs) :: gs) ++ [[i]] ∧ ∀ g ∈ ((h :: hs) :: gs), ∃ h ∈ g, ¬ Alike rs groups h i)) := by
      intro hna
      refine ⟨_, rfl, ?_⟩
      rcases h2 with ⟨k, g, a, rfl, c⟩ | ⟨rfl, c⟩
      · exact Or.inl ⟨k + 1, g, by simpa using a, by simp, c⟩
      · refine Or.inr ⟨by simp, fun g hg => ?_⟩
        rcases List.mem_cons.mp hg with rfl | hg
        · exact ⟨h, List.mem_cons_self, hna⟩
        · exact c g hg
    have hz : (h :: hs)[0]? = some h := rfl
    simp only [place, hz, hgh, hgi, Option.bind_eq_bind, Option.bind_some]
    by_cases heq : gh = gi
    · rw [if_pos heq, b1]
      simp only [Option.bind_some]
      by_cases hb : b = true
      · rw [if_pos hb]
        exact ⟨_, rfl, Or.inl ⟨0, h :: hs, by simp, by simp, h, List.mem_cons_self, by rw [hgh, hgi, heq], b2.mp hb⟩⟩
      · rw [if_neg hb, h1]
        exact rest fun ha => hb (b2.mpr ha.2)
    · rw [if_neg heq, h1]
      exact rest fun ha => heq (by have := ha.1; rw [hgh, hgi] at this; exact Option.some.inj this)

/-- The groups made so far, over the states `P`. -/
structure Split (rs : Rules C) (groups : List Nat) (gr : List (List Nat)) (P : Nat → Prop) : Prop where
  ne : ∀ g ∈ gr, g ≠ []
  cover : ∀ i, P i ↔ ∃ g ∈ gr, i ∈ g
  alike : ∀ (k k' : Nat) (g g' : List Nat) (i j : Nat), gr[k]? = some g → gr[k']? = some g' → i ∈ g → j ∈ g' →
    (k = k' ↔ Alike rs groups i j)

theorem Split.place {rs : Rules C} {N ng : Nat} {groups : List Nat} (hG : Groups N ng groups) (hsz : rs.length = N)
    (ht : ∀ i c j, HasEdge rs i c j → j < N) {i : Nat} (hi : i < N) {gr : List (List Nat)} {P : Nat → Prop} (hP : ∀ p, P p → p < N)
    (h : Split rs groups gr P) :
    ∃ gr', Verif.Auto.place rs ng groups i gr = some gr' ∧ Split rs groups gr' (fun p => P p ∨ p = i) ∧
      (∀ (k : Nat) (g : List Nat), gr[k]? = some g → ∃ g', gr'[k]? = some g' ∧ ∀ p ∈ g, p ∈ g') := by
  obtain ⟨gr', h1, h2⟩ := place_spec hG hsz ht hi gr h.ne (fun g hg p hp => hP p ((h.cover p).mpr ⟨g, hg, hp⟩))
  refine ⟨gr', h1, ?_⟩
  rcases h2 with ⟨k, g, hk, rfl, p, hp, hA⟩ | ⟨rfl, hno⟩
  · have hklt := (List.getElem?_eq_some_iff.mp hk).1
    have get : ∀ (k' : Nat) (g' : List Nat), (gr.set k (g ++ [i]))[k']? = some g' →
        ∃ g0, gr[k']? = some g0 ∧ ((k' = k ∧ g0 = g ∧ g' = g ++ [i]) ∨ (k' ≠ k ∧ g' = g0)) := by
      intro k' g' h'
      rw [List.getElem?_set] at h'
      by_cases hkk : k = k'
      · subst hkk
        rw [if_pos rfl, if_pos hklt] at h'
        exact ⟨g, hk, Or.inl ⟨rfl, rfl, (Option.some.inj h').symm⟩⟩
      · rw [if_neg hkk] at h'
        exact ⟨g', h', Or.inr ⟨fun h => hkk h.symm, rfl⟩⟩
    refine ⟨⟨?_, ?_, ?_⟩, ?_⟩
    · intro g' hg'
      rcases List.mem_or_eq_of_mem_set hg' with hg' | rfl
      · exact h.ne g' hg'
      · simp
    · intro q
      rw [h.cover]
      constructor
      · rintro (⟨g', hg', hq⟩ | rfl)
        · obtain ⟨k', hk'⟩ := List.mem_iff_getElem?.mp hg'
          by_cases hkk : k = k'
          · subst hkk
            rw [hk] at hk'; cases hk'
            exact ⟨g ++ [i], List.mem_set hklt _, by simp [hq]⟩
          · refine ⟨g', List.mem_iff_getElem?.mpr ⟨k', ?_⟩, hq⟩
            rw [List.getElem?_set, if_neg hkk, hk']
        · exact ⟨g ++ [q], List.mem_set hklt _, by simp⟩
      · rintro ⟨g', hg', hq⟩
        rcases List.mem_or_eq_of_mem_set hg' with hg' | rfl
        · exact Or.inl ⟨g', hg', hq⟩
        · rcases List.mem_append.mp hq with hq | hq
          · exact Or.inl ⟨g, List.mem_of_getElem? hk, hq⟩
          · simp at hq; exact Or.inr hq
    · intro k1 k2 g1 g2 i1 i2 hg1 hg2 hi1 hi2
      obtain ⟨a1, ha1, hc1⟩ := get k1 g1 hg1
      obtain ⟨a2, ha2, hc2⟩ := get k2 g2 hg2
      -- a member of the old group alike to the new one
      have rep : ∀ (k1 : Nat) (g1 a1 : List Nat) (i1 : Nat), gr[k1]? = some a1 → ((k1 = k ∧ a1 = g ∧ g1 = g ++ [i]) ∨ (k1 ≠ k ∧ g1 = a1)) →
          i1 ∈ g1 → ∃ j1 ∈ a1, Alike rs groups j1 i1 := by
        intro k1 g1 a1 i1 _ hc hi1
        rcases hc with ⟨_, rfl, rfl⟩ | ⟨_, rfl⟩
        · rcases List.mem_append.mp hi1 with hi1 | hi1
          · exact ⟨i1, hi1, Alike.refl _⟩
          · simp at hi1; subst hi1; exact ⟨p, hp, hA⟩
        · exact ⟨i1, hi1, Alike.refl _⟩
      obtain ⟨j1, hj1, e1⟩ := rep k1 g1 a1 i1 ha1 hc1 hi1
      obtain ⟨j2, hj2, e2⟩ := rep k2 g2 a2 i2 ha2 hc2 hi2
      rw [h.alike k1 k2 a1 a2 j1 j2 ha1 ha2 hj1 hj2]
      exact ⟨fun hA => e1.symm.trans (hA.trans e2), fun hA => e1.trans (hA.trans e2.symm)⟩
    · intro k' g' hk'
      by_cases hkk : k = k'
      · subst hkk
        rw [hk] at hk'; cases hk'
        exact ⟨g ++ [i], by rw [List.getElem?_set, if_pos rfl, if_pos hklt], fun p hp => by simp [hp]⟩
      · exact ⟨g', by rw [List.getElem?_set, if_neg hkk, hk'], fun p hp => hp⟩
  · have get : ∀ (k' : Nat) (g' : List Nat), (gr ++ [[i]])[k']? = some g' →
        gr[k']? = some g' ∨ (k' = gr.length ∧ g' = [i]) := by
      intro k' g' h'
      by_cases hlt : k' < gr.length
      · rw [List.getElem?_append_left hlt] at h'; exact Or.inl h'
      · rw [List.getElem?_append_right (by omega)] at h'
        have := (List.getElem?_eq_some_iff.mp h').1
        simp at this
        have : k' = gr.length := by omega
        subst this
        simp at h'
        exact Or.inr ⟨rfl, h'.symm⟩
    have nal : ∀ (k' : Nat) (g' : List Nat) (q : Nat), gr[k']? = some g' → q ∈ g' → ¬ Alike rs groups q i := by
      intro k' g' q hk' hq hA
      obtain ⟨p, hp, hn⟩ := hno g' (List.mem_of_getElem? hk')
      exact hn (((h.alike k' k' g' g' p q hk' hk' hp hq).mp rfl).trans hA)
    refine ⟨⟨?_, ?_, ?_⟩, ?_⟩
    · intro g' hg'
      rcases List.mem_append.mp hg' with hg' | hg'
      · exact h.ne g' hg'
      · simp at hg'; subst hg'; simp
    · intro q
      rw [h.cover]
      constructor
      · rintro (⟨g', hg', hq⟩ | rfl)
        · exact ⟨g', by simp [hg'], hq⟩
        · exact ⟨[q], by simp, by simp⟩
      · rintro ⟨g', hg', hq⟩
        rcases List.mem_append.mp hg' with hg' | hg'
        · exact Or.inl ⟨g', hg', hq⟩
        · simp at hg'; subst hg'; simp at hq; exact Or.inr hq
    · intro k1 k2 g1 g2 i1 i2 hg1 hg2 hi1 hi2
      rcases get k1 g1 hg1 with ha1 | ⟨rfl, rfl⟩ <;> rcases get k2 g2 hg2 with ha2 | ⟨rfl, rfl⟩
      · exact h.alike k1 k2 g1 g2 i1 i2 ha1 ha2 hi1 hi2
      · simp at hi2; subst hi2
        have := (List.getElem?_eq_some_iff.mp ha1).1
        exact ⟨fun h => by omega, fun hA => absurd hA (nal k1 g1 i1 ha1 hi1)⟩
      · simp at hi1; subst hi1
        have := (List.getElem?_eq_some_iff.mp ha2).1
        exact ⟨fun h => by omega, fun hA => absurd hA.symm (nal k2 g2 i2 ha2 hi2)⟩
      · simp at hi1 hi2; subst hi1; subst hi2
        exact ⟨fun _ => Alike.refl _, fun _ => rfl⟩
    · intro k' g' hk'
      exact ⟨g', by rw [List.getElem?_append_left (List.getElem?_eq_some_iff.mp hk').1, hk'], fun p hp => hp⟩

theorem regroup_spec {rs : Rules C} {N ng : Nat} {groups : List Nat} (hG : Groups N ng groups) (hsz : rs.length = N)
    (ht : ∀ i c j, HasEdge rs i c j → j < N) (is : List Nat) : ∀ (gr : List (List Nat)) (P : Nat → Prop), (∀ i ∈ is, i < N) →
    (∀ p, P p → p < N) → Split rs groups gr P →
    ∃ gr', regroup rs ng groups is gr = some gr' ∧ Split rs groups gr' (fun p => P p ∨ p ∈ is) ∧
      (∀ (k : Nat) (g : List Nat), gr[k]? = some g → ∃ g', gr'[k]? = some g' ∧ ∀ p ∈ g, p ∈ g') := by
  induction is with
  | nil => intro gr P _ _ h; exact ⟨gr, rfl, by simpa using h, fun k g hk => ⟨g, hk, fun _ h => h⟩⟩
  | cons i is ih =>
    intro gr P his hP h
    have hi := his i List.mem_cons_self
    obtain ⟨gr1, p1, p2, p3⟩ := h.place hG hsz ht hi hP
    obtain ⟨gr2, q1, q2, q3⟩ := ih gr1 _ (fun j hj => his j (List.mem_cons_of_mem _ hj))
      (fun p hp => by rcases hp with hp | rfl; exact hP p hp; exact hi) p2
    refine ⟨gr2, by simp only [regroup, p1, Option.bind_eq_bind, Option.bind_some]; exact q1, ?_, ?_⟩
    · refine ⟨q2.ne, fun p => ?_, q2.alike⟩
      rw [← q2.cover]
      simp only [List.mem_cons]
      constructor
      · rintro (h | h | h)
        · exact Or.inl (Or.inl h)
        · exact Or.inl (Or.inr h)
        · exact Or.inr h
      · rintro ((h | h) | h)
        · exact Or.inl h
        · exact Or.inr (Or.inl h)
        · exact Or.inr (Or.inr h)
    · intro k g hk
      obtain ⟨g1, a, b⟩ := p3 k g hk
      obtain ⟨g2, c, d⟩ := q3 k g1 a
      exact ⟨g2, c, fun p hp => d p (b p hp)⟩

theorem regroup_all {rs : Rules C} {N ng : Nat} {groups : List Nat} (hG : Groups N ng groups) (hsz : rs.length = N)
    (ht : ∀ i c j, HasEdge rs i c j → j < N) :
    ∃ gr', regroup rs ng groups (List.range N) [] = some gr' ∧ Split rs groups gr' (· < N) ∧
      (0 < N → ∃ g, gr'[0]? = some g ∧ 0 ∈ g) := by
  have h0 : Split rs groups ([] : List (List Nat)) (fun _ => False) := ⟨by simp, by simp, by simp⟩
  cases N with
  | zero =>
    refine ⟨[], by simp [regroup], ⟨by simp, by simp, by simp⟩, by omega⟩
  | succ M =>
    have hr : List.range (M + 1) = 0 :: (List.range M).map (· + 1) := by rw [List.range_succ_eq_map]
    obtain ⟨gr1, p1, p2, p3⟩ := h0.place hG hsz ht (show 0 < M + 1 by omega) (fun _ h => h.elim)
    have e1 : gr1 = [[0]] := by simp [place] at p1; exact p1.symm
    subst e1
    obtain ⟨gr2, q1, q2, q3⟩ := regroup_spec hG hsz ht ((List.range M).map (· + 1)) [[0]] _ (fun i hi => by simp at hi; omega)
      (fun p hp => by rcases hp with hp | rfl; exact hp.elim; omega) p2
    refine ⟨gr2, by rw [hr]; simp only [regroup, p1, Option.bind_eq_bind, Option.bind_some]; exact q1, ?_, fun _ => ?_⟩
    · refine ⟨q2.ne, fun p => ?_, q2.alike⟩
      rw [← q2.cover]
      simp only [false_or, List.mem_map, List.mem_range]
      constructor
      · intro h
        cases p with
        | zero => exact Or.inl rfl
        | succ p => exact Or.inr ⟨p, by omega, rfl⟩
      · rintro (rfl | ⟨q, h, rfl⟩) <;> omega
    · obtain ⟨g, hg, hm⟩ := q3 0 [0] rfl
      exact ⟨g, hg, hm 0 (by simp)⟩

end Verif.Auto
