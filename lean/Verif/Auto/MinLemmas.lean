import Verif.Auto.GroupLemmas

set_option linter.unusedSectionVars false

/-! # Lemmas about the refinement loop -/

namespace Verif.Auto

variable {C : Type} [CharSetLike C]

/-- A partition of the states below `N` with state 0 in the first part, refining the actions. -/
structure Parts (N : Nat) (accept : List Nat) (gr : List (List Nat)) : Prop where
  cover : ∀ i, i < N ↔ ∃ g ∈ gr, i ∈ g
  disjoint : ∀ (k k' : Nat) (g g' : List Nat) (i : Nat), gr[k]? = some g → gr[k']? = some g' → i ∈ g → i ∈ g' → k = k'
  zero : 0 < N → ∃ g, gr[0]? = some g ∧ 0 ∈ g
  action : ∀ g ∈ gr, ∀ i ∈ g, ∀ j ∈ g, accept[i]? = accept[j]?

theorem assignGroup_spec (k : Nat) (js groups : List Nat) (h : ∀ j ∈ js, j < groups.length) :
    ∃ groups', assignGroup k js groups = some groups' ∧ groups'.length = groups.length ∧
      (∀ j ∈ js, groups'[j]? = some k) ∧ (∀ j, j ∉ js → groups'[j]? = groups[j]?) := by
  induction js generalizing groups with
  | nil => exact ⟨groups, rfl, rfl, by simp, fun _ _ => rfl⟩
  | cons j js ih =>
    have hj := h j List.mem_cons_self
    obtain ⟨g', h1, h2, h3, h4⟩ := ih (groups.set j k) (fun p hp => by simpa using h p (List.mem_cons_of_mem _ hp))
    refine ⟨g', by rw [assignGroup, if_pos hj]; exact h1, by simpa using h2, fun p hp => ?_, fun p hp => ?_⟩
    · by_cases hm : p ∈ js
      · exact h3 p hm
      · rcases List.mem_cons.mp hp with rfl | hp
        · rw [h4 p hm, List.getElem?_set, if_pos rfl, if_pos hj]
        · exact absurd hp hm
    · simp only [List.mem_cons, not_or] at hp
      rw [h4 p hp.2, List.getElem?_set, if_neg (fun h => hp.1 h.symm)]

theorem assignGroups_spec (gr : List (List Nat)) : ∀ (i0 : Nat) (groups : List Nat), (∀ g ∈ gr, ∀ j ∈ g, j < groups.length) →
    (∀ (k k' : Nat) (g g' : List Nat) (i : Nat), gr[k]? = some g → gr[k']? = some g' → i ∈ g → i ∈ g' → k = k') →
    ∃ groups', assignGroups i0 gr groups = some groups' ∧ groups'.length = groups.length ∧
      (∀ (k : Nat) (g : List Nat) (j : Nat), gr[k]? = some g → j ∈ g → groups'[j]? = some (i0 + k)) ∧
      (∀ j, (∀ g ∈ gr, j ∉ g) → groups'[j]? = groups[j]?) := by
  induction gr with
  | nil => intro i0 groups _ _; exact ⟨groups, rfl, rfl, by simp, fun _ _ => rfl⟩
  | cons g gr ih =>
    intro i0 groups hlt hd
    obtain ⟨g1, a1, a2, a3, a4⟩ := assignGroup_spec i0 g groups (hlt g List.mem_cons_self)
    obtain ⟨g2, b1, b2, b3, b4⟩ := ih (i0 + 1) g1 (fun g' hg' j hj => by rw [a2]; exact hlt g' (List.mem_cons_of_mem _ hg') j hj)
      (fun k k' p p' i h1 h2 h3 h4 => by
        have := hd (k + 1) (k' + 1) p p' i (by simpa using h1) (by simpa using h2) h3 h4
        omega)
    refine ⟨g2, by simp only [assignGroups, a1, Option.bind_eq_bind, Option.bind_some]; exact b1, by omega, ?_, ?_⟩
    · intro k g' j hk hj
      cases k with
      | zero =>
        simp at hk; subst hk
        rw [b4 j, a3 j hj]
        · simp
        · intro g' hg' hj'
          obtain ⟨k', hk'⟩ := List.mem_iff_getElem?.mp hg'
          have := hd 0 (k' + 1) g g' j (by simp) (by simpa using hk') hj hj'
          omega
      | succ k =>
        rw [b3 k g' j (by simpa using hk) hj]
        congr 1; omega
    · intro j hj
      rw [b4 j (fun g' hg' => hj g' (List.mem_cons_of_mem _ hg')), a4 j (hj g List.mem_cons_self)]

theorem Parts.assign {N : Nat} {accept : List Nat} {gr : List (List Nat)} (h : Parts N accept gr) (groups : List Nat) (hl : groups.length = N) :
    ∃ groups', assignGroups 0 gr groups = some groups' ∧ Groups N gr.length groups' ∧
      ∀ (i k : Nat), groups'[i]? = some k ↔ ∃ g, gr[k]? = some g ∧ i ∈ g := by
  obtain ⟨g', h1, h2, h3, h4⟩ := assignGroups_spec gr 0 groups
    (fun g hg j hj => by rw [hl]; exact (h.cover j).mpr ⟨g, hg, hj⟩) h.disjoint
  have key : ∀ (i k : Nat), g'[i]? = some k ↔ ∃ g, gr[k]? = some g ∧ i ∈ g := by
    intro i k
    constructor
    · intro hi
      have hlt := (List.getElem?_eq_some_iff.mp hi).1
      obtain ⟨g, hg, hm⟩ := (h.cover i).mp (by omega)
      obtain ⟨k', hk'⟩ := List.mem_iff_getElem?.mp hg
      have := h3 k' g i hk' hm
      rw [hi] at this
      have := Option.some.inj this
      have : k = k' := by omega
      subst this
      exact ⟨g, hk', hm⟩
    · rintro ⟨g, hg, hm⟩
      rw [h3 k g i hg hm]; simp
  refine ⟨g', h1, ⟨by omega, fun i g hi => ?_⟩, key⟩
  obtain ⟨p, hp, _⟩ := (key i g).mp hi
  exact (List.getElem?_eq_some_iff.mp hp).1

/-- The refinement of a partition. -/
theorem Parts.refine {rs : Rules C} {N : Nat} {accept : List Nat} {gr : List (List Nat)} (h : Parts N accept gr) {groups : List Nat}
    (hk : ∀ (i k : Nat), groups[i]? = some k ↔ ∃ g, gr[k]? = some g ∧ i ∈ g) {gr' : List (List Nat)}
    (hs : Split rs groups gr' (· < N)) (hz : 0 < N → ∃ g, gr'[0]? = some g ∧ 0 ∈ g) : Parts N accept gr' := by
  refine ⟨hs.cover, ?_, hz, ?_⟩
  · intro k k' g g' i h1 h2 h3 h4
    exact (hs.alike k k' g g' i i h1 h2 h3 h4).mpr (Alike.refl _)
  · intro g hg i hi j hj
    obtain ⟨k, hk'⟩ := List.mem_iff_getElem?.mp hg
    have hA := (hs.alike k k g g i j hk' hk' hi hj).mp rfl
    obtain ⟨g1, hg1, hi1⟩ := (h.cover i).mp ((hs.cover i).mpr ⟨g, hg, hi⟩)
    obtain ⟨k1, hk1⟩ := List.mem_iff_getElem?.mp hg1
    have e1 := (hk i k1).mpr ⟨g1, hk1, hi1⟩
    have e2 := e1
    rw [hA.1] at e2
    obtain ⟨g2, hg2, hj2⟩ := (hk j k1).mp e2
    rw [hk1] at hg2; cases hg2
    exact h.action g1 hg1 i hi1 j hj2

/-- With no empty part: refining gives at least as many parts, and if as many, the same ones. -/
theorem Parts.count {rs : Rules C} {N : Nat} {accept : List Nat} {gr : List (List Nat)} (_h : Parts N accept gr) (hne : ∀ g ∈ gr, g ≠ [])
    {groups : List Nat} (hk : ∀ (i k : Nat), groups[i]? = some k ↔ ∃ g, gr[k]? = some g ∧ i ∈ g) (hlen : groups.length = N)
    {gr' : List (List Nat)} (hs : Split rs groups gr' (· < N)) :
    gr.length ≤ gr'.length ∧ (gr.length = gr'.length → ∀ i j, groups[i]? = groups[j]? → i < N → j < N → Alike rs groups i j) := by
  -- the class of the refinement a part contains
  have ex : ∀ k : Fin gr.length, ∃ k' : Fin gr'.length, ∃ (g' : List Nat) (i : Nat), gr'[(k' : Nat)]? = some g' ∧ i ∈ g' ∧ groups[i]? = some (k : Nat) := by
    intro k
    have hg : gr[(k : Nat)]? = some gr[(k : Nat)] := List.getElem?_eq_getElem k.isLt
    obtain ⟨i, hi⟩ := List.exists_mem_of_ne_nil _ (hne _ (List.mem_of_getElem? hg))
    have hgi : groups[i]? = some (k : Nat) := (hk i k).mpr ⟨_, hg, hi⟩
    have hlt := (List.getElem?_eq_some_iff.mp hgi).1
    obtain ⟨g', hg', hm⟩ := (hs.cover i).mp (by omega)
    obtain ⟨k', hk'⟩ := List.mem_iff_getElem?.mp hg'
    exact ⟨⟨k', (List.getElem?_eq_some_iff.mp hk').1⟩, g', i, hk', hm, hgi⟩
  choose f hf using ex
  have finj : Function.Injective f := by
    intro a b hab
    obtain ⟨g1, i1, h1, h2, h3⟩ := hf a
    obtain ⟨g2, i2, h4, h5, h6⟩ := hf b
    rw [hab] at h1
    have hA := (hs.alike _ _ g1 g2 i1 i2 h1 h4 h2 h5).mp rfl
    have := hA.1
    rw [h3, h6] at this
    exact Fin.ext (Option.some.inj this)
  have hcard := Fintype.card_le_of_injective f finj
  simp only [Fintype.card_fin] at hcard
  refine ⟨hcard, fun heq i j hij hi hj => ?_⟩
  have fbij : Function.Bijective f := (Fintype.bijective_iff_injective_and_card f).mpr ⟨finj, by simpa using heq⟩
  have cls : ∀ i, i < N → ∃ (k' : Fin gr'.length) (g' : List Nat), gr'[(k' : Nat)]? = some g' ∧ i ∈ g' ∧
      ∃ k, f k = k' ∧ groups[i]? = some (k : Nat) := by
    intro i hi
    obtain ⟨g', hg', hm⟩ := (hs.cover i).mp hi
    obtain ⟨k', hk'⟩ := List.mem_iff_getElem?.mp hg'
    have hlt := (List.getElem?_eq_some_iff.mp hk').1
    obtain ⟨k, hfk⟩ := fbij.2 ⟨k', hlt⟩
    refine ⟨⟨k', hlt⟩, g', hk', hm, k, hfk, ?_⟩
    obtain ⟨g1, i1, h1, h2, h3⟩ := hf k
    rw [hfk] at h1
    have hA := (hs.alike _ _ g1 g' i1 i h1 hk' h2 hm).mp rfl
    rw [← hA.1, h3]
  obtain ⟨k1, g1, a1, a2, c1, a3, a4⟩ := cls i hi
  obtain ⟨k2, g2, b1, b2, c2, b3, b4⟩ := cls j hj
  have : c1 = c2 := by
    rw [hij, b4] at a4
    exact (Fin.ext (Option.some.inj a4)).symm
  subst this
  rw [a3] at b3
  subst b3
  exact (hs.alike _ _ g1 g2 i j a1 b1 a2 b2).mp rfl

/-- What the refinement loop returns. -/
structure Stable (rs : Rules C) (N : Nat) (accept groups : List Nat) (n : Nat) : Prop where
  ok : Groups N n groups
  zero : 0 < N → groups[0]? = some 0
  action : ∀ (i j : Nat), i < N → j < N → groups[i]? = groups[j]? → accept[i]? = accept[j]?
  alike : ∀ (i j : Nat), i < N → j < N → groups[i]? = groups[j]? → Alike rs groups i j

theorem minLoop_spec {rs : Rules C} {N : Nat} {accept : List Nat} (hsz : rs.length = N) (ht : ∀ i c j, HasEdge rs i c j → j < N)
    (fuel : Nat) : ∀ (gr : List (List Nat)) (groups : List Nat), Parts N accept gr → (∀ g ∈ gr, g ≠ []) → groups.length = N →
    N + 1 ≤ fuel + gr.length → ∃ groups' n, minLoop rs N fuel gr groups = some (groups', n) ∧ Stable rs N accept groups' n := by
  induction fuel with
  | zero =>
    intro gr groups h hne hl hf
    exfalso
    -- more parts than states
    have ex : ∀ k : Fin gr.length, ∃ i : Fin N, (i : Nat) ∈ gr[(k : Nat)] := by
      intro k
      obtain ⟨i, hi⟩ := List.exists_mem_of_ne_nil _ (hne _ (List.getElem_mem k.isLt))
      exact ⟨⟨i, (h.cover i).mpr ⟨_, List.getElem_mem k.isLt, hi⟩⟩, hi⟩
    choose f hfm using ex
    have finj : Function.Injective f := by
      intro a b hab
      have h1 := hfm a
      have h2 := hfm b
      rw [hab] at h1
      exact Fin.ext (h.disjoint _ _ _ _ _ (List.getElem?_eq_getElem a.isLt) (List.getElem?_eq_getElem b.isLt) h1 h2)
    have := Fintype.card_le_of_injective f finj
    simp only [Fintype.card_fin] at this
    omega
  | succ fuel ih =>
    intro gr groups h hne hl hf
    obtain ⟨g1, a1, a2, a3⟩ := h.assign groups hl
    obtain ⟨gr', b1, b2, b3⟩ := regroup_all (rs := rs) a2 hsz ht
    obtain ⟨c1, c2⟩ := h.count hne a3 a2.len b2
    simp only [minLoop, a1, b1, Option.bind_eq_bind, Option.bind_some]
    by_cases heq : gr.length = gr'.length
    · rw [if_pos heq]
      refine ⟨g1, gr'.length, rfl, ⟨by rw [← heq]; exact a2, fun h0 => ?_, fun i j hi hj hij => ?_, fun i j hi hj hij => c2 heq i j hij hi hj⟩⟩
      · obtain ⟨g, hg, hm⟩ := h.zero h0
        exact (a3 0 0).mpr ⟨g, hg, hm⟩
      · obtain ⟨k, hk⟩ := a2.get hi
        obtain ⟨g, hg, hm⟩ := (a3 i k).mp hk
        rw [hij] at hk
        obtain ⟨g', hg', hm'⟩ := (a3 j k).mp hk
        rw [hg] at hg'; cases hg'
        exact h.action g (List.mem_of_getElem? hg) i hm j hm'
    · rw [if_neg heq]
      exact ih gr' g1 (h.refine a3 b2 b3) b2.ne a2.len (by omega)

theorem initGroups_spec {accept : List Nat} {a0 size : Nat} (is : List Nat) : ∀ (gr : List (List Nat)), gr.length = size →
    (∀ i ∈ is, i < accept.length) →
    ∃ gr', initGroups accept a0 size is gr = some gr' ∧ gr'.length = size ∧
      ∀ (k : Nat) (g g' : List Nat), gr[k]? = some g → gr'[k]? = some g' → ∀ i, i ∈ g' ↔ i ∈ g ∨
        (i ∈ is ∧ ∃ a, accept[i]? = some a ∧ (a + size - a0) % size = k) := by
  induction is with
  | nil =>
    intro gr hl _
    refine ⟨gr, rfl, hl, fun k g g' h h' i => ?_⟩
    rw [h] at h'; cases h'; simp
  | cons p is ih =>
    intro gr hl his
    have hp := his p List.mem_cons_self
    have hg : accept[p]? = some accept[p] := List.getElem?_eq_getElem hp
    obtain ⟨gr', h1, h2, h3⟩ := ih (gr.modify ((accept[p] + size - a0) % size) (· ++ [p])) (by simpa using hl)
      (fun i hi => his i (List.mem_cons_of_mem _ hi))
    refine ⟨gr', by simp only [initGroups, hg, Option.bind_eq_bind, Option.bind_some]; exact h1, h2, fun k g g' hk hk' i => ?_⟩
    by_cases he : (accept[p] + size - a0) % size = k
    · rw [h3 k (g ++ [p]) g' (by rw [modify_get, if_pos he, hk]; rfl) hk' i]
      simp only [List.mem_append, List.mem_cons, List.not_mem_nil, or_false]
      constructor
      · rintro ((h | rfl) | ⟨h, r⟩)
        · exact Or.inl h
        · exact Or.inr ⟨Or.inl rfl, _, hg, he⟩
        · exact Or.inr ⟨Or.inr h, r⟩
      · rintro (h | ⟨rfl | h, r⟩)
        · exact Or.inl (Or.inl h)
        · exact Or.inl (Or.inr rfl)
        · exact Or.inr ⟨h, r⟩
    · rw [h3 k g g' (by rw [modify_get, if_neg he, hk]) hk' i]
      simp only [List.mem_cons]
      constructor
      · rintro (h | ⟨h, r⟩)
        · exact Or.inl h
        · exact Or.inr ⟨Or.inr h, r⟩
      · rintro (h | ⟨rfl | h, r⟩)
        · exact Or.inl h
        · obtain ⟨a, ha, hr⟩ := r
          rw [hg] at ha; cases ha; exact absurd hr he
        · exact Or.inr ⟨h, r⟩

/-- The initial partition is by action, and has no empty part when every action occurs. -/
theorem init_parts {N : Nat} {accept : List Nat} {m a0 : Nat} (hl : accept.length = N) (hm : ∀ a ∈ accept, a ≤ m)
    (h0 : accept[0]? = some a0) :
    ∃ gr, initGroups accept a0 (m + 1) (List.range N) (List.replicate (m + 1) []) = some gr ∧ Parts N accept gr ∧ gr.length = m + 1 ∧
      ((∀ a ≤ m, a ∈ accept) → ∀ g ∈ gr, g ≠ []) := by
  have hle : a0 ≤ m := hm a0 (List.mem_of_getElem? h0)
  obtain ⟨gr, h1, h2, h3⟩ := initGroups_spec (accept := accept) (a0 := a0) (size := m + 1) (List.range N) (List.replicate (m + 1) [])
    (by simp) (fun i hi => by simp at hi; omega)
  have mem : ∀ (k : Nat) (g : List Nat), gr[k]? = some g → ∀ i, i ∈ g ↔ i < N ∧ ∃ a, accept[i]? = some a ∧ (a + (m + 1) - a0) % (m + 1) = k := by
    intro k g hk i
    have hlt := (List.getElem?_eq_some_iff.mp hk).1
    rw [h3 k [] g (by rw [List.getElem?_replicate, if_pos (by omega)]) hk i]
    simp
  have hidx : ∀ a b, a ≤ m → b ≤ m → (a + (m + 1) - a0) % (m + 1) = (b + (m + 1) - a0) % (m + 1) → a = b := by
    intro a b ha hb h
    by_cases h1 : a0 ≤ a <;> by_cases h2 : a0 ≤ b
    · rw [show a + (m + 1) - a0 = (a - a0) + (m + 1) by omega, show b + (m + 1) - a0 = (b - a0) + (m + 1) by omega,
        Nat.add_mod_right, Nat.add_mod_right, Nat.mod_eq_of_lt (by omega), Nat.mod_eq_of_lt (by omega)] at h
      omega
    · rw [show a + (m + 1) - a0 = (a - a0) + (m + 1) by omega,
        Nat.add_mod_right, Nat.mod_eq_of_lt (by omega), Nat.mod_eq_of_lt (by omega)] at h
      omega
    · rw [show b + (m + 1) - a0 = (b - a0) + (m + 1) by omega,
        Nat.add_mod_right, Nat.mod_eq_of_lt (by omega), Nat.mod_eq_of_lt (by omega)] at h
      omega
    · rw [Nat.mod_eq_of_lt (by omega), Nat.mod_eq_of_lt (by omega)] at h
      omega
  refine ⟨gr, h1, ⟨?_, ?_, ?_, ?_⟩, h2, ?_⟩
  · intro i
    constructor
    · intro hi
      have hg : accept[i]? = some (accept[i]'(by omega)) := List.getElem?_eq_getElem (by omega)
      have hlt : (accept[i]'(by omega) + (m + 1) - a0) % (m + 1) < gr.length := by rw [h2]; exact Nat.mod_lt _ (by omega)
      exact ⟨_, List.getElem_mem hlt, (mem _ _ (List.getElem?_eq_getElem hlt) i).mpr ⟨hi, _, hg, rfl⟩⟩
    · rintro ⟨g, hg, hi⟩
      obtain ⟨k, hk⟩ := List.mem_iff_getElem?.mp hg
      exact ((mem k g hk i).mp hi).1
  · intro k k' g g' i hk hk' hi hi'
    obtain ⟨_, a, ha, rfl⟩ := (mem k g hk i).mp hi
    obtain ⟨_, b, hb, rfl⟩ := (mem k' g' hk' i).mp hi'
    rw [ha] at hb; cases hb; rfl
  · intro hN
    have hlt : 0 < gr.length := by omega
    refine ⟨_, List.getElem?_eq_getElem hlt, (mem 0 _ (List.getElem?_eq_getElem hlt) 0).mpr ⟨hN, a0, h0, ?_⟩⟩
    rw [show a0 + (m + 1) - a0 = m + 1 by omega, Nat.mod_self]
  · intro g hg i hi j hj
    obtain ⟨k, hk⟩ := List.mem_iff_getElem?.mp hg
    obtain ⟨_, a, ha, hea⟩ := (mem k g hk i).mp hi
    obtain ⟨_, b, hb, heb⟩ := (mem k g hk j).mp hj
    have := hidx a b (hm a (List.mem_of_getElem? ha)) (hm b (List.mem_of_getElem? hb)) (by omega)
    rw [ha, hb, this]
  · intro hall g hg hnil
    obtain ⟨k, hk⟩ := List.mem_iff_getElem?.mp hg
    have hlt := (List.getElem?_eq_some_iff.mp hk).1
    -- the action with this group
    have hex : ∃ a, a ≤ m ∧ (a + (m + 1) - a0) % (m + 1) = k := by
      by_cases hc : k + a0 ≤ m
      · refine ⟨k + a0, hc, ?_⟩
        rw [show k + a0 + (m + 1) - a0 = k + (m + 1) by omega, Nat.add_mod_right, Nat.mod_eq_of_lt (by omega)]
      · refine ⟨k + a0 - (m + 1), by omega, ?_⟩
        rw [show k + a0 - (m + 1) + (m + 1) - a0 = k by omega, Nat.mod_eq_of_lt (by omega)]
    obtain ⟨a, ha, hak⟩ := hex
    obtain ⟨i, hi⟩ := List.mem_iff_getElem?.mp (hall a ha)
    have : i ∈ g := (mem k g hk i).mpr ⟨by have := (List.getElem?_eq_some_iff.mp hi).1; omega, a, hi, hak⟩
    rw [hnil] at this; simp at this

end Verif.Auto
