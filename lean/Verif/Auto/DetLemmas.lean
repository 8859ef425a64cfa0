import Verif.Auto.Refine
import Verif.Auto.ListLemmas

set_option linter.unusedSectionVars false

/-! # Lemmas about closure and follow -/

namespace Verif.Auto

variable {C : Type} [CharSetLike C]

/-- Bit `i` is set. -/
def B (s : Bits) (i : Nat) : Prop := s[i]? = some true

theorem B.lt {s : Bits} {i : Nat} (h : B s i) : i < s.length := (List.getElem?_eq_some_iff.mp h).1

theorem B_set {s : Bits} {j i : Nat} (h : j < s.length) : B (s.set j true) i ↔ B s i ∨ i = j := by
  unfold B
  rw [List.getElem?_set]
  by_cases hij : j = i
  · subst hij; simp [h]
  · have : ¬ i = j := fun h => hij h.symm
    simp [hij, this]

theorem B_replicate {n i : Nat} : ¬ B (List.replicate n false) i := by
  unfold B; rw [List.getElem?_replicate]; split <;> simp

theorem single_spec {n j : Nat} (h : j < n) : ∃ s, single n j = some s ∧ s.length = n ∧ ∀ i, B s i ↔ i = j := by
  refine ⟨_, by rw [single, if_pos h], by simp, fun i => ?_⟩
  rw [B_set (by simpa using h)]
  simp [B_replicate]

theorem bits_ext {s t : Bits} (hl : s.length = t.length) (h : ∀ i, B s i ↔ B t i) : s = t := by
  refine List.ext_getElem hl fun i h1 h2 => ?_
  have := h i
  simp only [B, List.getElem?_eq_getElem h1, List.getElem?_eq_getElem h2, Option.some.injEq] at this
  exact Bool.eq_iff_iff.mpr this

/-! ### Closure -/

theorem scan_spec (p : C → Bool) (es : List (C × Nat)) (s : Bits) (todo : List Nat)
    (h : ∀ c j, (c, j) ∈ es → j < s.length) :
    ∃ s' todo', scan p es s todo = some (s', todo') ∧ s'.length = s.length ∧
      (∀ i, B s' i ↔ B s i ∨ ∃ c, (c, i) ∈ es ∧ p c = true) ∧
      (∀ i, i ∈ todo' ↔ i ∈ todo ∨ (¬ B s i ∧ ∃ c, (c, i) ∈ es ∧ p c = true)) := by
  induction es generalizing s todo with
  | nil => exact ⟨s, todo, rfl, rfl, by simp, by simp⟩
  | cons e es ih =>
    obtain ⟨c, j⟩ := e
    simp only [scan]
    by_cases hc : p c = true
    · rw [if_pos hc]
      have hj := h c j List.mem_cons_self
      cases hb : s[j] with
      | true =>
        have hs : s[j]? = some true := by rw [List.getElem?_eq_getElem hj, hb]
        rw [hs]
        obtain ⟨s', todo', h1, h2, h3, h4⟩ := ih s todo fun c j hm => h c j (List.mem_cons_of_mem _ hm)
        refine ⟨s', todo', h1, h2, fun i => ?_, fun i => ?_⟩
        · rw [h3]
          constructor
          · rintro (h | ⟨c', hm, he⟩)
            · exact Or.inl h
            · exact Or.inr ⟨c', List.mem_cons_of_mem _ hm, he⟩
          · rintro (h | ⟨c', hm, he⟩)
            · exact Or.inl h
            · rcases List.mem_cons.mp hm with heq | hm
              · simp only [Prod.mk.injEq] at heq; obtain ⟨rfl, rfl⟩ := heq; exact Or.inl hs
              · exact Or.inr ⟨c', hm, he⟩
        · rw [h4]
          constructor
          · rintro (h | ⟨hn, c', hm, he⟩)
            · exact Or.inl h
            · exact Or.inr ⟨hn, c', List.mem_cons_of_mem _ hm, he⟩
          · rintro (h | ⟨hn, c', hm, he⟩)
            · exact Or.inl h
            · rcases List.mem_cons.mp hm with heq | hm
              · simp only [Prod.mk.injEq] at heq; obtain ⟨rfl, rfl⟩ := heq; exact absurd hs hn
              · exact Or.inr ⟨hn, c', hm, he⟩
      | false =>
        have hs : s[j]? = some false := by rw [List.getElem?_eq_getElem hj, hb]
        have hnb : ¬ B s j := by unfold B; rw [hs]; simp
        rw [hs]
        obtain ⟨s', todo', h1, h2, h3, h4⟩ := ih (s.set j true) (j :: todo)
          fun c j hm => by simpa using h c j (List.mem_cons_of_mem _ hm)
        refine ⟨s', todo', h1, by simpa using h2, fun i => ?_, fun i => ?_⟩
        · rw [h3, B_set hj]
          constructor
          · rintro ((h | rfl) | ⟨c', hm, he⟩)
            · exact Or.inl h
            · exact Or.inr ⟨c, List.mem_cons_self, hc⟩
            · exact Or.inr ⟨c', List.mem_cons_of_mem _ hm, he⟩
          · rintro (h | ⟨c', hm, he⟩)
            · exact Or.inl (Or.inl h)
            · rcases List.mem_cons.mp hm with heq | hm
              · simp only [Prod.mk.injEq] at heq; exact Or.inl (Or.inr heq.2)
              · exact Or.inr ⟨c', hm, he⟩
        · rw [h4, B_set hj]
          constructor
          · rintro (h | ⟨hn, c', hm, he⟩)
            · rcases List.mem_cons.mp h with rfl | h
              · exact Or.inr ⟨hnb, c, List.mem_cons_self, hc⟩
              · exact Or.inl h
            · exact Or.inr ⟨fun hb => hn (Or.inl hb), c', List.mem_cons_of_mem _ hm, he⟩
          · rintro (h | ⟨hn, c', hm, he⟩)
            · exact Or.inl (List.mem_cons_of_mem _ h)
            · by_cases hij : i = j
              · subst hij; exact Or.inl List.mem_cons_self
              · rcases List.mem_cons.mp hm with heq | hm
                · simp only [Prod.mk.injEq] at heq; exact absurd heq.2 hij
                · exact Or.inr ⟨fun hb => hb.elim hn hij, c', hm, he⟩
    · rw [if_neg hc]
      obtain ⟨s', todo', h1, h2, h3, h4⟩ := ih s todo fun c j hm => h c j (List.mem_cons_of_mem _ hm)
      have aux : ∀ i, (∃ c', (c', i) ∈ (c, j) :: es ∧ p c' = true) ↔
          ∃ c', (c', i) ∈ es ∧ p c' = true := by
        intro i
        constructor
        · rintro ⟨c', hm, he⟩
          rcases List.mem_cons.mp hm with heq | hm
          · simp only [Prod.mk.injEq] at heq; rw [heq.1] at he; exact absurd he hc
          · exact ⟨c', hm, he⟩
        · rintro ⟨c', hm, he⟩; exact ⟨c', List.mem_cons_of_mem _ hm, he⟩
      exact ⟨s', todo', h1, h2, fun i => by rw [h3, aux], fun i => by rw [h4, aux]⟩

/-- A set of states closed under epsilon transitions is closed under empty runs. -/
theorem run_nil_closed {rs : Rules C} {P : Nat → Prop}
    (h : ∀ i c j, P i → HasEdge rs i c j → CharSetLike.isEps c = true → P j) {i k : Nat} (hr : Run rs i [] k) (hi : P i) : P k := by
  generalize hw : ([] : List Nat) = w at hr
  induction hr with
  | nil => exact hi
  | eps e he _ ih => exact ih (h _ _ _ hi e he) hw
  | chr => cases hw

/-- Paths along transitions whose label satisfies `p`. -/
inductive Path (p : C → Bool) (rs : Rules C) : Nat → Nat → Prop
  | refl {i} : Path p rs i i
  | step {i c j k} : HasEdge rs i c j → p c = true → Path p rs j k → Path p rs i k

theorem Path.trans {p : C → Bool} {rs : Rules C} {i j k : Nat} (h : Path p rs i j) (h' : Path p rs j k) : Path p rs i k := by
  induction h with
  | refl => exact h'
  | step e he _ ih => exact .step e he (ih h')

theorem path_closed {p : C → Bool} {rs : Rules C} {P : Nat → Prop} (h : ∀ i c j, P i → HasEdge rs i c j → p c = true → P j)
    {i k : Nat} (hr : Path p rs i k) (hi : P i) : P k := by
  induction hr with
  | refl => exact hi
  | step e he _ ih => exact ih (h _ _ _ hi e he)

theorem path_eps {rs : Rules C} {i k : Nat} : Path CharSetLike.isEps rs i k ↔ Run rs i [] k := by
  constructor
  · intro h
    induction h with
    | refl => exact .nil
    | step e he _ ih => exact .eps e he ih
  · intro h
    exact run_nil_closed (P := fun k => Path CharSetLike.isEps rs i k) (fun a c b ha e he => ha.trans (.step e he .refl)) h .refl

theorem closureLoop_spec {p : C → Bool} {rs : Rules C} {N : Nat} (hsz : N ≤ rs.length) (ht : ∀ i c j, HasEdge rs i c j → j < N)
    (s : Bits) (todo : List Nat) (hl : s.length = N) (htodo : ∀ i ∈ todo, B s i)
    (hinv : ∀ i c j, B s i → i ∉ todo → HasEdge rs i c j → p c = true → B s j) :
    ∃ t, closureLoop p rs s todo = some t ∧ t.length = N ∧ (∀ i, B s i → B t i) ∧
      (∀ i, B t i → ∃ j, B s j ∧ Path p rs j i) ∧
      (∀ i c j, B t i → HasEdge rs i c j → p c = true → B t j) := by
  fun_induction closureLoop p rs s todo with
  | case1 s => exact ⟨s, rfl, hl, fun _ h => h, fun i h => ⟨i, h, .refl⟩, fun i c j hb => hinv i c j hb (by simp)⟩
  | case2 s x todo hx =>
    have := (htodo x List.mem_cons_self).lt
    rw [List.getElem?_eq_none_iff] at hx; omega
  | case3 s x todo es hx h =>
    obtain ⟨s', todo', h1, -⟩ := scan_spec p es s todo fun c j hm => by rw [hl]; exact ht x c j ⟨es, hx, hm⟩
    rw [h] at h1; cases h1
  | case4 s x todo es hx s' todo' h ih =>
    obtain ⟨s'', todo'', h1, h2, h3, h4⟩ := scan_spec p es s todo fun c j hm => by rw [hl]; exact ht x c j ⟨es, hx, hm⟩
    rw [h] at h1; cases h1
    obtain ⟨t, g1, g2, g3, g4, g5⟩ := ih (by omega)
      (fun i hi => by
        rw [h4] at hi; rw [h3]
        rcases hi with hi | ⟨_, hi⟩
        · exact Or.inl (htodo i (List.mem_cons_of_mem _ hi))
        · exact Or.inr hi)
      (fun i c j hb hn he hc => by
        rw [h3]
        rw [h4] at hn
        rw [h3] at hb
        have hbi : B s i := by
          rcases hb with hb | hb
          · exact hb
          · exact Classical.byContradiction fun hn' => hn (Or.inr ⟨hn', hb⟩)
        by_cases hix : i = x
        · subst hix
          obtain ⟨es', hes, hm⟩ := he
          rw [hx] at hes; cases hes
          exact Or.inr ⟨c, hm, hc⟩
        · refine Or.inl (hinv i c j hbi ?_ he hc)
          intro hm
          rcases List.mem_cons.mp hm with rfl | hm
          · exact hix rfl
          · exact hn (Or.inl hm))
    refine ⟨t, g1, g2, fun i hi => g3 i ((h3 i).mpr (Or.inl hi)), fun i hi => ?_, g5⟩
    obtain ⟨j, hj, hr⟩ := g4 i hi
    rw [h3] at hj
    rcases hj with hj | ⟨c, hm, hc⟩
    · exact ⟨j, hj, hr⟩
    · exact ⟨x, htodo x List.mem_cons_self, .step ⟨es, hx, hm⟩ hc hr⟩

theorem closure_spec {n : NFA C} (hn : n.WfM) {s : Bits} (hl : s.length = n.nstates) :
    ∃ t, n.closure s = some t ∧ t.length = n.nstates ∧ ∀ i, B t i ↔ ∃ j, B s j ∧ Run n.rules j [] i := by
  obtain ⟨t, g1, g2, g3, g4, g5⟩ := closureLoop_spec (p := CharSetLike.isEps) hn.size (fun i c j h => (hn.target i c j h).2) s
    ((List.range n.nstates).filter fun i => s[i]? == some true).reverse hl
    (fun i hi => by simp at hi; exact hi.2)
    (fun i c j hb hni he hc => by
      exfalso; apply hni; simp
      exact ⟨by rw [← hl]; exact hb.lt, hb⟩)
  refine ⟨t, by rw [NFA.closure, if_pos hl, g1], g2, fun i => ⟨fun hi => ?_, ?_⟩⟩
  · obtain ⟨j, hj, hr⟩ := g4 i hi
    exact ⟨j, hj, path_eps.mp hr⟩
  · rintro ⟨j, hj, hr⟩
    exact run_nil_closed g5 hr (g3 j hj)

/-! ### Follow -/

theorem vecUnion_spec {a b : Bits} {N : Nat} (ha : a.length = N) (hb : b.length = N) :
    ∃ v, vecUnion a b = some v ∧ v.length = N ∧ ∀ i, B v i ↔ B a i ∨ B b i := by
  refine ⟨_, by rw [vecUnion, if_pos (by omega)], by simp; omega, fun i => ?_⟩
  unfold B
  rw [List.getElem?_zipWith]
  by_cases h : i < N
  · rw [List.getElem?_eq_getElem (by omega), List.getElem?_eq_getElem (by omega)]
    simp
  · rw [List.getElem?_eq_none (by omega), List.getElem?_eq_none (by omega)]
    simp

/-- What a list of pairs says: on character `x` one may go to state `k`. -/
def Move (pr : Pairs C) (x k : Nat) : Prop :=
  ∃ e ∈ pr, CharSetLike.isEps e.1 = false ∧ CharSetLike.accepts e.1 x = true ∧ B e.2 k

/-- All arrays that matter have the right size. -/
def Sized (N : Nat) (pr : Pairs C) : Prop := ∀ e ∈ pr, CharSetLike.isEps e.1 = false → e.2.length = N

theorem Move.perm {a b : Pairs C} (h : a.Perm b) (x k : Nat) : Move a x k ↔ Move b x k := by
  unfold Move; simp only [h.mem_iff]

theorem newPairs_mem {a b e : C × Bits} {v : Bits} : e ∈ newPairs a b v ↔
    e = (CharSetLike.inter a.1 b.1, v) ∨
    (CharSetLike.empty (CharSetLike.diff a.1 (CharSetLike.inter a.1 b.1)) = false ∧
      e = (CharSetLike.diff a.1 (CharSetLike.inter a.1 b.1), a.2)) ∨
    (CharSetLike.empty (CharSetLike.diff b.1 (CharSetLike.inter a.1 b.1)) = false ∧
      e = (CharSetLike.diff b.1 (CharSetLike.inter a.1 b.1), b.2)) := by
  unfold newPairs
  simp only [List.mem_cons, List.mem_append]
  refine or_congr_right (or_congr ?_ ?_)
  · split <;> simp_all
  · split <;> simp_all

theorem not_empty_of_accepts {c : C} {x : Nat} (h : CharSetLike.accepts c x = true) : CharSetLike.empty c = false := by
  cases he : CharSetLike.empty c
  · rfl
  · rw [CharSetLike.empty_iff] at he; rw [he x] at h; cases h

theorem newPairs_move {a b : C × Bits} {v : Bits} {N : Nat} (ha : CharSetLike.isEps a.1 = false) (hb : CharSetLike.isEps b.1 = false)
    (hla : a.2.length = N) (hlb : b.2.length = N) (hv : vecUnion a.2 b.2 = some v) (x k : Nat) :
    Move (newPairs a b v) x k ↔ Move [a, b] x k := by
  obtain ⟨v', h1, h2, h3⟩ := vecUnion_spec hla hlb
  rw [hv] at h1; cases h1
  have hi := CharSetLike.inter_eps a.1 b.1 ha hb
  have hd1 := CharSetLike.diff_eps a.1 _ ha hi
  have hd2 := CharSetLike.diff_eps b.1 _ hb hi
  unfold Move
  simp only [newPairs_mem, List.mem_cons, List.not_mem_nil, or_false]
  constructor
  · rintro ⟨e, (rfl | ⟨_, rfl⟩ | ⟨_, rfl⟩), he, hx, hk⟩
    · simp only [CharSetLike.accepts_inter, Bool.and_eq_true] at hx
      rcases (h3 k).mp hk with hk | hk
      · exact ⟨a, Or.inl rfl, ha, hx.1, hk⟩
      · exact ⟨b, Or.inr rfl, hb, hx.2, hk⟩
    · simp only [CharSetLike.accepts_diff, Bool.and_eq_true] at hx
      exact ⟨a, Or.inl rfl, ha, hx.1, hk⟩
    · simp only [CharSetLike.accepts_diff, Bool.and_eq_true] at hx
      exact ⟨b, Or.inr rfl, hb, hx.1, hk⟩
  · rintro ⟨e, (rfl | rfl), he, hx, hk⟩
    · by_cases hxb : CharSetLike.accepts b.1 x = true
      · exact ⟨_, Or.inl rfl, hi, by simp [CharSetLike.accepts_inter, hx, hxb], (h3 k).mpr (Or.inl hk)⟩
      · have : CharSetLike.accepts (CharSetLike.diff e.1 (CharSetLike.inter e.1 b.1)) x = true := by
          simp [CharSetLike.accepts_diff, CharSetLike.accepts_inter, hx, hxb]
        exact ⟨_, Or.inr (Or.inl ⟨not_empty_of_accepts this, rfl⟩), hd1, this, hk⟩
    · by_cases hxa : CharSetLike.accepts a.1 x = true
      · exact ⟨_, Or.inl rfl, hi, by simp [CharSetLike.accepts_inter, hx, hxa], (h3 k).mpr (Or.inr hk)⟩
      · have : CharSetLike.accepts (CharSetLike.diff e.1 (CharSetLike.inter a.1 e.1)) x = true := by
          simp [CharSetLike.accepts_diff, CharSetLike.accepts_inter, hx, hxa]
        exact ⟨_, Or.inr (Or.inr ⟨not_empty_of_accepts this, rfl⟩), hd2, this, hk⟩

theorem Move.append {a b : Pairs C} {x k : Nat} : Move (a ++ b) x k ↔ Move a x k ∨ Move b x k := by
  unfold Move
  simp only [List.mem_append]
  constructor
  · rintro ⟨e, h | h, r⟩
    · exact Or.inl ⟨e, h, r⟩
    · exact Or.inr ⟨e, h, r⟩
  · rintro (⟨e, h, r⟩ | ⟨e, h, r⟩)
    · exact ⟨e, Or.inl h, r⟩
    · exact ⟨e, Or.inr h, r⟩

/-- Labels are non-empty where the original ones were. -/
def NonEmpty (pr : Pairs C) : Prop := ∀ e ∈ pr, CharSetLike.isEps e.1 = false → CharSetLike.empty e.1 = false

theorem refine_spec {N : Nat} (pr : Pairs C) (hs : Sized N pr) :
    ∃ pr', refine pr = some pr' ∧ Sized N pr' ∧ (∀ x k, Move pr' x k ↔ Move pr x k) ∧
      (∀ i j, j < i → overlap pr' i j = false) ∧ (NonEmpty pr → NonEmpty pr') ∧
      (∀ e ∈ pr', CharSetLike.isEps e.1 = false → (∃ k, B e.2 k) ∨ ∃ e ∈ pr, CharSetLike.isEps e.1 = false ∧ ¬ ∃ k, B e.2 k) := by
  fun_induction refine pr with
  | case1 pr h => exact ⟨pr, rfl, hs, fun _ _ => Iff.rfl, fun i j hij => findPair_none h hij, fun h => h, fun e he hc => by
      by_cases hk : ∃ k, B e.2 k
      · exact Or.inl hk
      · exact Or.inr ⟨e, he, hc, hk⟩⟩
  | case2 pr i j h h' =>
    exfalso
    obtain ⟨hij, ho⟩ := findPair_some h
    obtain ⟨a, b, ha, hb, ea, eb, he⟩ := overlap_iff.mp ho
    obtain ⟨v, hv, -⟩ := vecUnion_spec (hs a (List.mem_of_getElem? ha) ea) (hs b (List.mem_of_getElem? hb) eb)
    obtain ⟨pr'', rest, e1, -⟩ := splitPair_perm hij ha hb hv
    rw [h'] at e1; cases e1
  | case3 pr i j h pr1 h' ih =>
    obtain ⟨hij, ho⟩ := findPair_some h
    obtain ⟨a, b, ha, hb, ea, eb, he⟩ := overlap_iff.mp ho
    have la := hs a (List.mem_of_getElem? ha) ea
    have lb := hs b (List.mem_of_getElem? hb) eb
    obtain ⟨v, hv, hvl, hvB⟩ := vecUnion_spec la lb
    obtain ⟨pr'', rest, e1, p1, p2⟩ := splitPair_perm hij ha hb hv
    rw [h'] at e1; cases e1
    obtain ⟨pr', g1, g2, g3, g4, g5, g6⟩ := ih (fun e hm hc => by
      rw [p2.mem_iff, List.mem_append, newPairs_mem] at hm
      rcases hm with (rfl | ⟨_, rfl⟩ | ⟨_, rfl⟩) | hm
      · exact hvl
      · exact la
      · exact lb
      · exact hs e (p1.mem_iff.mpr (by simp [hm])) hc)
    refine ⟨pr', g1, g2, fun x k => ?_, g4, fun hne => g5 fun e hm hc => ?_, fun e hm hc => ?_⟩
    · rw [g3, Move.perm p2, Move.perm p1, Move.append, newPairs_move ea eb la lb hv, ← Move.append]
      rfl
    · rw [p2.mem_iff, List.mem_append, newPairs_mem] at hm
      rcases hm with (rfl | ⟨hh, rfl⟩ | ⟨hh, rfl⟩) | hm
      · exact he
      · exact hh
      · exact hh
      · exact hne e (p1.mem_iff.mpr (by simp [hm])) hc
    · rcases g6 e hm hc with h | ⟨e', hm', hc', hk'⟩
      · exact Or.inl h
      · refine Or.inr ?_
        rw [p2.mem_iff, List.mem_append, newPairs_mem] at hm'
        rcases hm' with (rfl | ⟨hh, rfl⟩ | ⟨hh, rfl⟩) | hm'
        · refine ⟨a, p1.mem_iff.mpr (by simp), ea, ?_⟩
          rintro ⟨k, hk⟩; exact hk' ⟨k, (hvB k).mpr (Or.inl hk)⟩
        · exact ⟨a, p1.mem_iff.mpr (by simp), ea, hk'⟩
        · exact ⟨b, p1.mem_iff.mpr (by simp), eb, hk'⟩
        · exact ⟨e', p1.mem_iff.mpr (by simp [hm']), hc', hk'⟩

end Verif.Auto
