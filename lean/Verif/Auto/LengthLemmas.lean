import Verif.Auto.Length
import Verif.Auto.SuccLemmas

set_option linter.unusedSectionVars false

/-! # Lemmas about the checks -/

namespace Verif.Auto

variable {C : Type} [CharSetLike C]

/-! ### Searching -/

theorem searchLoop_spec {p : C → Bool} {rs : Rules C} {acc : Nat} (s : Bits) (todo : List Nat) {t : Bits}
    (hc : closureLoop p rs s todo = some t) (hsub : ∀ i, B s i → B t i) (htodo : ∀ i ∈ todo, B s i)
    (hinv : ∀ i, B s i → acc ≤ i → i ∈ todo)
    (hmono : ∀ i c j, B t i → HasEdge rs i c j → p c = true → B t j) (hlen : ∀ i c j, HasEdge rs i c j → j < s.length) :
    ∃ b, searchLoop p rs acc s todo = some b ∧ (b = true ↔ ∃ i, acc ≤ i ∧ B t i) := by
  fun_induction closureLoop p rs s todo with
  | case1 s =>
    cases hc
    refine ⟨false, by simp [searchLoop], ?_⟩
    simp only [Bool.false_eq_true, false_iff]
    rintro ⟨i, h1, h2⟩
    exact absurd (hinv i h2 h1) (by simp)
  | case2 => cases hc
  | case3 => cases hc
  | case4 s x todo es hx s' todo' h ih =>
    rw [searchLoop]
    by_cases hax : acc ≤ x
    · exact ⟨true, by rw [if_pos hax], by simp; exact ⟨x, hax, hsub x (htodo x List.mem_cons_self)⟩⟩
    · rw [if_neg hax]
      obtain ⟨s'', todo'', h1, h2, h3, h4⟩ := scan_spec p es s todo fun c j hm => hlen x c j ⟨es, hx, hm⟩
      rw [h] at h1; cases h1
      have hbx := htodo x List.mem_cons_self
      obtain ⟨b, b1, b2⟩ := ih hc
        (fun i hi => by
          rw [h3] at hi
          rcases hi with hi | ⟨c, hm, hp⟩
          · exact hsub i hi
          · exact hmono x c i (hsub x hbx) ⟨es, hx, hm⟩ hp)
        (fun i hi => by
          rw [h4] at hi; rw [h3]
          rcases hi with hi | ⟨_, hi⟩
          · exact Or.inl (htodo i (List.mem_cons_of_mem _ hi))
          · exact Or.inr hi)
        (fun i hi hia => by
          rw [h4]
          by_cases hbi : B s i
          · left
            rcases List.mem_cons.mp (hinv i hbi hia) with rfl | hm
            · exact absurd hia hax
            · exact hm
          · rw [h3] at hi
            exact Or.inr ⟨hbi, hi.resolve_left hbi⟩)
        (fun i c j he => by rw [h2]; exact hlen i c j he)
      refine ⟨b, ?_, b2⟩
      simp only [hx]
      split
      · rename_i h'; rw [h] at h'; cases h'
      · rename_i h'; rw [h] at h'; cases h'; exact b1

theorem search_spec {p : C → Bool} {n : NFA C} (hn : n.WfM) :
    ∃ s b, single n.nstates 0 = some s ∧ searchLoop p n.rules n.accept s [0] = some b ∧
      (b = true ↔ ∃ i, n.accept ≤ i ∧ Path p n.rules 0 i) := by
  obtain ⟨s, h1, h2, h3⟩ := single_spec hn.start
  obtain ⟨t, g1, g2, g3, g4, g5⟩ := closureLoop_spec (p := p) hn.size (fun i c j h => (hn.target i c j h).2) s [0] h2
    (fun i hi => by simp at hi; subst hi; exact (h3 0).mpr rfl)
    (fun i c j hb hni => by rw [h3] at hb; simp [hb] at hni)
  obtain ⟨b, b1, b2⟩ := searchLoop_spec (acc := n.accept) s [0] g1 g3 (fun i hi => by simp at hi; subst hi; exact (h3 0).mpr rfl)
    (fun i hi _ => by rw [h3] at hi; simp [hi]) g5 (fun i c j he => by rw [h2]; exact (hn.target i c j he).2)
  refine ⟨s, b, h1, b1, ?_⟩
  rw [b2]
  constructor
  · rintro ⟨i, hi, hB⟩
    obtain ⟨j, hj, hp⟩ := g4 i hB
    rw [h3] at hj; subst hj
    exact ⟨i, hi, hp⟩
  · rintro ⟨i, hi, hp⟩
    exact ⟨i, hi, path_closed g5 hp (g3 0 ((h3 0).mpr rfl))⟩

/-! ### Paths and words -/

/-- Paths with their number of characters, from state 0, extended at the end. -/
inductive From (rs : Rules C) : Nat → Nat → Prop
  | start : From rs 0 0
  | eps {n z c v} : From rs n z → HasEdge rs z c v → CharSetLike.isEps c = true → From rs n v
  | chr {n z c v} : From rs n z → HasEdge rs z c v → CharSetLike.isEps c = false → From rs (n + 1) v

theorem run_from {rs : Rules C} {i k : Nat} {w : List Nat} (h : Run rs i w k) : ∀ n, From rs n i → From rs (n + w.length) k := by
  induction h with
  | nil => intro n hn; exact hn
  | eps e he _ ih => intro n hn; exact ih n (.eps hn e he)
  | chr e he _ _ ih =>
    intro n hn
    have := ih (n + 1) (.chr hn e he)
    rw [List.length_cons, Nat.add_comm _ 1, ← Nat.add_assoc]; exact this

theorem run_snoc_eps {rs : Rules C} {i k j : Nat} {c : C} {w : List Nat} (h : Run rs i w k) (e : HasEdge rs k c j) (he : CharSetLike.isEps c = true) :
    Run rs i w j := by
  induction h with
  | nil => exact .eps e he .nil
  | eps e' he' _ ih => exact .eps e' he' (ih e)
  | chr e' he' ha _ ih => exact .chr e' he' ha (ih e)

theorem run_snoc_chr {rs : Rules C} {i k j x : Nat} {c : C} {w : List Nat} (h : Run rs i w k) (e : HasEdge rs k c j) (he : CharSetLike.isEps c = false)
    (hx : CharSetLike.accepts c x = true) : Run rs i (w ++ [x]) j := by
  induction h with
  | nil => exact .chr e he hx .nil
  | eps e' he' _ ih => exact .eps e' he' (ih e)
  | chr e' he' ha _ ih => exact .chr e' he' ha (ih e)

theorem exists_accepted {c : C} (h : CharSetLike.empty c = false) : ∃ x, CharSetLike.accepts c x = true := by
  refine Classical.byContradiction fun hn => ?_
  have : CharSetLike.empty c = true := (CharSetLike.empty_iff c).mpr fun x => by
    cases hx : CharSetLike.accepts c x
    · rfl
    · exact absurd ⟨x, hx⟩ hn
  rw [h] at this; cases this

theorem from_run {rs : Rules C} (hne : NoEmpty rs) {n k : Nat} (h : From rs n k) : ∃ w, w.length = n ∧ Run rs 0 w k := by
  induction h with
  | start => exact ⟨[], rfl, .nil⟩
  | eps _ e he ih => obtain ⟨w, h1, h2⟩ := ih; exact ⟨w, h1, run_snoc_eps h2 e he⟩
  | chr _ e he ih =>
    obtain ⟨w, h1, h2⟩ := ih
    obtain ⟨x, hx⟩ := exists_accepted (hne _ _ _ e he)
    exact ⟨w ++ [x], by simp [h1], run_snoc_chr h2 e he hx⟩

theorem from_path {rs : Rules C} {n k : Nat} (h : From rs n k) : Path (fun _ => true) rs 0 k := by
  induction h with
  | start => exact .refl
  | eps _ e _ ih => exact ih.trans (.step e rfl .refl)
  | chr _ e _ ih => exact ih.trans (.step e rfl .refl)

theorem path_from {rs : Rules C} {i k : Nat} (h : Path (fun _ => true) rs i k) : ∀ n, From rs n i → ∃ m, From rs m k := by
  induction h with
  | refl => intro n hn; exact ⟨n, hn⟩
  | @step i c j k e _ _ ih =>
    intro n hn
    cases hc : CharSetLike.isEps c
    · exact ih _ (.chr hn e hc)
    · exact ih _ (.eps hn e hc)

/-- Words of an automaton, by paths. -/
theorem lang_from {n : NFA C} (hn : n.WfM) (hne : NoEmpty n.rules) (m : Nat) :
    (∃ w, n.Lang w ∧ w.length = m) ↔ ∃ k, n.accept ≤ k ∧ k < n.nstates ∧ From n.rules m k := by
  constructor
  · rintro ⟨w, ⟨k, hk, hr⟩, rfl⟩
    have := run_from hr 0 .start
    rw [Nat.zero_add] at this
    exact ⟨n.accept + k, by omega, hk, this⟩
  · rintro ⟨k, h1, h2, h3⟩
    obtain ⟨w, hw, hr⟩ := from_run hne h3
    exact ⟨w, ⟨k - n.accept, by rw [NFA.LangAt, show n.accept + (k - n.accept) = k by omega]; exact ⟨h2, hr⟩⟩, hw⟩

theorem path_lt {n : NFA C} (hn : n.WfM) {p : C → Bool} {i k : Nat} (h : Path p n.rules i k) (hi : i < n.nstates) : k < n.nstates := by
  induction h with
  | refl => exact hi
  | step e _ _ ih => exact ih (hn.target _ _ _ e).2

/-! ### `minLength` -/

/-- Paths from 0 avoiding `v`. -/
inductive Avoid (rs : Rules C) (v : Nat) : Nat → Prop
  | start : 0 ≠ v → Avoid rs v 0
  | step {z c u} : Avoid rs v z → HasEdge rs z c u → u ≠ v → Avoid rs v u

theorem Avoid.ne {rs : Rules C} {v u : Nat} (h : Avoid rs v u) : u ≠ v := by cases h <;> assumption

/-- All first arrivals at a state are by transitions of the same kind. -/
def Tidy (rs : Rules C) : Prop := ∀ v z c z' c', Avoid rs v z → HasEdge rs z c v → Avoid rs v z' → HasEdge rs z' c' v →
  CharSetLike.isEps c = CharSetLike.isEps c'

/-- The first arrival of a path. -/
theorem first_arrival {rs : Rules C} {v : Nat} (h0 : 0 ≠ v) {n x : Nat} (h : From rs n x) :
    Avoid rs v x ∨ ∃ m z c, From rs m z ∧ Avoid rs v z ∧ HasEdge rs z c v ∧ (if CharSetLike.isEps c then m else m + 1) ≤ n := by
  induction h with
  | start => exact Or.inl (.start h0)
  | @eps n z c u hf e he ih =>
    rcases ih with ha | ih
    · by_cases hu : u = v
      · subst hu; exact Or.inr ⟨n, z, c, hf, ha, e, by simp [he]⟩
      · exact Or.inl (.step ha e hu)
    · exact Or.inr ih
  | @chr n z c u hf e he ih =>
    rcases ih with ha | ⟨m, y, d, h1, h2, h3, h4⟩
    · by_cases hu : u = v
      · subst hu; exact Or.inr ⟨n, z, c, hf, ha, e, by simp [he]⟩
      · exact Or.inl (.step ha e hu)
    · exact Or.inr ⟨m, y, d, h1, h2, h3, by omega⟩

/-- One expansion. -/
theorem scan2_spec (es : List (C × Nat)) : ∀ (s : Bits) (t0 t1 : List Nat), (∀ c j, (c, j) ∈ es → j < s.length) →
    ∃ s' n0 n1, scan2 es s t0 t1 = some (s', t0 ++ n0, t1 ++ n1) ∧ s'.length = s.length ∧
      (∀ i, B s' i ↔ B s i ∨ i ∈ n0 ∨ i ∈ n1) ∧
      (∀ c j, (c, j) ∈ es → B s' j) ∧
      (∀ i ∈ n0, ¬ B s i ∧ ∃ c, (c, i) ∈ es ∧ CharSetLike.isEps c = true) ∧
      (∀ i ∈ n1, ¬ B s i ∧ ∃ c, (c, i) ∈ es ∧ CharSetLike.isEps c = false) := by
  induction es with
  | nil => intro s t0 t1 _; exact ⟨s, [], [], by simp [scan2], rfl, by simp, by simp, by simp, by simp⟩
  | cons e es ih =>
    intro s t0 t1 h
    obtain ⟨c, j⟩ := e
    have hj := h c j List.mem_cons_self
    simp only [scan2]
    cases hb : s[j] with
    | true =>
      have hs : s[j]? = some true := by rw [List.getElem?_eq_getElem hj, hb]
      rw [hs]
      obtain ⟨s', n0, n1, h1, h2, h3, h4, h5, h6⟩ := ih s t0 t1 fun c j hm => h c j (List.mem_cons_of_mem _ hm)
      refine ⟨s', n0, n1, h1, h2, h3, ?_, ?_, ?_⟩
      · intro c' j' hm
        rcases List.mem_cons.mp hm with heq | hm
        · cases heq; exact (h3 j).mpr (Or.inl hs)
        · exact h4 c' j' hm
      · intro i hi; obtain ⟨a, c', b, d⟩ := h5 i hi; exact ⟨a, c', List.mem_cons_of_mem _ b, d⟩
      · intro i hi; obtain ⟨a, c', b, d⟩ := h6 i hi; exact ⟨a, c', List.mem_cons_of_mem _ b, d⟩
    | false =>
      have hs : s[j]? = some false := by rw [List.getElem?_eq_getElem hj, hb]
      have hnb : ¬ B s j := by unfold B; rw [hs]; simp
      rw [hs]
      have hlen : ∀ c' j', (c', j') ∈ es → j' < (s.set j true).length := fun c' j' hm => by
        simpa using h c' j' (List.mem_cons_of_mem _ hm)
      cases hc : CharSetLike.isEps c with
      | true =>
        simp only [if_true]
        obtain ⟨s', n0, n1, h1, h2, h3, h4, h5, h6⟩ := ih (s.set j true) (t0 ++ [j]) t1 hlen
        refine ⟨s', j :: n0, n1, by rw [h1]; simp, by simpa using h2, ?_, ?_, ?_, ?_⟩
        · intro i; rw [h3, B_set hj, List.mem_cons]; constructor
          · rintro ((a | a) | a | a) <;> simp [a]
          · rintro (a | (a | a) | a) <;> simp [a]
        · intro c' j' hm
          rcases List.mem_cons.mp hm with heq | hm
          · cases heq; exact (h3 j).mpr (Or.inl ((B_set hj).mpr (Or.inr rfl)))
          · exact h4 c' j' hm
        · intro i hi
          rcases List.mem_cons.mp hi with rfl | hi
          · exact ⟨hnb, c, List.mem_cons_self, hc⟩
          · obtain ⟨a, c', b, d⟩ := h5 i hi
            exact ⟨fun hB => a ((B_set hj).mpr (Or.inl hB)), c', List.mem_cons_of_mem _ b, d⟩
        · intro i hi
          obtain ⟨a, c', b, d⟩ := h6 i hi
          exact ⟨fun hB => a ((B_set hj).mpr (Or.inl hB)), c', List.mem_cons_of_mem _ b, d⟩
      | false =>
        simp only [Bool.false_eq_true, if_false]
        obtain ⟨s', n0, n1, h1, h2, h3, h4, h5, h6⟩ := ih (s.set j true) t0 (t1 ++ [j]) hlen
        refine ⟨s', n0, j :: n1, by rw [h1]; simp, by simpa using h2, ?_, ?_, ?_, ?_⟩
        · intro i; rw [h3, B_set hj, List.mem_cons]; constructor
          · rintro ((a | a) | a | a) <;> simp [a]
          · rintro (a | a | (a | a)) <;> simp [a]
        · intro c' j' hm
          rcases List.mem_cons.mp hm with heq | hm
          · cases heq; exact (h3 j).mpr (Or.inl ((B_set hj).mpr (Or.inr rfl)))
          · exact h4 c' j' hm
        · intro i hi
          obtain ⟨a, c', b, d⟩ := h5 i hi
          exact ⟨fun hB => a ((B_set hj).mpr (Or.inl hB)), c', List.mem_cons_of_mem _ b, d⟩
        · intro i hi
          rcases List.mem_cons.mp hi with rfl | hi
          · exact ⟨hnb, c, List.mem_cons_self, hc⟩
          · obtain ⟨a, c', b, d⟩ := h6 i hi
            exact ⟨fun hB => a ((B_set hj).mpr (Or.inl hB)), c', List.mem_cons_of_mem _ b, d⟩

/-- Invariant of `minLenLoop`; `P` are the states taken from the queue so far. -/
structure MinInv (rs : Rules C) (acc : Nat) (P : Nat → Prop) (s : Bits) (len : Nat) (t0 t1 : List Nat) : Prop where
  vis : ∀ i, B s i ↔ P i ∨ i ∈ t0 ∨ i ∈ t1
  zero : B s 0
  q0 : ∀ i ∈ t0, From rs len i ∧ ∀ m < len, ¬ From rs m i
  q1 : ∀ i ∈ t1, From rs (len + 1) i ∧ ∀ m ≤ len, ¬ From rs m i
  done : ∀ i, P i → i < acc ∧ ∀ c j, HasEdge rs i c j → B s j
  below : ∀ m i, m < len → From rs m i → P i
  avoid : ∀ u v, B s u → ¬ B s v → Avoid rs v u

/-- What the result means. -/
def MinRes (rs : Rules C) (acc : Nat) : Option Nat → Prop
  | none => ∀ m i, From rs m i → i < acc
  | some n => (∃ i, acc ≤ i ∧ From rs n i) ∧ ∀ m i, acc ≤ i → From rs m i → n ≤ m

theorem minLenLoop_spec {rs : Rules C} {acc N : Nat} (hsz : N ≤ rs.length) (ht : ∀ i c j, HasEdge rs i c j → j < N) (htidy : Tidy rs)
    (s : Bits) (len : Nat) (t0 t1 : List Nat) (hl : s.length = N) (P : Nat → Prop) (h : MinInv rs acc P s len t0 t1) (hne : t0 = [] → t1 = []) :
    ∃ r, minLenLoop rs acc s len t0 t1 = some r ∧ MinRes rs acc r := by
  fun_induction minLenLoop rs acc s len t0 t1 generalizing P with
  | case1 s len t1 =>
    refine ⟨none, rfl, ?_⟩
    have h1 := hne rfl
    subst h1
    have : ∀ m i, From rs m i → P i := by
      intro m i hf
      induction hf with
      | start => exact ((h.vis 0).mp h.zero).resolve_right (by simp)
      | eps _ e _ ih => exact ((h.vis _).mp ((h.done _ ih).2 _ _ e)).resolve_right (by simp)
      | chr _ e _ ih => exact ((h.vis _).mp ((h.done _ ih).2 _ _ e)).resolve_right (by simp)
    exact fun m i hf => (h.done i (this m i hf)).1
  | case2 s len t1 x t0 hx =>
    refine ⟨some len, rfl, ⟨x, hx, (h.q0 x List.mem_cons_self).1⟩, fun m i hi hf => ?_⟩
    refine Classical.byContradiction fun hlt => ?_
    have := (h.done i (h.below m i (by omega) hf)).1
    omega
  | case3 s len t1 x t0 hx hr =>
    have := ((h.vis x).mpr (Or.inr (Or.inl List.mem_cons_self))).lt
    rw [List.getElem?_eq_none_iff] at hr; omega
  | case4 s len t1 x t0 hx es hr hsc =>
    obtain ⟨s', n0, n1, h1, -⟩ := scan2_spec es s t0 t1 fun c j hm => by rw [hl]; exact ht x c j ⟨es, hr, hm⟩
    rw [hsc] at h1; cases h1
  | case5 s len t1 x t0 hx es hr s' t1' hsc ih =>
    obtain ⟨s2, n0, n1, h1, h2, h3, h4, h5, h6⟩ := scan2_spec es s t0 t1 fun c j hm => by rw [hl]; exact ht x c j ⟨es, hr, hm⟩
    rw [hsc] at h1
    simp only [Option.some.injEq, Prod.mk.injEq] at h1
    obtain ⟨e1, e2, e3⟩ := h1
    have hn := minInv_step htidy h hr (by omega) h3 h4 h5 h6
    rw [← e2, ← e3, ← e1] at hn
    refine ih (by rw [e1, h2, hl]) (fun i => P i ∨ i = x) ?_ (by simp)
    have key : ∀ m i, From rs m i → m ≤ len → P i ∨ i = x := by
      intro m i hf
      have fin : ∀ i m, From rs m i → m ≤ len → B s' i → P i ∨ i = x := by
        intro i m hf hm hB
        rcases (hn.vis i).mp hB with hP | hq | hq
        · exact hP
        · cases hq
        · exact absurd hf ((hn.q1 i hq).2 m hm)
      induction hf with
      | start => intro hm; exact fin 0 0 .start hm hn.zero
      | @eps m z c v hf e he ihf => intro hm; exact fin _ _ (.eps hf e he) hm ((hn.done _ (ihf hm)).2 _ _ e)
      | @chr m z c v hf e he ihf => intro hm; exact fin _ _ (.chr hf e he) hm ((hn.done _ (ihf (by omega))).2 _ _ e)
    refine ⟨fun i => ?_, hn.zero, ?_, by simp, hn.done, fun m i hm hf => key m i hf (by omega), hn.avoid⟩
    · rw [hn.vis]; simp
    · intro i hi
      obtain ⟨a, b⟩ := hn.q1 i hi
      exact ⟨a, fun m hm => b m (by omega)⟩
  | case6 s len t1 x t0 hx es hr s' y t0' t1' hsc ih =>
    obtain ⟨s2, n0, n1, h1, h2, h3, h4, h5, h6⟩ := scan2_spec es s t0 t1 fun c j hm => by rw [hl]; exact ht x c j ⟨es, hr, hm⟩
    rw [hsc] at h1
    simp only [Option.some.injEq, Prod.mk.injEq] at h1
    obtain ⟨e1, e2, e3⟩ := h1
    have hn := minInv_step htidy h hr (by omega) h3 h4 h5 h6
    rw [← e2, ← e3, ← e1] at hn
    exact ih (by rw [e1, h2, hl]) (fun i => P i ∨ i = x) hn (by simp)
where
  minInv_step {rs : Rules C} {acc : Nat} (htidy : Tidy rs) {P : Nat → Prop} {s s' : Bits} {len x : Nat} {t0 t1 n0 n1 : List Nat} {es : List (C × Nat)}
      (h : MinInv rs acc P s len (x :: t0) t1) (hr : rs[x]? = some es) (hx : x < acc)
      (h3 : ∀ i, B s' i ↔ B s i ∨ i ∈ n0 ∨ i ∈ n1) (h4 : ∀ c j, (c, j) ∈ es → B s' j)
      (h5 : ∀ i ∈ n0, ¬ B s i ∧ ∃ c, (c, i) ∈ es ∧ CharSetLike.isEps c = true)
      (h6 : ∀ i ∈ n1, ¬ B s i ∧ ∃ c, (c, i) ∈ es ∧ CharSetLike.isEps c = false) :
      MinInv rs acc (fun i => P i ∨ i = x) s' len (t0 ++ n0) (t1 ++ n1) := by
    have hBx : B s x := (h.vis x).mpr (Or.inr (Or.inl List.mem_cons_self))
    obtain ⟨fx, fmin⟩ := h.q0 x List.mem_cons_self
    have vis : ∀ i, B s' i ↔ (P i ∨ i = x) ∨ i ∈ t0 ++ n0 ∨ i ∈ t1 ++ n1 := by
      intro i
      rw [h3, h.vis]
      simp only [List.mem_cons, List.mem_append]
      grind
    refine ⟨vis, (h3 0).mpr (Or.inl h.zero), ?_, ?_, ?_, fun m i hm hf => Or.inl (h.below m i hm hf), ?_⟩
    · intro i hi
      rcases List.mem_append.mp hi with hi | hi
      · exact h.q0 i (List.mem_cons_of_mem _ hi)
      · obtain ⟨hnB, c, hm, hc⟩ := h5 i hi
        refine ⟨.eps fx ⟨es, hr, hm⟩ hc, fun m hm' hf => hnB ((h.vis i).mpr (Or.inl (h.below m i hm' hf)))⟩
    · intro i hi
      rcases List.mem_append.mp hi with hi | hi
      · exact h.q1 i hi
      · obtain ⟨hnB, c, hm, hc⟩ := h6 i hi
        refine ⟨.chr fx ⟨es, hr, hm⟩ hc, fun m hm' hf => ?_⟩
        have h0i : 0 ≠ i := fun h0 => hnB (h0 ▸ h.zero)
        rcases first_arrival h0i hf with ha | ⟨m', z, c', k1, k2, k3, k4⟩
        · exact ha.ne rfl
        · have := htidy i z c' x c k2 k3 (h.avoid x i hBx hnB) ⟨es, hr, hm⟩
          rw [hc] at this
          rw [this] at k4
          simp only [Bool.false_eq_true, if_false] at k4
          exact hnB ((h.done z (h.below m' z (by omega) k1)).2 _ _ k3)
    · rintro i (hP | rfl)
      · exact ⟨(h.done i hP).1, fun c j e => (h3 j).mpr (Or.inl ((h.done i hP).2 c j e))⟩
      · refine ⟨hx, ?_⟩
        rintro c j ⟨es', he, hm⟩
        rw [hr] at he; cases he
        exact h4 c j hm
    · intro u v hu hv
      have hv' : ¬ B s v := fun hB => hv ((h3 v).mpr (Or.inl hB))
      have hne : u ≠ v := by rintro rfl; exact hv hu
      by_cases hBu : B s u
      · exact h.avoid u v hBu hv'
      · have : ∃ c, (c, u) ∈ es := by
          rcases (h3 u).mp hu with hB | hi | hi
          · exact absurd hB hBu
          · obtain ⟨_, c, hm, _⟩ := h5 u hi; exact ⟨c, hm⟩
          · obtain ⟨_, c, hm, _⟩ := h6 u hi; exact ⟨c, hm⟩
        obtain ⟨c, hm⟩ := this
        exact .step (h.avoid x v hBx hv') ⟨es, hr, hm⟩ hne

theorem minLength_spec {n : NFA C} (hn : n.WfM) (htidy : Tidy n.rules) : ∃ r, n.minLength = some r ∧ MinRes n.rules n.accept r := by
  obtain ⟨s, h1, h2, h3⟩ := single_spec hn.start
  have h30 := (h3 0).mpr rfl
  obtain ⟨r, g1, g2⟩ := minLenLoop_spec (acc := n.accept) hn.size (fun i c j h => (hn.target i c j h).2) htidy s 0 [0] [] h2 (fun _ => False)
    ⟨fun i => by rw [h3]; simp, h30, by simp; exact .start, by simp, by simp, by simp, fun u v hu hv => by
      rw [h3] at hu hv; subst hu; exact .start fun h => hv h.symm⟩ (by simp)
  exact ⟨r, by simp [NFA.minLength, h1, g1], g2⟩

end Verif.Auto
