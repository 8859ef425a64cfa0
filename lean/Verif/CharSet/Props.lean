import Verif.CharSet.Lemmas
import Verif.CharSet.Spec

/-!
# Properties of the character sets (C09, C10, C11)
-/

namespace Verif.CharSet

/-! ### The string constructor -/

/-- `ofSorted` after the first character, producing its list from the front. -/
def runs : List Nat → Nat → Nat → Ranges
  | [], p, q => [(p, q)]
  | x :: xs, p, q => if x = q then runs xs p (q + 1) else (p, q) :: runs xs x (x + 1)

theorem ofSorted_runs : ∀ (xs : List Nat) (pre : Ranges) (p q : Nat),
    ofSorted xs (pre ++ [(p, q)]) (some q) = pre ++ runs xs p q := by
  intro xs
  induction xs with
  | nil => intro pre p q; simp [ofSorted, runs]
  | cons x xs ih =>
    intro pre p q
    rw [ofSorted, runs]
    by_cases h : x = q
    · subst h; simp [ih]
    · simp only [Option.some.injEq, h, if_false]
      rw [ih]; simp

theorem runs_spec {S : Nat} : ∀ (xs : List Nat) (p q : Nat), p < q → q ≤ S → (∀ x ∈ xs, q ≤ x ∧ x < S) →
    xs.Pairwise (· < ·) →
    WF S False p (runs xs p q) ∧ ∀ x, mem (runs xs p q) x ↔ (p ≤ x ∧ x < q) ∨ x ∈ xs := by
  intro xs
  induction xs with
  | nil =>
    intro p q h hS _ _
    exact ⟨.cons (Nat.le_refl _) hS (Or.inl h) .nil, fun x => by simp [runs]⟩
  | cons y xs ih =>
    intro p q h hS hq hp
    rw [List.pairwise_cons] at hp
    have hy := hq y List.mem_cons_self
    rw [runs]
    split
    · rename_i e
      subst e
      obtain ⟨i1, i2⟩ := ih p (y + 1) (by omega) (by omega)
        (fun x hx => ⟨by have := hp.1 x hx; omega, (hq x (List.mem_cons_of_mem _ hx)).2⟩) hp.2
      refine ⟨i1, fun x => ?_⟩
      rw [i2 x, List.mem_cons]
      grind
    · rename_i e
      obtain ⟨i1, i2⟩ := ih y (y + 1) (by omega) (by omega)
        (fun x hx => ⟨by have := hp.1 x hx; omega, (hq x (List.mem_cons_of_mem _ hx)).2⟩) hp.2
      refine ⟨.cons (Nat.le_refl _) hS (Or.inl h) (i1.mono (by omega)), fun x => ?_⟩
      rw [mem_cons, i2 x, List.mem_cons]
      grind

theorem ofString_spec {S : Nat} (us : List Nat) (hn : us.Nodup) (hS : ∀ u ∈ us, u < S) :
    WF S False 0 (Seq.ofString us).data ∧ ∀ x, mem (Seq.ofString us).data x ↔ x ∈ us := by
  have hp := List.mergeSort_perm us (fun a b => decide (a ≤ b))
  have hs : (us.mergeSort (fun a b => decide (a ≤ b))).Pairwise (fun a b => decide (a ≤ b) = true) :=
    List.pairwise_mergeSort (by simp; omega) (by simp; omega) us
  have hn' := hp.nodup_iff.mpr hn
  have hm : ∀ x, x ∈ us.mergeSort (fun a b => decide (a ≤ b)) ↔ x ∈ us := fun x => hp.mem_iff
  unfold Seq.ofString
  generalize us.mergeSort (fun a b => decide (a ≤ b)) = vs at *
  cases vs with
  | nil =>
    refine ⟨.nil, fun x => ?_⟩
    rw [← hm x]; simp [ofSorted]
  | cons v vs =>
    have hlt : (v :: vs).Pairwise (· < ·) := by
      have := hs.and hn'
      exact this.imp (fun h => by simp at h; omega)
    rw [List.pairwise_cons] at hlt
    have := ofSorted_runs vs [] v (v + 1)
    simp only [List.nil_append] at this
    simp only [ofSorted, reduceCtorEq, if_false, List.nil_append, this]
    obtain ⟨i1, i2⟩ := runs_spec (S := S) vs v (v + 1) (by omega)
      (hS v ((hm v).mp List.mem_cons_self))
      (fun x hx => ⟨hlt.1 x hx, hS x ((hm x).mp (List.mem_cons_of_mem _ hx))⟩) hlt.2
    refine ⟨i1.mono (Nat.zero_le _), fun x => ?_⟩
    rw [i2 x, ← hm x, List.mem_cons]
    grind

/-! ### Evaluation -/

theorem seq_eps (S : Nat) (e : CExpr) : (e.seq S).eps = false := by
  induction e with
  | neg a ih =>
    simp only [CExpr.seq, Seq.negate, ih, Bool.false_eq_true, if_false]
    split
    · rfl
    · split
      · rfl
      · split <;> rfl
  | _ => rfl

theorem seq_spec {S : Nat} (hS : 0 < S) (e : CExpr) (h : e.Ok S) :
    WF S True 0 (e.seq S).data ∧ ∀ x, x < S → (mem (e.seq S).data x ↔ e.den S x) := by
  induction e with
  | empty => exact ⟨.nil, fun x _ => by simp [CExpr.seq, CExpr.den, Seq.emptySet]⟩
  | full =>
    exact ⟨.cons (Nat.le_refl _) (Nat.le_refl _) (Or.inl hS) .nil, fun x hx => by
      simp [CExpr.seq, CExpr.den, Seq.fullSet]⟩
  | single c =>
    refine ⟨.cons (Nat.zero_le _) h (Or.inl (by omega)) .nil, fun x _ => ?_⟩
    simp only [CExpr.seq, CExpr.den, Seq.single, mem_cons, mem_nil, or_false]; omega
  | range b e =>
    simp only [CExpr.seq, CExpr.den, Seq.range]
    simp only [CExpr.Ok] at h
    split
    · exact ⟨.cons (Nat.zero_le _) h (Or.inl (by omega)) .nil, fun x _ => by simp⟩
    · exact ⟨.nil, fun x _ => by simp only [mem_nil, false_iff]; omega⟩
  | str us =>
    obtain ⟨i1, i2⟩ := ofString_spec us h.1 h.2
    exact ⟨i1.weaken, fun x _ => i2 x⟩
  | inter a b iha ihb =>
    obtain ⟨a1, a2⟩ := iha h.1
    obtain ⟨b1, b2⟩ := ihb h.2
    refine ⟨(interLoop_wf _ _ 0 0 0 a1 b1 (Or.inl (Nat.le_refl _))).weaken, fun x hx => ?_⟩
    simp only [CExpr.seq, CExpr.den, Seq.intersection]
    rw [interLoop_mem _ _ 0 0 a1 b1 x, a2 x hx, b2 x hx]
  | diff a b iha ihb =>
    obtain ⟨a1, a2⟩ := iha h.1
    obtain ⟨b1, b2⟩ := ihb h.2
    obtain ⟨c1, c2⟩ := diffLoop_spec _ _ false false 0 0 0 0 a1 b1 (Nat.le_refl _)
    refine ⟨c1, fun x hx => ?_⟩
    simp only [CExpr.seq, CExpr.den, Seq.difference]
    rw [c2 x, ← a2 x hx, ← b2 x hx]
    simp [DSem]
  | union a b iha ihb =>
    obtain ⟨a1, a2⟩ := iha h.1
    obtain ⟨b1, b2⟩ := ihb h.2
    obtain ⟨c1, c2⟩ := unionLoop_spec _ _ false false 0 0 0 0 a1 b1 ⟨Nat.le_refl _, Nat.le_refl _⟩
    refine ⟨c1, fun x hx => ?_⟩
    simp only [CExpr.seq, CExpr.den, Seq.getUnion]
    rw [c2 x, ← a2 x hx, ← b2 x hx]
    simp [USem]
  | neg a iha =>
    obtain ⟨a1, a2⟩ := iha h
    obtain ⟨c1, _, c2⟩ := negate_spec (seq_eps S a) a1
    refine ⟨c1, fun x hx => ?_⟩
    simp only [CExpr.seq, CExpr.den]
    rw [c2 x hx, a2 x hx]
    simp [hx]

/-- **C09.** Whatever expression of the public operations built a `SeqCharSet`, its `accepts` is the
Boolean combination the expression denotes, on the whole code space. -/
theorem C09_seq_algebra {S : Nat} (hS : 0 < S) (e : CExpr) (h : e.Ok S) (x : Nat) (hx : x < S) :
    (e.seq S).accepts x = true ↔ e.den S x := by
  obtain ⟨h1, h2⟩ := seq_spec hS e h
  rw [accepts_iff h1, h2 x hx]

/-- Nothing outside the code space is ever accepted. -/
theorem C09_seq_inside {S : Nat} (hS : 0 < S) (e : CExpr) (h : e.Ok S) (x : Nat) (hx : S ≤ x) :
    (e.seq S).accepts x = false := by
  obtain ⟨h1, _⟩ := seq_spec hS e h
  rw [← Bool.not_eq_true, accepts_iff h1]
  intro hm
  have := h1.bounds hm
  omega

example : (CExpr.diff (.neg (.union (.range 97 123) (.single 95))) (.str [48, 50, 49])).Ok 128 := by
  simp [CExpr.Ok]

/-- `unite` and `intersect` in place do the same as the binary operations. -/
theorem C09_unite (s o : Seq) (x : Nat) : (s.unite o).accepts x = (s.getUnion o).accepts x := rfl

/-! ### Equality and emptiness -/

theorem strict_last {S n : Nat} {l : Ranges} (h : WF S False n l) (hl : ¬ mem l (S - 1)) : ∀ p ∈ l, p.2 < S := by
  induction h with
  | nil => intro p hp; simp at hp
  | cons h1 h2 h3 _ ih =>
    rw [mem_cons] at hl
    intro p hp
    rcases List.mem_cons.mp hp with rfl | hp
    · simp only; grind
    · exact ih (fun h => hl (Or.inr h)) p hp

theorem seq_strict {S : Nat} (hS : 0 < S) (e : CExpr) (h : e.Ok S) (ht : e.Tidy S) :
    WF S False 0 (e.seq S).data := by
  induction e with
  | empty => exact .nil
  | full => exact .cons (Nat.le_refl _) (Nat.le_refl _) (Or.inl hS) .nil
  | single c => exact .cons (Nat.zero_le _) h (Or.inl (by omega)) .nil
  | range b e =>
    simp only [CExpr.seq, Seq.range]
    split
    · exact .cons (Nat.zero_le _) h (Or.inl (by omega)) .nil
    · exact .nil
  | str us => exact (ofString_spec us h.1 h.2).1
  | inter a b _ _ =>
    exact interLoop_wf _ _ 0 0 0 (seq_spec hS a h.1).1 (seq_spec hS b h.2).1 (Or.inl (Nat.le_refl _))
  | diff a b iha _ =>
    exact (diffLoop_spec _ _ false false 0 0 0 0 (iha h.1 ht) (seq_spec hS b h.2).1 (Nat.le_refl _)).1
  | union a b iha ihb =>
    exact (unionLoop_spec _ _ false false 0 0 0 0 (iha h.1 ht.1) (ihb h.2 ht.2) ⟨Nat.le_refl _, Nat.le_refl _⟩).1
  | neg a iha =>
    have ha := iha h ht.1
    obtain ⟨_, a2⟩ := seq_spec hS a h
    have he := seq_eps S a
    have hc := ht.2
    rw [← a2 0 hS, ← a2 (S - 1) (by omega)] at hc
    simp only [CExpr.seq]
    generalize a.seq S = s at *
    obtain ⟨data, eps⟩ := s
    simp only at he ha hc
    subst he
    cases data with
    | nil => exact .cons (Nat.le_refl _) (Nat.le_refl _) (Or.inl hS) .nil
    | cons p l =>
      obtain ⟨b, c⟩ := p
      by_cases hb : b = 0
      · subst hb
        simp only [Seq.negate, Bool.false_eq_true, if_false, if_true]
        exact (negateZero_spec l 0 0 c ha).1.mono (Nat.zero_le _)
      · have ha' : WF S False (0 + 1) ((b, c) :: l) := by
          rw [WF.cons_iff] at ha ⊢; exact ⟨by omega, ha.2⟩
        have hn : (Seq.negate S ⟨(b, c) :: l, false⟩) = ⟨negTail S 0 ((b, c) :: l), false⟩ := by
          rw [← negateLoop_eq S ((b, c) :: l) 0 (by simp)]
          simp only [Seq.negate, Bool.false_eq_true, if_false, if_neg hb]
          split <;> simp_all
        rw [hn]
        refine negTail_strict _ 0 ha' (strict_last ha ?_)
        rcases hc with hc | hc
        · have := ha'.bounds hc; omega
        · exact hc

/-- **C10 (partial).** On expressions whose complements are tidy, `==` is equality of the accepted sets and
`empty()` is emptiness.  Missing for the full claim: complements of sets that lack 0 but contain the last
character; for those the claim is false, see `C10_negate_not_canonical`. -/
theorem C10_equality_partial {S : Nat} (hS : 0 < S) (e f : CExpr) (he : e.Ok S) (hf : f.Ok S)
    (te : e.Tidy S) (tf : f.Tidy S) :
    ((e.seq S).eq (f.seq S) = true ↔ ∀ x, x < S → (e.den S x ↔ f.den S x)) ∧
    ((e.seq S).empty = true ↔ ∀ x, x < S → ¬ e.den S x) := by
  have se := seq_strict hS e he te
  have sf := seq_strict hS f hf tf
  obtain ⟨we, me⟩ := seq_spec hS e he
  obtain ⟨wf, mf⟩ := seq_spec hS f hf
  constructor
  · simp only [Seq.eq, seq_eps, beq_self_eq_true, Bool.true_and, beq_iff_eq]
    constructor
    · intro h x hx
      rw [← me x hx, h, mf x hx]
    · intro h
      refine WF.ext se sf fun x => ?_
      by_cases hx : x < S
      · rw [me x hx, mf x hx, h x hx]
      · constructor
        · intro h'; have := se.bounds h'; omega
        · intro h'; have := sf.bounds h'; omega
  · simp only [Seq.empty, List.isEmpty_iff]
    rw [se.empty_iff]
    constructor
    · intro h x hx; rw [← me x hx]; exact h x
    · intro h x hm
      exact h x (se.bounds hm).2 ((me x (se.bounds hm).2).mp hm)

/-- A non-trivial tidy expression: `[^a-z] \ [0-9]`, and the complement inside `fullSet` that
`NFA::negate` computes (regexp.cpp lines 855-861). -/
example : (CExpr.diff (.neg (.range 97 123)) (.range 48 58)).Tidy 128 := by
  simp [CExpr.Tidy, CExpr.den]

example (S : Nat) (e : CExpr) : (CExpr.inter .full (.neg e)).Tidy S := trivial

/-- **C10 fails** for the complement of a set that lacks 0 and contains the last character: it has an
empty range at the end, so it differs from the equal set `range(0,b)`, and removing `range(0,b)` leaves a
set that accepts nothing but is not `empty()`. -/
theorem C10_negate_not_canonical {S b : Nat} (hb : 0 < b) (hS : b < S) :
    let n := CExpr.neg (.range b S)
    (∀ x, x < S → (n.den S x ↔ (CExpr.range 0 b).den S x)) ∧
    (n.seq S).eq ((CExpr.range 0 b).seq S) = false ∧
    (∀ x, x < S → ¬ (CExpr.diff n (.range 0 b)).den S x) ∧
    ((CExpr.diff n (.range 0 b)).seq S).empty = false := by
  have e1 : (CExpr.neg (.range b S)).seq S = ⟨[(0, b), (S, S)], false⟩ := by
    simp only [CExpr.seq, Seq.range, if_pos hS, Seq.negate, Bool.false_eq_true, if_false]
    rw [if_neg (by omega)]
    simp only [negateLoop, List.getLast?_singleton, ne_eq, List.singleton_append]
    rw [if_pos (by omega)]
  have e2 : (CExpr.range 0 b).seq S = ⟨[(0, b)], false⟩ := by
    simp only [CExpr.seq, Seq.range, if_pos hb]
  refine ⟨fun x hx => ?_, ?_, fun x hx => ?_, ?_⟩
  · simp only [CExpr.den]; omega
  · rw [e1, e2]; simp [Seq.eq]
  · simp only [CExpr.den]; omega
  · have : (CExpr.diff (CExpr.neg (.range b S)) (.range 0 b)).seq S
        = Seq.difference ((CExpr.neg (.range b S)).seq S) ((CExpr.range 0 b).seq S) := rfl
    rw [this, e1, e2]
    simp only [Seq.difference, Seq.empty]
    rw [diffLoop, if_neg (by omega), diffLoop, if_neg (by omega), diffLoop, if_pos (by omega), diffLoop,
      if_pos (by omega), diffLoop]
    simp

/-! ### Tables -/

theorem setBit_spec {S : Nat} (d : Fin S → Bool) (i : Nat) (h : i < S) :
    ∃ d', setBit d i = some d' ∧ ∀ j : Fin S, d' j = true ↔ d j = true ∨ j.val = i := by
  refine ⟨_, by rw [setBit, dif_pos h], fun j => ?_⟩
  by_cases hj : j = ⟨i, h⟩
  · simp [hj]
  · have : j.val ≠ i := fun e => hj (Fin.ext e)
    simp [hj, this]

theorem setRange_spec {S : Nat} : ∀ (n : Nat) (d : Fin S → Bool) (i : Nat), i + n ≤ S →
    ∃ d', setRange d i n = some d' ∧ ∀ j : Fin S, d' j = true ↔ d j = true ∨ (i ≤ j.val ∧ j.val < i + n) := by
  intro n
  induction n with
  | zero => intro d i _; exact ⟨d, rfl, fun j => by simp; omega⟩
  | succ n ih =>
    intro d i h
    obtain ⟨d1, h1, h1'⟩ := setBit_spec d i (by omega)
    obtain ⟨d2, h2, h2'⟩ := ih d1 (i + 1) (by omega)
    refine ⟨d2, by rw [setRange, h1]; exact h2, fun j => ?_⟩
    rw [h2', h1']
    by_cases hd : d j = true
    · simp [hd]
    · simp only [hd]; grind

theorem setUnits_spec {S : Nat} : ∀ (us : List Nat) (d : Fin S → Bool), (∀ u ∈ us, u < S) →
    ∃ d', setUnits d us = some d' ∧ ∀ j : Fin S, d' j = true ↔ d j = true ∨ j.val ∈ us := by
  intro us
  induction us with
  | nil => intro d _; exact ⟨d, rfl, fun j => by simp⟩
  | cons u us ih =>
    intro d h
    obtain ⟨d1, h1, h1'⟩ := setBit_spec d u (h u List.mem_cons_self)
    obtain ⟨d2, h2, h2'⟩ := ih d1 fun v hv => h v (List.mem_cons_of_mem _ hv)
    refine ⟨d2, by rw [setUnits, h1]; exact h2, fun j => ?_⟩
    rw [h2', h1', List.mem_cons]
    grind

theorem table_spec {S : Nat} (e : CExpr) (h : e.Ok S) :
    ∃ t, e.table S = some t ∧ t.eps = false ∧ ∀ j : Fin S, t.data j = true ↔ e.den S j := by
  induction e with
  | empty => exact ⟨_, rfl, rfl, fun j => by simp [Table.emptySet, CExpr.den]⟩
  | full => exact ⟨_, rfl, rfl, fun j => by simp [Table.fullSet, CExpr.den]⟩
  | single c =>
    obtain ⟨d, h1, h2⟩ := setBit_spec (S := S) (fun _ => false) c h
    exact ⟨⟨d, false⟩, by simp [CExpr.table, Table.single, h1], rfl, fun j => by rw [h2]; simp [CExpr.den]⟩
  | range b e =>
    simp only [CExpr.Ok] at h
    by_cases hb : b < e
    · obtain ⟨d, h1, h2⟩ := setRange_spec (S := S) (e - b) (fun _ => false) b (by omega)
      refine ⟨⟨d, false⟩, by simp [CExpr.table, Table.range, hb, h1], rfl, fun j => ?_⟩
      rw [h2]; simp [CExpr.den]; omega
    · refine ⟨⟨_, false⟩, by simp only [CExpr.table, Table.range, hb]; rfl, rfl, fun j => ?_⟩
      simp [CExpr.den]; omega
  | str us =>
    obtain ⟨d, h1, h2⟩ := setUnits_spec (S := S) us (fun _ => false) h.2
    exact ⟨⟨d, false⟩, by simp [CExpr.table, Table.ofString, h1], rfl, fun j => by rw [h2]; simp [CExpr.den]⟩
  | inter a b iha ihb =>
    obtain ⟨t, a1, a2, a3⟩ := iha h.1
    obtain ⟨u, b1, b2, b3⟩ := ihb h.2
    refine ⟨t.intersection u, by simp [CExpr.table, a1, b1], a2, fun j => ?_⟩
    simp [Table.intersection, a3, b3, CExpr.den]
  | diff a b iha ihb =>
    obtain ⟨t, a1, a2, a3⟩ := iha h.1
    obtain ⟨u, b1, b2, b3⟩ := ihb h.2
    refine ⟨t.difference u, by simp [CExpr.table, a1, b1], b2, fun j => ?_⟩
    simp only [Table.difference, CExpr.den, ← a3, ← b3, Bool.and_eq_true, Bool.not_eq_true', Bool.not_eq_true]
    exact And.comm
  | union a b iha ihb =>
    obtain ⟨t, a1, a2, a3⟩ := iha h.1
    obtain ⟨u, b1, b2, b3⟩ := ihb h.2
    refine ⟨t.getUnion u, by simp [CExpr.table, a1, b1], a2, fun j => ?_⟩
    simp [Table.getUnion, a3, b3, CExpr.den]
  | neg a iha =>
    obtain ⟨t, a1, a2, a3⟩ := iha h
    refine ⟨t.negate, by simp [CExpr.table, a1], a2, fun j => ?_⟩
    simp only [Table.negate, CExpr.den, ← a3, Bool.not_eq_true', Bool.not_eq_true]
    simp [j.isLt]

/-- **C11.** Evaluating any expression inside the code space with tables never leaves the table, `accepts`
is what the expression denotes, and the sequence implementation accepts the same characters. -/
theorem C11_table_algebra {S : Nat} (hS : 0 < S) (e : CExpr) (h : e.Ok S) :
    ∃ t, e.table S = some t ∧ ∀ x, x < S → ∃ r, t.accepts x = some r ∧ (r = true ↔ e.den S x) ∧
      r = (e.seq S).accepts x := by
  obtain ⟨t, h1, _, h3⟩ := table_spec e h
  refine ⟨t, h1, fun x hx => ⟨t.data ⟨x, hx⟩, by rw [Table.accepts, dif_pos hx], h3 ⟨x, hx⟩, ?_⟩⟩
  rw [Bool.eq_iff_iff, h3 ⟨x, hx⟩, C09_seq_algebra hS e h x hx]

/-- **C11, equality and emptiness** of tables are extensional, without exception. -/
theorem C11_table_equality {S : Nat} (e f : CExpr) (he : e.Ok S) (hf : f.Ok S) :
    ∃ t u, e.table S = some t ∧ f.table S = some u ∧
      (t.eq u = true ↔ ∀ x, x < S → (e.den S x ↔ f.den S x)) ∧
      (t.empty = true ↔ ∀ x, x < S → ¬ e.den S x) := by
  obtain ⟨t, t1, t2, t3⟩ := table_spec e he
  obtain ⟨u, u1, u2, u3⟩ := table_spec f hf
  refine ⟨t, u, t1, u1, ?_, ?_⟩
  · simp only [Table.eq, t2, u2, beq_self_eq_true, Bool.true_and, List.all_eq_true, List.mem_finRange,
      true_imp_iff, beq_iff_eq]
    constructor
    · intro h x hx
      rw [← t3 ⟨x, hx⟩, h, u3]
    · intro h j
      rw [Bool.eq_iff_iff, t3, u3, h j j.isLt]
  · simp only [Table.empty, List.all_eq_true, List.mem_finRange, true_imp_iff, beq_iff_eq]
    constructor
    · intro h x hx
      rw [← t3 ⟨x, hx⟩, h]; simp
    · intro h j
      rw [← Bool.not_eq_true, t3]
      exact h j j.isLt

example : ∃ t, (CExpr.neg (.range 5 128)).table 128 = some t ∧ t.accepts 4 = some true ∧
    t.accepts 5 = some false := by
  refine ⟨_, rfl, ?_, ?_⟩ <;> decide +kernel

end Verif.CharSet
