import Verif.CharSet.Props

/-!
# What the automata need from a character set

The templates `NFA<CharSet>` and `DFA<CharSet>` (`/repo/src/kdev-pg-regexp.cpp`) use their parameter only
through the operations below.  The laws are those proved for `SeqCharSet` and `TableCharSet`; the two
instances at the end discharge them.  `negate` is only used as `tmp = c; tmp.negate(); s.intersect(tmp)`
(regexp.cpp lines 858-860), which is `interNeg s c`.
-/

namespace Verif.Auto

class CharSetLike (C : Type) where
  /-- Size of the code space. -/
  size : Nat
  /-- `CharSet()`, the label of an epsilon transition. -/
  eps : C
  isEps : C → Bool
  accepts : C → Nat → Bool
  empty : C → Bool
  inter : C → C → C
  diff : C → C → C
  unite : C → C → C
  full : C
  emptySet : C
  interNeg : C → C → C
  beq : C → C → Bool
  isEps_eps : isEps eps = true
  accepts_eps : ∀ x, accepts eps x = false
  accepts_lt : ∀ c x, accepts c x = true → x < size
  empty_iff : ∀ c, empty c = true ↔ ∀ x, accepts c x = false
  inter_eps : ∀ a b, isEps a = false → isEps b = false → isEps (inter a b) = false
  accepts_inter : ∀ a b x, accepts (inter a b) x = (accepts a x && accepts b x)
  diff_eps : ∀ a b, isEps a = false → isEps b = false → isEps (diff a b) = false
  accepts_diff : ∀ a b x, accepts (diff a b) x = (accepts a x && !accepts b x)
  unite_eps : ∀ a b, isEps (unite a b) = isEps a
  accepts_unite : ∀ a b x, accepts (unite a b) x = (accepts a x || accepts b x)
  full_eps : isEps full = false
  accepts_full : ∀ x, accepts full x = decide (x < size)
  emptySet_eps : isEps emptySet = false
  accepts_emptySet : ∀ x, accepts emptySet x = false
  interNeg_eps : ∀ a b, isEps a = false → isEps b = false → isEps (interNeg a b) = false
  accepts_interNeg : ∀ a b x, isEps b = false → accepts (interNeg a b) x = (accepts a x && !accepts b x)
  beq_iff : ∀ a b, beq a b = true ↔ isEps a = isEps b ∧ ∀ x, accepts a x = accepts b x

/-! ### `SeqCharSet` -/

open Verif.CharSet

/-- A `SeqCharSet` in the form all operations used by the automata keep it. -/
structure SeqCS (S : Nat) where
  s : Seq
  wf : WF S False 0 s.data

theorem seqCS_accepts {S : Nat} (c : SeqCS S) (x : Nat) : c.s.accepts x = true ↔ mem c.s.data x := accepts_iff c.wf x

theorem seqCS_false {S : Nat} (c : SeqCS S) (x : Nat) : c.s.accepts x = false ↔ ¬ mem c.s.data x := by
  rw [← Bool.not_eq_true, seqCS_accepts]

def SeqCS.inter {S : Nat} (a b : SeqCS S) : SeqCS S :=
  ⟨a.s.intersection b.s, interLoop_wf _ _ 0 0 0 a.wf b.wf (Or.inl (Nat.le_refl _))⟩

def SeqCS.diff {S : Nat} (a b : SeqCS S) : SeqCS S :=
  ⟨a.s.difference b.s, (diffLoop_spec _ _ false false 0 0 0 0 a.wf b.wf (Nat.le_refl _)).1⟩

def SeqCS.unite {S : Nat} (a b : SeqCS S) : SeqCS S :=
  ⟨a.s.unite b.s, (unionLoop_spec _ _ false false 0 0 0 0 a.wf b.wf ⟨Nat.le_refl _, Nat.le_refl _⟩).1⟩

def SeqCS.single {S : Nat} (c : Nat) (h : c < S) : SeqCS S :=
  ⟨.single c, .cons (Nat.zero_le _) h (Or.inl (by omega)) .nil⟩

def SeqCS.range {S : Nat} (b e : Nat) (h : e ≤ S) : SeqCS S :=
  ⟨.range b e, by
    simp only [Seq.range]
    split
    · exact .cons (Nat.zero_le _) h (Or.inl (by omega)) .nil
    · exact .nil⟩

theorem negate_wf {S : Nat} (s : Seq) (h : WF S False 0 s.data) : WF S True 0 (s.negate S).data := by
  by_cases he : s.eps = false
  · exact (negate_spec he h).1
  · simp only [Bool.not_eq_false] at he
    simp only [Seq.negate, he, if_true]
    exact h.weaken

def SeqCS.interNeg {S : Nat} (a b : SeqCS S) : SeqCS S :=
  ⟨a.s.intersection (b.s.negate S), interLoop_wf _ _ 0 0 0 a.wf (negate_wf b.s b.wf) (Or.inl (Nat.le_refl _))⟩

def SeqCS.full {S : Nat} [NeZero S] : SeqCS S :=
  ⟨.fullSet S, .cons (Nat.le_refl _) (Nat.le_refl _) (Or.inl (Nat.pos_of_ne_zero (NeZero.ne S))) .nil⟩

instance {S : Nat} [NeZero S] : CharSetLike (SeqCS S) where
  size := S
  eps := ⟨.epsilonSet, .nil⟩
  isEps c := c.s.eps
  accepts c := c.s.accepts
  empty c := c.s.empty
  inter := SeqCS.inter
  diff := SeqCS.diff
  unite := SeqCS.unite
  full := SeqCS.full
  emptySet := ⟨.emptySet, .nil⟩
  interNeg := SeqCS.interNeg
  beq a b := a.s.eq b.s
  isEps_eps := rfl
  accepts_eps x := (seqCS_false ⟨.epsilonSet, .nil⟩ x).mpr (by simp [Seq.epsilonSet])
  accepts_lt c x h := (c.wf.bounds ((seqCS_accepts c x).mp h)).2
  empty_iff c := by
    simp only [Seq.empty, List.isEmpty_iff, seqCS_false, c.wf.empty_iff]
  inter_eps _ _ _ _ := rfl
  accepts_inter a b x := by
    rw [Bool.eq_iff_iff, Bool.and_eq_true, seqCS_accepts, seqCS_accepts, seqCS_accepts]
    exact interLoop_mem _ _ 0 0 a.wf b.wf x
  diff_eps _ _ _ _ := rfl
  accepts_diff a b x := by
    rw [Bool.eq_iff_iff, Bool.and_eq_true, Bool.not_eq_true', seqCS_false, seqCS_accepts, seqCS_accepts]
    rw [show (a.diff b).s.data = diffLoop a.s.data b.s.data false false 0 from rfl,
      (diffLoop_spec _ _ false false 0 0 0 0 a.wf b.wf (Nat.le_refl _)).2 x]
    simp [DSem]
  unite_eps _ _ := rfl
  accepts_unite a b x := by
    rw [Bool.eq_iff_iff, Bool.or_eq_true, seqCS_accepts, seqCS_accepts, seqCS_accepts]
    rw [show (a.unite b).s.data = unionLoop a.s.data b.s.data false false 0 from rfl,
      (unionLoop_spec _ _ false false 0 0 0 0 a.wf b.wf ⟨Nat.le_refl _, Nat.le_refl _⟩).2 x]
    simp [USem]
  full_eps := rfl
  accepts_full x := by
    rw [Bool.eq_iff_iff, seqCS_accepts]
    simp [SeqCS.full, Seq.fullSet]
  emptySet_eps := rfl
  accepts_emptySet x := (seqCS_false ⟨.emptySet, .nil⟩ x).mpr (by simp [Seq.emptySet])
  interNeg_eps _ _ _ _ := rfl
  accepts_interNeg a b x h := by
    rw [Bool.eq_iff_iff, Bool.and_eq_true, Bool.not_eq_true', seqCS_false, seqCS_accepts, seqCS_accepts]
    rw [show (a.interNeg b).s.data = interLoop a.s.data (b.s.negate S).data from rfl,
      interLoop_mem _ _ 0 0 a.wf (negate_wf b.s b.wf) x]
    have hn := (negate_spec (S := S) h b.wf).2.2 x
    constructor
    · rintro ⟨h1, h2⟩; exact ⟨h1, (hn (a.wf.bounds h1).2).mp h2⟩
    · rintro ⟨h1, h2⟩; exact ⟨h1, (hn (a.wf.bounds h1).2).mpr h2⟩
  beq_iff a b := by
    simp only [Seq.eq, Bool.and_eq_true, beq_iff_eq]
    refine and_congr_right fun _ => ?_
    constructor
    · intro h x
      simp only [Seq.accepts, h]
    · intro h
      refine WF.ext a.wf b.wf fun x => ?_
      rw [← seqCS_accepts, ← seqCS_accepts, h x]

/-! ### `TableCharSet`

Outside the table `accepts` is undefined behaviour; the automata only ask about characters of the code
space, and the model answers `false` elsewhere. -/

theorem finAll {S : Nat} (p : Fin S → Bool) : (List.finRange S).all p = true ↔ ∀ i, p i = true := by
  simp [List.all_eq_true, List.mem_finRange]

instance {S : Nat} : CharSetLike (Table S) where
  size := S
  eps := ⟨fun _ => false, true⟩
  isEps c := c.eps
  accepts c x := c.accepts x == some true
  empty c := c.empty
  inter := Table.intersection
  diff := Table.difference
  unite a b := { a with data := (a.getUnion b).data }
  full := Table.fullSet
  emptySet := Table.emptySet
  interNeg a b := a.intersection b.negate
  beq := Table.eq
  isEps_eps := rfl
  accepts_eps x := by simp only [Table.accepts]; split <;> rfl
  accepts_lt c x h := by
    simp only [Table.accepts] at h
    split at h
    · assumption
    · simp at h
  empty_iff c := by
    simp only [Table.empty, finAll, beq_iff_eq, Table.accepts]
    constructor
    · intro h x
      split
      · simp [h]
      · rfl
    · intro h i
      have := h i.val
      simpa [i.isLt] using this
  inter_eps _ _ h _ := h
  accepts_inter a b x := by
    simp only [Table.accepts, Table.intersection]
    split
    · rename_i h; cases a.data ⟨x, h⟩ <;> cases b.data ⟨x, h⟩ <;> rfl
    · rfl
  diff_eps _ _ _ h := h
  accepts_diff a b x := by
    simp only [Table.accepts, Table.difference]
    split
    · rename_i h; cases a.data ⟨x, h⟩ <;> cases b.data ⟨x, h⟩ <;> rfl
    · rfl
  unite_eps _ _ := rfl
  accepts_unite a b x := by
    simp only [Table.accepts, Table.getUnion]
    split
    · rename_i h; cases a.data ⟨x, h⟩ <;> cases b.data ⟨x, h⟩ <;> rfl
    · rfl
  full_eps := rfl
  accepts_full x := by
    simp only [Table.accepts, Table.fullSet]
    split <;> simp_all
  emptySet_eps := rfl
  accepts_emptySet x := by simp only [Table.accepts, Table.emptySet]; split <;> rfl
  interNeg_eps _ _ h _ := h
  accepts_interNeg a b x _ := by
    simp only [Table.accepts, Table.intersection, Table.negate]
    split
    · rename_i h; cases a.data ⟨x, h⟩ <;> cases b.data ⟨x, h⟩ <;> rfl
    · rfl
  beq_iff a b := by
    simp only [Table.eq, Bool.and_eq_true, beq_iff_eq, finAll, Table.accepts]
    refine and_congr_right fun _ => ?_
    constructor
    · intro h x
      split
      · simp [h]
      · rfl
    · intro h i
      have := h i.val
      simp only [i.isLt, dite_true] at this
      cases h1 : a.data i <;> cases h2 : b.data i <;> simp_all

end Verif.Auto
