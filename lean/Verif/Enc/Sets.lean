import Verif.Auto.NfaProps

/-!
# Character sets that can be built from bounds

`GNFA::range`, `GNFA::word` and `getUtf8Tuples` also use `CharSet::range(begin, end)` and `CharSet(chr)`
(`/repo/src/kdev-pg-regexp-helper.h` lines 92-95, 110-117 for `SeqCharSet`; 447-450, 466-474 for `TableCharSet`).  A set
reaching beyond the code space is outside the model (`none`): for tables it is undefined behaviour, for sequences a set that
breaks the invariants of the automata.
-/

namespace Verif.Enc

open Verif.Auto Verif.CharSet

class RangeSet (C : Type) extends CharSetLike C where
  range : Nat → Nat → Option C
  chr : Nat → Option C
  range_spec : ∀ b e, e ≤ b ∨ e ≤ size → ∃ c, range b e = some c ∧ isEps c = false ∧ ∀ x, accepts c x = decide (b ≤ x ∧ x < e)
  chr_spec : ∀ a, a < size → ∃ c, chr a = some c ∧ isEps c = false ∧ ∀ x, accepts c x = decide (x = a)

instance {S : Nat} [NeZero S] : RangeSet (SeqCS S) where
  range b e := if h : e ≤ S then some (SeqCS.range b e h) else if b < e then none else some ⟨.emptySet, .nil⟩
  chr a := if h : a < S then some (SeqCS.single a h) else none
  range_spec b e h := by
    by_cases h1 : e ≤ S
    · refine ⟨_, dif_pos h1, ?_, fun x => ?_⟩
      · simp only [CharSetLike.isEps, SeqCS.range, Seq.range]
      · show Seq.accepts _ x = _
        rw [Bool.eq_iff_iff, seqCS_accepts]
        simp only [SeqCS.range, Seq.range]
        split <;> simp [mem] <;> omega
    · refine ⟨⟨.emptySet, .nil⟩, ?_, rfl, fun x => ?_⟩
      · rw [dif_neg h1, if_neg (by have : CharSetLike.size (SeqCS S) = S := rfl; omega)]
      · show Seq.accepts _ x = _
        rw [Bool.eq_iff_iff, seqCS_accepts ⟨.emptySet, .nil⟩]
        have : CharSetLike.size (SeqCS S) = S := rfl
        simp [Seq.emptySet, mem]; omega
  chr_spec a h := by
    refine ⟨_, dif_pos h, rfl, fun x => ?_⟩
    show Seq.accepts _ x = _
    rw [Bool.eq_iff_iff, seqCS_accepts]
    simp [SeqCS.single, Seq.single, mem]; omega

theorem setBit_spec {S : Nat} (d : Fin S → Bool) {a : Nat} (h : a < S) :
    ∃ d', setBit d a = some d' ∧ ∀ j, d' j = (decide (j.val = a) || d j) := by
  refine ⟨_, dif_pos h, fun j => ?_⟩
  by_cases hj : j = ⟨a, h⟩
  · simp [hj]
  · rw [if_neg hj]
    have : ¬ j.val = a := fun e => hj (Fin.ext e)
    simp [this]

theorem setRange_spec {S : Nat} (n : Nat) (d : Fin S → Bool) (i : Nat) (h : n = 0 ∨ i + n ≤ S) :
    ∃ d', setRange d i n = some d' ∧ ∀ j, d' j = (decide (i ≤ j.val ∧ j.val < i + n) || d j) := by
  induction n generalizing d i with
  | zero => exact ⟨d, rfl, fun j => by simp; omega⟩
  | succ n ih =>
    obtain ⟨d1, h1, h2⟩ := setBit_spec d (a := i) (by omega)
    obtain ⟨d2, h3, h4⟩ := ih d1 (i + 1) (by omega)
    refine ⟨d2, by simp [setRange, h1, h3], fun j => ?_⟩
    rw [h4, h2, Bool.eq_iff_iff]
    simp only [Bool.or_eq_true, decide_eq_true_eq, ← or_assoc]
    refine or_congr_left ?_
    omega

instance {S : Nat} : RangeSet (Table S) where
  range := Table.range
  chr := Table.single
  range_spec b e h := by
    have hsz : CharSetLike.size (Table S) = S := rfl
    simp only [Table.range]
    by_cases h1 : b < e
    · obtain ⟨d, h2, h3⟩ := setRange_spec (e - b) (fun _ : Fin S => false) b (by omega)
      refine ⟨⟨d, false⟩, by simp [h1, h2], rfl, fun x => ?_⟩
      simp only [CharSetLike.accepts, Table.accepts]
      split
      · simp only [h3, Bool.or_false, Option.some_beq_some, beq_true, decide_eq_decide]; omega
      · simp; omega
    · refine ⟨⟨fun _ => false, false⟩, by simp [h1], rfl, fun x => ?_⟩
      simp only [CharSetLike.accepts, Table.accepts]
      split <;> simp <;> omega
  chr_spec a h := by
    have hsz : CharSetLike.size (Table S) = S := rfl
    obtain ⟨d, h2, h3⟩ := setBit_spec (fun _ : Fin S => false) (a := a) (by omega)
    refine ⟨⟨d, false⟩, by simp [Table.single, h2], rfl, fun x => ?_⟩
    simp only [CharSetLike.accepts, Table.accepts]
    split
    · simp [h3]
    · simp; omega

end Verif.Enc
