import Verif.Enc.Lemmas
import Verif.Auto.DfaProps

set_option linter.unusedSectionVars false

/-!
# C26: ranges in fixed-width encodings, and C29: the dot
-/

namespace Verif.Enc

open Verif.Auto Verif.Utf.Spec

variable {C : Type} [RangeSet C]

/-- **C26.** ASCII, Latin-1, UCS-2: `range(b, e)` matches exactly the one-character words `c` with `b ≤ c < e` inside the code
space, for all bounds. -/
theorem C26_range (b e : Nat) :
    ∃ n : NFA C, rangeFixed b e = some n ∧ n.Wf ∧ ∀ w, n.Lang w ↔ ∃ c, w = [c] ∧ b ≤ c ∧ c < e ∧ c < CharSetLike.size C := by
  simp only [rangeFixed]
  split
  · refine (builds_ofSet CharSetLike.emptySet_eps).congr fun w => ?_
    simp only [CharSetLike.accepts_emptySet, Bool.false_eq_true, and_false, exists_false, false_iff, not_exists, not_and]
    intro x _ _ _; omega
  · refine (builds_range (by omega)).congr fun w => exists_congr fun x => and_congr_right fun _ => ?_
    omega

/-- **C26.** `character(c)`: exactly `c` if representable, otherwise nothing; for every `quint32`. -/
theorem C26_character {c : Nat} (hc : c < 2 ^ 32) (hsz : CharSetLike.size C < 2 ^ 32) :
    ∃ n : NFA C, character rangeFixed c = some n ∧ n.Wf ∧ ∀ w, n.Lang w ↔ w = [c] ∧ c < CharSetLike.size C := by
  obtain ⟨n, h1, h2, h3⟩ := C26_range (C := C) c ((c + 1) % 2 ^ 32)
  refine ⟨n, h1, h2, fun w => (h3 w).trans ?_⟩
  constructor
  · rintro ⟨x, rfl, g1, g2, g3⟩
    have : x = c := by omega
    subst this; exact ⟨rfl, g3⟩
  · rintro ⟨rfl, g⟩
    exact ⟨c, rfl, by omega, by omega, g⟩

/-- C26 for UCS-4, whose upper bound is not cut: right for bounds within Unicode.  Missing: `0x110000 < e`, where the code
builds a set reaching beyond the code space (`C26_ucs4_wrong`). -/
theorem C26_ucs4_partial {b e : Nat} (h : e ≤ b ∨ e ≤ CharSetLike.size C) :
    ∃ n : NFA C, rangeUcs4 b e = some n ∧ n.Wf ∧ ∀ w, n.Lang w ↔ ∃ c, w = [c] ∧ b ≤ c ∧ c < e ∧ c < CharSetLike.size C := by
  refine (builds_range h).congr fun w => exists_congr fun x => and_congr_right fun _ => ?_
  omega

theorem C26_ucs4_character {c : Nat} (h : c < CharSetLike.size C) (hsz : CharSetLike.size C < 2 ^ 32) :
    ∃ n : NFA C, character rangeUcs4 c = some n ∧ n.Wf ∧ ∀ w, n.Lang w ↔ w = [c] := by
  obtain ⟨n, h1, h2, h3⟩ := C26_ucs4_partial (C := C) (b := c) (e := c + 1) (by omega)
  refine ⟨n, by rw [character, Nat.mod_eq_of_lt (by omega), h1], h2, fun w => (h3 w).trans ?_⟩
  constructor
  · rintro ⟨x, rfl, g1, g2, g3⟩; rw [show x = c by omega]
  · rintro rfl; exact ⟨c, rfl, by omega, by omega, h⟩

/-- The set `SeqCharSet<Ucs4>::range(0, 0x120000)` contains numbers beyond Unicode. -/
theorem C26_ucs4_wrong : (CharSet.Seq.range 0 0x120000).accepts 0x110000 = true := by decide +kernel

/-- **C29.** ASCII, Latin-1, UCS-2, UCS-4: the dot matches exactly the one-unit words of the code space. -/
theorem C29_fixed : (anyFixed : NFA C).Wf ∧ ∀ w, (anyFixed : NFA C).Lang w ↔ ∃ c, w = [c] ∧ c < CharSetLike.size C := by
  refine (builds_ofSet (c := (CharSetLike.full : C)) CharSetLike.full_eps).lang rfl |>.imp_right fun h w => (h w).trans ?_
  simp [CharSetLike.accepts_full]

/-- C29 for UTF-16: the dot matches exactly the scalar values of the BMP.  Missing: the supplementary planes, whose
surrogate pairs are built and then forgotten. -/
theorem C29_utf16_partial (hsz : CharSetLike.size C = 65536) (order : List Bits → List Bits) (ho : Enumerates order) :
    ∃ F, ∃ n : NFA C, (∀ fuel, F ≤ fuel → anyUtf16 order fuel = some n) ∧ n.Wf ∧
      ∀ w, n.Lang w ↔ ∃ c, Scalar c ∧ c < 0x10000 ∧ w = utf16 c := by
  obtain ⟨r, r1, r2, r3⟩ := builds_range (C := C) (b := 0xd800) (e := 0xe000) (by omega)
  obtain ⟨f1, f2⟩ := C29_fixed (C := C)
  obtain ⟨F, n, h1, h2, h3⟩ := C18_difference f1 r2 order ho
  refine ⟨F, n, fun fuel hf => ?_, h2, fun w => ?_⟩
  · simp only [anyUtf16, r1, Option.bind_eq_bind, Option.bind_some]
    exact h1 fuel hf
  · rw [h3, f2, r3]
    constructor
    · rintro ⟨⟨c, rfl, hc⟩, h⟩
      refine ⟨c, ?_, by omega, by rw [utf16, if_pos (by omega)]⟩
      have : ¬ (0xd800 ≤ c ∧ c < 0xe000) := fun hh => h ⟨c, rfl, hh⟩
      simp only [Scalar]; omega
    · rintro ⟨c, hs, hc, rfl⟩
      rw [utf16, if_pos hc]
      refine ⟨⟨c, rfl, by omega⟩, ?_⟩
      rintro ⟨x, hx, g⟩
      cases hx
      simp only [Scalar] at hs; omega

/-- The full C29 fails for UTF-16: no supplementary character is matched. -/
theorem C29_utf16_wrong (hsz : CharSetLike.size C = 65536) (order : List Bits → List Bits) (ho : Enumerates order) :
    ∃ F, ∃ n : NFA C, (∀ fuel, F ≤ fuel → anyUtf16 order fuel = some n) ∧ ∀ c, 0x10000 ≤ c → ¬ n.Lang (utf16 c) := by
  obtain ⟨F, n, h1, _, h3⟩ := C29_utf16_partial (C := C) hsz order ho
  refine ⟨F, n, h1, fun c hc h => ?_⟩
  obtain ⟨d, _, hd, he⟩ := (h3 _).mp h
  rw [utf16, if_neg (by omega), utf16, if_pos hd] at he
  simp at he

/-- What the dot matches in UTF-8: one byte below 0x7f, or a lead byte with the right number of continuation bytes. -/
def DotUtf8 : Verif.Auto.Lang := fun w =>
  (∃ x, w = [x] ∧ x < 0x7f) ∨
  (∃ x y, w = [x, y] ∧ (0xc0 ≤ x ∧ x < 0xe0) ∧ (0x80 ≤ y ∧ y < 0xc0)) ∨
  (∃ x y z, w = [x, y, z] ∧ (0xe0 ≤ x ∧ x < 0xf0) ∧ (0x80 ≤ y ∧ y < 0xc0) ∧ (0x80 ≤ z ∧ z < 0xc0)) ∨
  (∃ x y z u, w = [x, y, z, u] ∧ (0xf0 ≤ x ∧ x < 0x100) ∧ (0x80 ≤ y ∧ y < 0xc0) ∧ (0x80 ≤ z ∧ z < 0xc0) ∧ (0x80 ≤ u ∧ u < 0xc0))

theorem C29_utf8_lang (hsz : CharSetLike.size C = 256) :
    ∃ n : NFA C, anyUtf8 = some n ∧ n.Wf ∧ ∀ w, n.Lang w ↔ DotUtf8 w := by
  have lower := builds_range (C := C) (b := 0x80) (e := 0xc0) (by omega)
  have ascii := builds_range (C := C) (b := 0) (e := 0x7f) (by omega)
  have t2 := (builds_range (C := C) (b := 0xc0) (e := 0xe0) (by omega)).concat lower
  have t3 := ((builds_range (C := C) (b := 0xe0) (e := 0xf0) (by omega)).concat lower).concat lower
  have t4 := (((builds_range (C := C) (b := 0xf0) (e := 0x100) (by omega)).concat lower).concat lower).concat lower
  have all := ascii.alt (t2.alt (t3.alt t4))
  obtain ⟨l, l1, -, -⟩ := lower
  obtain ⟨a, a1, -, -⟩ := ascii
  obtain ⟨n, n1, n2, n3⟩ := all
  refine ⟨n, ?_, n2, fun w => (n3 w).trans ?_⟩
  · simp only [anyUtf8, l1, a1, Option.bind_eq_bind, Option.bind_some, Option.bind_assoc] at n1 ⊢
    exact n1
  · simp only [DotUtf8]
    refine or_congr ?_ (or_congr ?_ (or_congr ?_ ?_))
    · simp
    · rw [cat_range]
      constructor
      · rintro ⟨x, v, rfl, h1, y, rfl, h2⟩; exact ⟨x, y, rfl, h1, h2⟩
      · rintro ⟨x, y, rfl, h1, h2⟩; exact ⟨x, _, rfl, h1, y, rfl, h2⟩
    · constructor
      · rintro ⟨u, v, rfl, ⟨u1, u2, rfl, ⟨x, rfl, h1⟩, y, rfl, h2⟩, z, rfl, h3⟩; exact ⟨x, y, z, rfl, h1, h2, h3⟩
      · rintro ⟨x, y, z, rfl, h1, h2, h3⟩
        exact ⟨[x, y], [z], rfl, ⟨[x], [y], rfl, ⟨x, rfl, h1⟩, y, rfl, h2⟩, z, rfl, h3⟩
    · constructor
      · rintro ⟨s, t, rfl, ⟨u, v, rfl, ⟨u1, u2, rfl, ⟨x, rfl, h1⟩, y, rfl, h2⟩, z, rfl, h3⟩, r, rfl, h4⟩
        exact ⟨x, y, z, r, rfl, h1, h2, h3, h4⟩
      · rintro ⟨x, y, z, r, rfl, h1, h2, h3, h4⟩
        exact ⟨[x, y, z], [r], rfl, ⟨[x, y], [z], rfl, ⟨[x], [y], rfl, ⟨x, rfl, h1⟩, y, rfl, h2⟩, z, rfl, h3⟩, r, rfl, h4⟩

/-- C29 for UTF-8, one direction: every scalar value but U+007F is matched by the dot.  Missing: U+007F, and that nothing else
is matched (`C29_utf8_wrong`). -/
theorem C29_utf8_partial (hsz : CharSetLike.size C = 256) :
    ∃ n : NFA C, anyUtf8 = some n ∧ n.Wf ∧ ∀ c, Scalar c → (n.Lang (utf8 c) ↔ c ≠ 0x7f) := by
  obtain ⟨n, h1, h2, h3⟩ := C29_utf8_lang (C := C) hsz
  refine ⟨n, h1, h2, fun c hc => ?_⟩
  rw [h3]
  simp only [DotUtf8, utf8]
  simp only [Scalar] at hc
  by_cases c1 : c < 0x80
  · simp [c1]; omega
  · by_cases c2 : c < 0x800
    · simp only [if_neg c1, if_pos c2]
      refine ⟨fun _ => by omega, fun _ => Or.inr (Or.inl ⟨_, _, rfl, by omega, by omega⟩)⟩
    · by_cases c3 : c < 0x10000
      · simp only [if_neg c1, if_neg c2, if_pos c3]
        refine ⟨fun _ => by omega, fun _ => Or.inr (Or.inr (Or.inl ⟨_, _, _, rfl, by omega, by omega, by omega⟩))⟩
      · simp only [if_neg c1, if_neg c2, if_neg c3]
        refine ⟨fun _ => by omega, fun _ => Or.inr (Or.inr (Or.inr ⟨_, _, _, _, rfl, by omega, by omega, by omega, by omega⟩))⟩

/-- The full C29 fails for UTF-8: U+007F is not matched; the overlong `C0 80`, the surrogate `ED A0 80` and `FF 80 80 80` are. -/
theorem C29_utf8_wrong (hsz : CharSetLike.size C = 256) :
    ∃ n : NFA C, anyUtf8 = some n ∧ ¬ n.Lang (utf8 0x7f) ∧ n.Lang [0xc0, 0x80] ∧ n.Lang [0xed, 0xa0, 0x80] ∧
      n.Lang [0xff, 0x80, 0x80, 0x80] := by
  obtain ⟨n, h1, h2, h3⟩ := C29_utf8_lang (C := C) hsz
  refine ⟨n, h1, ?_, (h3 _).mpr ?_, (h3 _).mpr ?_, (h3 _).mpr ?_⟩
  · rw [h3]; simp [DotUtf8, utf8]
  · exact Or.inr (Or.inl ⟨_, _, rfl, by omega, by omega⟩)
  · exact Or.inr (Or.inr (Or.inl ⟨_, _, _, rfl, by omega, by omega, by omega⟩))
  · exact Or.inr (Or.inr (Or.inr ⟨_, _, _, _, rfl, by omega, by omega, by omega, by omega⟩))

/-- Cases: the sizes the code uses, and an enumeration for the powerset construction. -/
example : CharSetLike.size (SeqCS 128) = 128 ∧ CharSetLike.size (SeqCS 0x110000) = 0x110000 ∧
    CharSetLike.size (Verif.CharSet.Table 65536) = 65536 := ⟨rfl, rfl, rfl⟩
example : ∃ n : NFA (SeqCS 128), rangeFixed 0x61 0x200 = some n ∧ n.Lang [0x7f] ∧ ¬ n.Lang [0x80] := by
  obtain ⟨n, h1, h2, h3⟩ := C26_range (C := SeqCS 128) 0x61 0x200
  refine ⟨n, h1, (h3 _).mpr ⟨_, rfl, by decide⟩, fun h => ?_⟩
  obtain ⟨c, hc, _, _, h⟩ := (h3 _).mp h
  cases hc
  exact absurd h (by decide)

end Verif.Enc
