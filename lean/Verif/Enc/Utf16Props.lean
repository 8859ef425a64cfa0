import Verif.Enc.Lemmas

set_option linter.unusedSectionVars false

/-!
# C28: character ranges in UTF-16

The claim fails in general; `C28_range_iff` says exactly for which bounds it holds.
-/

namespace Verif.Enc

open Verif.Auto Verif.Utf.Spec

variable {C : Type} [RangeSet C]

/-- A language of words of one or two units. -/
def SP (S : Nat → Prop) (P : Nat → Nat → Prop) : Lang := fun w => (∃ x, w = [x] ∧ S x) ∨ (∃ x y, w = [x, y] ∧ P x y)

theorem sp_iff {S S' : Nat → Prop} {P P' : Nat → Nat → Prop} :
    (∀ w, SP S P w ↔ SP S' P' w) ↔ (∀ x, S x ↔ S' x) ∧ (∀ x y, P x y ↔ P' x y) := by
  constructor
  · intro h
    refine ⟨fun x => ?_, fun x y => ?_⟩
    · have := h [x]
      simpa [SP] using this
    · have := h [x, y]
      simp only [SP, List.cons.injEq, reduceCtorEq, and_false, false_and, exists_false, false_or, and_true] at this
      constructor
      · intro hp
        obtain ⟨_, _, ⟨rfl, rfl⟩, h⟩ := this.mp ⟨x, y, ⟨rfl, rfl⟩, hp⟩; exact h
      · intro hp
        obtain ⟨_, _, ⟨rfl, rfl⟩, h⟩ := this.mpr ⟨x, y, ⟨rfl, rfl⟩, hp⟩; exact h
  · rintro ⟨h1, h2⟩ w
    simp only [SP, h1, h2]

theorem Builds.altSP {o p : Option (NFA C)} {S S' : Nat → Prop} {P P' : Nat → Nat → Prop} (h : Builds o (SP S P)) (g : Builds p (SP S' P')) :
    Builds (do (← o).alt (← p)) (SP (fun x => S x ∨ S' x) (fun x y => P x y ∨ P' x y)) := by
  refine (h.alt g).congr fun w => ?_
  simp only [SP]
  constructor
  · rintro ((⟨x, h, k⟩ | ⟨x, y, h, k⟩) | (⟨x, h, k⟩ | ⟨x, y, h, k⟩))
    · exact Or.inl ⟨x, h, Or.inl k⟩
    · exact Or.inr ⟨x, y, h, Or.inl k⟩
    · exact Or.inl ⟨x, h, Or.inr k⟩
    · exact Or.inr ⟨x, y, h, Or.inr k⟩
  · rintro (⟨x, h, k | k⟩ | ⟨x, y, h, k | k⟩)
    · exact Or.inl (Or.inl ⟨x, h, k⟩)
    · exact Or.inr (Or.inl ⟨x, h, k⟩)
    · exact Or.inl (Or.inr ⟨x, y, h, k⟩)
    · exact Or.inr (Or.inr ⟨x, y, h, k⟩)

theorem Builds.sp {o : Option (NFA C)} {S S' : Nat → Prop} {P P' : Nat → Nat → Prop} (h : Builds o (SP S P))
    (h1 : ∀ x, S x ↔ S' x) (h2 : ∀ x y, P x y ↔ P' x y) : Builds o (SP S' P') := h.congr (sp_iff.mpr ⟨h1, h2⟩)

theorem bs_empty : Builds (some (NFA.empty : NFA C)) (SP (fun _ => False) fun _ _ => False) :=
  builds_empty.congr fun w => by simp [SP]

theorem bs_range (hsz : CharSetLike.size C = 65536) {b e : Nat} (h : e ≤ b ∨ e ≤ 65536) :
    Builds (rangeNfa b e : Option (NFA C)) (SP (fun x => b ≤ x ∧ x < e) fun _ _ => False) :=
  (builds_range (by omega)).congr fun w => by simp [SP]

theorem bs_range2 (hsz : CharSetLike.size C = 65536) {b e b' e' : Nat} (h : e ≤ b ∨ e ≤ 65536) (h' : e' ≤ b' ∨ e' ≤ 65536) :
    Builds (range2Nfa b e b' e' : Option (NFA C)) (SP (fun x => b ≤ x ∧ x < e ∨ b' ≤ x ∧ x < e') fun _ _ => False) := by
  obtain ⟨c, h1, h2, h3⟩ := RangeSet.range_spec (C := C) b e (by omega)
  obtain ⟨c', h1', h2', h3'⟩ := RangeSet.range_spec (C := C) b' e' (by omega)
  simp only [range2Nfa, h1, h1', Option.bind_eq_bind, Option.bind_some, Option.pure_def]
  refine (builds_ofSet (by rw [CharSetLike.unite_eps, h2])).congr fun w => ?_
  simp [SP, CharSetLike.accepts_unite, h3, h3']

theorem bs_pair (hsz : CharSetLike.size C = 65536) {h h' l l' : Nat} (h1 : h' ≤ h ∨ h' ≤ 65536) (h2 : l' ≤ l ∨ l' ≤ 65536) :
    Builds (pairNfa h h' l l' : Option (NFA C)) (SP (fun _ => False) fun x y => (h ≤ x ∧ x < h') ∧ (l ≤ y ∧ y < l')) := by
  refine ((builds_range (by omega)).concat (builds_range (by omega))).congr fun w => ?_
  rw [cat_range]
  simp only [SP, and_false, exists_false, false_or]
  constructor
  · rintro ⟨x, v, rfl, hx, y, rfl, hy⟩; exact ⟨x, y, rfl, hx, hy⟩
  · rintro ⟨x, y, rfl, hx, hy⟩; exact ⟨x, [y], rfl, hx, y, rfl, hy⟩

theorem hi_eq {c : Nat} (h1 : 0x10000 ≤ c) (h2 : c < 0x110000) : hi c = c / 1024 + 55232 := by
  simp only [hi, Nat.shiftRight_and_distrib]
  have : (0xffc00 : Nat) >>> 10 = 2 ^ 10 - 1 := by decide
  rw [this, Nat.and_two_pow_sub_one_eq_mod, Nat.shiftRight_eq_div_pow]
  omega

theorem lo_eq {c : Nat} (h1 : 0x10000 ≤ c) : lo c = c % 1024 + 56320 := by
  have : (0x3ff : Nat) = 2 ^ 10 - 1 := by decide
  rw [lo, this, Nat.and_two_pow_sub_one_eq_mod]
  omega

/-- The specification, by units. -/
def S16 (b e x : Nat) : Prop := b ≤ x ∧ x < e ∧ (x < 0xd800 ∨ 0xe000 ≤ x ∧ x < 0x10000)
def P16 (b e x y : Nat) : Prop := 0xd800 ≤ x ∧ x < 0xdc00 ∧ 0xdc00 ≤ y ∧ y < 0xe000 ∧ b + 56613888 ≤ 1024 * x + y ∧ 1024 * x + y < e + 56613888

theorem scalarIn16 (b e : Nat) (w : List Nat) : ScalarIn utf16 b e w ↔ SP (S16 b e) (P16 b e) w := by
  simp only [ScalarIn, SP, S16, P16, Scalar]
  constructor
  · rintro ⟨c, h1, h2, h3, rfl⟩
    by_cases hc : c < 0x10000
    · refine Or.inl ⟨c, by rw [utf16, if_pos hc], h1, h2, by omega⟩
    · refine Or.inr ⟨0xd800 + (c - 0x10000) / 0x400, 0xdc00 + (c - 0x10000) % 0x400, by rw [utf16, if_neg hc], ?_⟩
      omega
  · rintro (⟨x, rfl, h1, h2, h3⟩ | ⟨x, y, rfl, h⟩)
    · exact ⟨x, h1, h2, by omega, by rw [utf16, if_pos (by omega)]⟩
    · refine ⟨1024 * x + y - 56613888, by omega, by omega, by omega, ?_⟩
      rw [utf16, if_neg (by omega)]
      simp only [List.cons.injEq, and_true]
      exact ⟨by omega, by omega⟩

/-- What `range` matches, by units, for `0x10000 ≤ b < e < 0x110000`: single units … -/
def S16High (b e x : Nat) : Prop := e % 1024 ≠ 0 ∧ b % 1024 = 0 ∧ b / 1024 + 55232 ≤ x ∧ x < e / 1024 + 55232
/-- … and pairs. -/
def P16High (b e x y : Nat) : Prop :=
  if e % 1024 = 0 then
    if b % 1024 = 0 then (b / 1024 + 55232 ≤ x ∧ x < e / 1024 + 55232) ∧ 56320 ≤ y ∧ y < 57344
    else x = b / 1024 + 55232 ∧ b % 1024 + 56320 ≤ y ∧ y < 57344 ∨
      (b / 1024 + 55232 < x ∧ x ≤ e / 1024 + 55232) ∧ 56320 ≤ y ∧ y < 57344
  else if b % 1024 = 0 then False
  else if b / 1024 = e / 1024 then x = b / 1024 + 55232 ∧ b % 1024 + 56320 ≤ y ∧ y < e % 1024 + 56320
  else (b / 1024 + 55232 ≤ x ∧ x < e / 1024 + 55232) ∧ b % 1024 + 56320 ≤ y ∧ y < 57344 ∨
    x = e / 1024 + 55232 ∧ b % 1024 + 56320 ≤ y ∧ y < e % 1024 + 56320

theorem builds_high (hsz : CharSetLike.size C = 65536) {b e : Nat} (hb : 0x10000 ≤ b) (hbe : b < e) (he : e < 0x110000) :
    Builds (utf16High b e : Option (NFA C)) (SP (S16High b e) (P16High b e)) := by
  simp only [utf16High, hi_eq hb (by omega), hi_eq (show 0x10000 ≤ e by omega) he, lo_eq hb, lo_eq (show 0x10000 ≤ e by omega), if_neg (show ¬ e ≤ b by omega)]
  by_cases h1 : e % 1024 = 0
  · rw [if_pos (by omega)]
    by_cases h2 : b % 1024 = 0
    · rw [if_pos (by omega)]
      refine (bs_pair hsz (by omega) (by omega)).sp (fun x => ?_) (fun x y => ?_)
      · simp [S16High, h1]
      · simp [P16High, h1, h2]
    · rw [if_neg (by omega)]
      simp only [if_pos (show b / 1024 + 55232 < e / 1024 + 55232 by omega)]
      refine ((bs_pair hsz (by omega) (by omega)).altSP (bs_pair hsz (by omega) (by omega))).sp (fun x => ?_) (fun x y => ?_)
      · simp [S16High, h1]
      · simp [P16High, h1, h2]; omega
  · rw [if_neg (by omega)]
    by_cases h2 : b % 1024 = 0
    · rw [if_pos (by omega)]
      refine (bs_range hsz (by omega)).sp (fun x => ?_) (fun x y => ?_)
      · simp [S16High, h1, h2]
      · simp [P16High, h1, h2]
    · rw [if_neg (by omega)]
      by_cases h3 : b / 1024 = e / 1024
      · simp only [h3, if_pos, ne_eq, not_true, if_false]
        have := bs_pair (C := C) hsz (h := e / 1024 + 55232) (h' := e / 1024 + 55232 + 1) (l := b % 1024 + 56320) (l' := e % 1024 + 56320) (by omega) (by omega)
        refine Builds.sp (by simpa using this) (fun x => ?_) (fun x y => ?_)
        · simp [S16High, h2]
        · simp [P16High, h1, h2, h3]; omega
      · rw [if_neg (by omega)]
        simp only [if_pos (show b / 1024 + 55232 ≠ e / 1024 + 55232 by omega)]
        have p1 := bs_pair (C := C) hsz (h := b / 1024 + 55232) (h' := b / 1024 + 55232 + 1) (l := b % 1024 + 56320) (l' := 57344) (by omega) (by omega)
        have p2 := bs_pair (C := C) hsz (h := b / 1024 + 55232 + 1) (h' := e / 1024 + 55232) (l := b % 1024 + 56320) (l' := 57344) (by omega) (by omega)
        have p3 := bs_pair (C := C) hsz (h := e / 1024 + 55232) (h' := e / 1024 + 55232 + 1) (l := b % 1024 + 56320) (l' := e % 1024 + 56320) (by omega) (by omega)
        by_cases h4 : b / 1024 + 1 = e / 1024
        · simp only [if_neg (show ¬ b / 1024 + 55232 + 1 ≠ e / 1024 + 55232 by omega)]
          refine Builds.sp (S := fun x => False ∨ False) (by simpa using p1.altSP p3) (fun x => ?_) (fun x y => ?_)
          · simp [S16High, h2]
          · simp [P16High, h1, h2, h3]; omega
        · simp only [if_pos (show b / 1024 + 55232 + 1 ≠ e / 1024 + 55232 by omega)]
          refine Builds.sp (S := fun x => False ∨ False) (by simpa [Option.bind_assoc] using (p1.altSP p2).altSP p3) (fun x => ?_) (fun x y => ?_)
          · simp [S16High, h2]
          · simp [P16High, h1, h2, h3]; omega

theorem builds_bmp (hsz : CharSetLike.size C = 65536) {b e : Nat} (he : e < 0x10000) :
    Builds (utf16Bmp b e : Option (NFA C)) (SP (S16 b e) (P16 b e)) := by
  have hP : ∀ x y, False ↔ P16 b e x y := fun x y => by simp only [P16, false_iff]; omega
  simp only [utf16Bmp]
  split
  · split
    · exact bs_empty.sp (fun x => by simp only [S16, false_iff]; omega) hP
    · split
      · exact (bs_range2 hsz (by omega) (by omega)).sp (fun x => by simp only [S16]; omega) hP
      · exact (bs_range hsz (by omega)).sp (fun x => by simp only [S16]; omega) hP
  · split
    · exact bs_empty.sp (fun x => by simp only [S16, false_iff]; omega) hP
    · exact (bs_range hsz (by omega)).sp (fun x => by simp only [S16]; omega) hP

theorem builds_mixed (hsz : CharSetLike.size C = 65536) {b e : Nat} (hb : b < 0x10000) (he : 0x10000 ≤ e) (he' : e < 0x110000) :
    Builds (utf16Mixed b e : Option (NFA C)) (SP (S16 b e) (P16 b e)) := by
  simp only [utf16Mixed, hi_eq he he', lo_eq he, if_neg (show ¬ e ≤ b by omega)]
  have hS : Builds (mixedStart b : Option (NFA C)) (SP (S16 b e) fun _ _ => False) := by
    rw [mixedStart]
    split
    · exact (bs_range2 hsz (by omega) (by omega)).sp (fun x => by simp only [S16]; omega) (fun _ _ => Iff.rfl)
    · exact (bs_range hsz (by omega)).sp (fun x => by simp only [S16]; omega) (fun _ _ => Iff.rfl)
  have p1 := bs_pair (C := C) hsz (h := 0xd800) (h' := e / 1024 + 55232) (l := 0xdc00) (l' := 0xe000) (by omega) (by omega)
  have p2 := bs_pair (C := C) hsz (h := e / 1024 + 55232) (h' := e / 1024 + 55232 + 1) (l := 0xdc00) (l' := e % 1024 + 56320) (by omega) (by omega)
  by_cases h1 : e % 1024 = 0
  · simp only [if_pos (show e % 1024 + 56320 = 0xdc00 by omega)]
    refine (hS.altSP p1).sp (fun x => by simp) (fun x y => ?_)
    simp only [P16, false_or]; omega
  · simp only [if_neg (show ¬ e % 1024 + 56320 = 0xdc00 by omega)]
    by_cases h2 : 0xd800 < e / 1024 + 55232
    · simp only [if_pos h2]
      refine Builds.sp (S := fun x => (S16 b e x ∨ False) ∨ False) (by simpa [Option.bind_assoc] using (hS.altSP p1).altSP p2) (fun x => by simp) (fun x y => ?_)
      simp only [P16, false_or]; omega
    · simp only [if_neg h2]
      refine Builds.sp (S := fun x => S16 b e x ∨ False) (by simpa [Option.bind_assoc] using hS.altSP p2) (fun x => by simp) (fun x y => ?_)
      simp only [P16, false_or]; omega

/-- The bounds for which the UTF-16 automaton is right. -/
def Utf16Ok (b e : Nat) : Prop :=
  0x110000 ≤ b ∨ e ≤ b ∨
  e < 0x110000 ∧ (b < 0x10000 ∨ b % 1024 = 0 ∧ e % 1024 = 0 ∨ b % 1024 ≠ 0 ∧ b / 1024 = e / 1024)

theorem high_iff {b e : Nat} (hb : 0x10000 ≤ b) (hbe : b < e) (he : e < 0x110000) :
    ((∀ x, S16High b e x ↔ S16 b e x) ∧ (∀ x y, P16High b e x y ↔ P16 b e x y)) ↔
      (b % 1024 = 0 ∧ e % 1024 = 0 ∨ b % 1024 ≠ 0 ∧ b / 1024 = e / 1024) := by
  constructor
  · rintro ⟨-, h⟩
    by_cases h1 : e % 1024 = 0
    · by_cases h2 : b % 1024 = 0
      · exact Or.inl ⟨h2, h1⟩
      · have := (h (e / 1024 + 55232) 56320).mp (by simp only [P16High, h1, h2, if_true, if_false]; omega)
        simp only [P16] at this; omega
    · by_cases h2 : b % 1024 = 0
      · have := (h (b / 1024 + 55232) 56320).mpr (by simp only [P16]; omega)
        simp only [P16High, h1, h2, if_true, if_false] at this
      · by_cases h3 : b / 1024 = e / 1024
        · exact Or.inr ⟨h2, h3⟩
        · have := (h (e / 1024 + 55232) 56320).mpr (by simp only [P16]; omega)
          simp only [P16High, h1, h2, h3, if_true, if_false] at this; omega
  · rintro (⟨h2, h1⟩ | ⟨h2, h3⟩)
    · refine ⟨fun x => ?_, fun x y => ?_⟩
      · simp only [S16High, S16]; omega
      · simp only [P16High, P16, h1, h2, if_true]; omega
    · refine ⟨fun x => ?_, fun x y => ?_⟩
      · simp only [S16High, S16]; omega
      · simp only [P16High, P16, if_neg h2, if_pos h3, if_neg (show ¬ e % 1024 = 0 by omega)]; omega

/-- **C28.** For all bounds, `range(b, e)` in UTF-16 matches exactly the encodings of the scalar values `b ≤ c < e` if and
only if the bounds satisfy `Utf16Ok`. -/
theorem C28_range_iff (hsz : CharSetLike.size C = 65536) (b e : Nat) :
    ∃ n : NFA C, rangeUtf16 b e = some n ∧ n.Wf ∧ ((∀ w, n.Lang w ↔ ScalarIn utf16 b e w) ↔ Utf16Ok b e) := by
  simp only [scalarIn16]
  have fin : ∀ {o : Option (NFA C)} {S : Nat → Prop} {P : Nat → Nat → Prop}, Builds o (SP S P) →
      (((∀ x, S x ↔ S16 b e x) ∧ (∀ x y, P x y ↔ P16 b e x y)) ↔ Utf16Ok b e) →
      ∃ n : NFA C, o = some n ∧ n.Wf ∧ ((∀ w, n.Lang w ↔ SP (S16 b e) (P16 b e) w) ↔ Utf16Ok b e) := by
    rintro o S P ⟨n, h1, h2, h3⟩ h
    refine ⟨n, h1, h2, ?_⟩
    simp only [h3]
    rw [sp_iff, h]
  simp only [rangeUtf16]
  by_cases h0 : 0x110000 ≤ e ∨ 0x110000 ≤ b
  · rw [if_pos h0]
    refine fin bs_empty ?_
    constructor
    · rintro ⟨h1, h2⟩
      refine Classical.byContradiction fun hn => ?_
      simp only [Utf16Ok] at hn
      have := (h2 0xdbff 0xdfff).mpr (by simp only [P16]; omega)
      exact this
    · intro h
      simp only [Utf16Ok] at h
      refine ⟨fun x => ?_, fun x y => ?_⟩
      · simp only [S16, false_iff]; omega
      · simp only [P16, false_iff]; omega
  · rw [if_neg h0]
    by_cases h1 : e < 0x10000
    · rw [if_pos h1]
      refine fin (builds_bmp hsz h1) ⟨fun _ => ?_, fun _ => ⟨fun _ => Iff.rfl, fun _ _ => Iff.rfl⟩⟩
      simp only [Utf16Ok]; omega
    · rw [if_neg h1]
      by_cases h2 : 0x10000 ≤ b
      · rw [if_pos h2]
        by_cases h3 : e ≤ b
        · simp only [utf16High, if_pos h3]
          refine fin bs_empty ⟨fun _ => Or.inr (Or.inl h3), fun _ => ⟨fun x => ?_, fun x y => ?_⟩⟩
          · simp only [S16, false_iff]; omega
          · simp only [P16, false_iff]; omega
        · refine fin (builds_high hsz h2 (by omega) (by omega)) ?_
          rw [high_iff h2 (by omega) (by omega)]
          simp only [Utf16Ok]; omega
      · rw [if_neg h2]
        refine fin (builds_mixed hsz (by omega) (by omega) (by omega)) ⟨fun _ => ?_, fun _ => ⟨fun _ => Iff.rfl, fun _ _ => Iff.rfl⟩⟩
        simp only [Utf16Ok]; omega

/-- C28 as stated, for bounds satisfying `Utf16Ok`: in particular all ranges that start in the BMP and end before U+10FFFF.
Missing: all other bounds, for which the statement is false by `C28_range_iff`. -/
theorem C28_range_partial (hsz : CharSetLike.size C = 65536) {b e : Nat} (hok : Utf16Ok b e) :
    ∃ n : NFA C, rangeUtf16 b e = some n ∧ n.Wf ∧ ∀ w, n.Lang w ↔ ScalarIn utf16 b e w := by
  obtain ⟨n, h1, h2, h3⟩ := C28_range_iff (C := C) hsz b e
  exact ⟨n, h1, h2, h3.mpr hok⟩

/-- Single characters: right in the BMP; outside it for every code point but the first and the last of each block of 1024. -/
theorem C28_character (hsz : CharSetLike.size C = 65536) {c : Nat} (hs : Scalar c) :
    ∃ n : NFA C, character rangeUtf16 c = some n ∧ n.Wf ∧
      ((∀ w, n.Lang w ↔ w = utf16 c) ↔ c < 0x10000 ∨ c % 1024 ≠ 0 ∧ c % 1024 ≠ 1023) := by
  have hc : c < 0x110000 := by simp only [Scalar] at hs; omega
  obtain ⟨n, h1, h2, h3⟩ := C28_range_iff (C := C) hsz c (c + 1)
  refine ⟨n, by rw [character, Nat.mod_eq_of_lt (by omega), h1], h2, ?_⟩
  have : ∀ w, ScalarIn utf16 c (c + 1) w ↔ w = utf16 c := by
    intro w
    constructor
    · rintro ⟨d, g1, g2, _, rfl⟩; rw [show d = c by omega]
    · rintro rfl; exact ⟨c, by omega, by omega, hs, rfl⟩
  simp only [this] at h3
  rw [h3]
  simp only [Utf16Ok]
  omega

/-- Concrete failures: U+10000 alone is not matched; `[U+10001 - U+103FF]` also matches U+10400, and U+1F3FF also U+1F400;
the range up to U+10FFFF matches nothing. -/
theorem C28_wrong (hsz : CharSetLike.size C = 65536) :
    (∀ n : NFA C, character rangeUtf16 0x10000 = some n → ¬ n.Lang (utf16 0x10000)) ∧
    (∀ n : NFA C, rangeUtf16 0x10001 0x10400 = some n → n.Lang (utf16 0x10400)) ∧
    (∀ n : NFA C, character rangeUtf16 0x1f3ff = some n → n.Lang (utf16 0x1f400)) ∧
    (∀ n : NFA C, rangeUtf16 0 0x110000 = some n → ∀ w, ¬ n.Lang w) := by
  refine ⟨fun n hn => ?_, fun n hn => ?_, fun n hn => ?_, fun n hn w => ?_⟩
  · rw [character, Nat.mod_eq_of_lt (by omega), rangeUtf16, if_neg (by omega), if_neg (by omega), if_pos (by omega)] at hn
    rw [((builds_high (C := C) hsz (by omega) (by omega) (by omega)).lang hn).2]
    simp [SP, utf16, S16High, P16High]
  · rw [rangeUtf16, if_neg (by omega), if_neg (by omega), if_pos (by omega)] at hn
    rw [((builds_high (C := C) hsz (by omega) (by omega) (by omega)).lang hn).2]
    simp [SP, utf16, S16High, P16High]
    exact ⟨_, _, ⟨rfl, rfl⟩, Or.inr ⟨by omega, by omega⟩⟩
  · rw [character, Nat.mod_eq_of_lt (by omega), rangeUtf16, if_neg (by omega), if_neg (by omega), if_pos (by omega)] at hn
    rw [((builds_high (C := C) hsz (by omega) (by omega) (by omega)).lang hn).2]
    simp [SP, utf16, S16High, P16High]
    exact ⟨_, _, ⟨rfl, rfl⟩, Or.inr ⟨by omega, by omega⟩⟩
  · rw [rangeUtf16, if_pos (by omega)] at hn
    rw [((bs_empty (C := C)).lang hn).2]
    simp [SP]

/-- Cases: a BMP range around the surrogates, one crossing into the supplementary planes, aligned and same-block ones. -/
example : Utf16Ok 0x61 0x7b ∧ Utf16Ok 0xd000 0xf000 ∧ Utf16Ok 0 0x10ffff ∧ Utf16Ok 0x20000 0x2a400 ∧ Utf16Ok 0x1f600 0x1f650 := by
  simp [Utf16Ok]
example : CharSetLike.size (SeqCS 65536) = 65536 ∧ CharSetLike.size (Verif.CharSet.Table 65536) = 65536 := ⟨rfl, rfl⟩

end Verif.Enc
