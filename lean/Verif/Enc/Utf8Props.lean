import Verif.Enc.Utf8Lemmas

set_option linter.unusedSectionVars false

/-!
# C27: character ranges in UTF-8

The claim fails in general; `C27_range_iff` says exactly for which bounds it holds.
-/

namespace Verif.Enc

open Verif.Auto Verif.Utf.Spec

variable {C : Type} [RangeSet C]

/-! ### The language of `rangeUtf8` -/

def L4 (b e : Nat) : Lang := TL (b / 262144 + 0xf0) (e / 262144 + 0xf0)
  [(b / 4096 % 64 + 0x80, e / 4096 % 64 + 0x80), (b / 64 % 64 + 0x80, e / 64 % 64 + 0x80), (b % 64 + 0x80, e % 64 + 0x80)]

def L3 (b e : Nat) : Lang :=
  if b < 0x10000 then
    if e ≤ 0x10000 then TL (b / 4096 + 0xe0) (e / 4096 + 0xe0) [(b / 64 % 64 + 0x80, e / 64 % 64 + 0x80), (b % 64 + 0x80, e % 64 + 0x80)]
    else fun w => TL (b / 4096 + 0xe0) 0xf0 [(b / 64 % 64 + 0x80, 0xc0), (b % 64 + 0x80, 0xc0)] w ∨ L4 0x10000 e w
  else L4 b e

def L2 (b e : Nat) : Lang :=
  if b < 0x800 then
    if e ≤ 0x800 then TL (b / 64 + 0xc0) (e / 64 + 0xc0) [(b % 64 + 0x80, e % 64 + 0x80)]
    else fun w => TL (b / 64 + 0xc0) 0xe0 [(b % 64 + 0x80, 0xc0)] w ∨ L3 0x800 e w
  else L3 b e

def L1 (b e : Nat) : Lang :=
  if b < 0x80 then
    if e ≤ 0x80 then TL b e [] else fun w => TL b 0x80 [] w ∨ L2 0x80 e w
  else L2 b e

theorem and3f (a : Nat) : a &&& 0x3f = a % 64 := Nat.and_two_pow_sub_one_eq_mod a 6

theorem add4 (hsz : CharSetLike.size C = 256) {b e : Nat} (hb : b < 0x400000) (he : e < 0x400000) {o : NFA C} {M : Lang}
    (h : Builds (some o) M) : Builds (addUtf8_4 o b e) (fun w => M w ∨ L4 b e w) := by
  simp only [addUtf8_4, and3f, Nat.shiftRight_eq_div_pow, L4]
  exact h.alt (builds_tuples hsz _ _ _ (by omega) (by omega) (by simp; omega))

theorem add3 (hsz : CharSetLike.size C = 256) {b e : Nat} (hb : b < 0x400000) (he : e < 0x400000) {o : NFA C} {M : Lang}
    (h : Builds (some o) M) : Builds (addUtf8_3 o b e) (fun w => M w ∨ L3 b e w) := by
  simp only [addUtf8_3, and3f, Nat.shiftRight_eq_div_pow, L3]
  split
  · split
    · exact h.alt (builds_tuples hsz _ _ _ (by omega) (by omega) (by simp; omega))
    · obtain ⟨n, h1, h2⟩ := h.alt (builds_tuples (C := C) hsz [(b / 64 % 64 + 0x80, 0xc0), (b % 64 + 0x80, 0xc0)] (b / 4096 + 0xe0) 0xf0
        (by omega) (by omega) (by simp; omega))
      simp only [Option.bind_eq_bind, Option.bind_some] at h1
      have h4 := add4 hsz (b := 0x10000) (by omega) he (o := n) ⟨n, rfl, h2⟩
      simp only [Nat.reduceAdd, Nat.reducePow] at h1 ⊢
      simp only [Option.bind_eq_bind] at h1 ⊢
      cases ht : (tuples (b / 4096 + 224) 240 [(b / 64 % 64 + 128, 192), (b % 64 + 128, 192)] : Option (NFA C)) with
      | none => simp [ht] at h1
      | some t =>
        simp only [ht, Option.bind_some] at h1 ⊢
        simp only [h1, Option.bind_some]
        exact h4.congr fun w => by simp only [or_assoc]
  · exact add4 hsz hb he h

theorem add2 (hsz : CharSetLike.size C = 256) {b e : Nat} (hb : b < 0x400000) (he : e < 0x400000) {o : NFA C} {M : Lang}
    (h : Builds (some o) M) : Builds (addUtf8_2 o b e) (fun w => M w ∨ L2 b e w) := by
  simp only [addUtf8_2, and3f, Nat.shiftRight_eq_div_pow, L2]
  split
  · split
    · exact h.alt (builds_tuples hsz _ _ _ (by omega) (by omega) (by simp; omega))
    · obtain ⟨n, h1, h2⟩ := h.alt (builds_tuples (C := C) hsz [(b % 64 + 0x80, 0xc0)] (b / 64 + 0xc0) 0xe0
        (by omega) (by omega) (by simp; omega))
      simp only [Option.bind_eq_bind, Option.bind_some] at h1
      have h4 := add3 hsz (b := 0x800) (by omega) he (o := n) ⟨n, rfl, h2⟩
      simp only [Nat.reduceAdd, Nat.reducePow] at h1 ⊢
      simp only [Option.bind_eq_bind] at h1 ⊢
      cases ht : (tuples (b / 64 + 192) 224 [(b % 64 + 128, 192)] : Option (NFA C)) with
      | none => simp [ht] at h1
      | some t =>
        simp only [ht, Option.bind_some] at h1 ⊢
        simp only [h1, Option.bind_some]
        exact h4.congr fun w => by simp only [or_assoc]
  · exact add3 hsz hb he h

theorem builds_utf8 (hsz : CharSetLike.size C = 256) {b e : Nat} (hb : b < 0x400000) (he : e < 0x400000) :
    Builds (rangeUtf8 b e : Option (NFA C)) (L1 b e) := by
  simp only [rangeUtf8, addUtf8, L1]
  split
  · split
    · exact (builds_empty.alt (builds_tuples hsz _ _ _ (by omega) (by omega) (by simp))).congr fun w => by simp
    · obtain ⟨n, h1, h2⟩ := builds_empty.alt (builds_tuples (C := C) hsz [] b 0x80 (by omega) (by omega) (by simp))
      have h4 := add2 hsz (b := 0x80) (by omega) he (o := n) ⟨n, rfl, h2⟩
      simp only [Option.bind_eq_bind, Option.bind_some] at h1 ⊢
      cases ht : (tuples b 128 [] : Option (NFA C)) with
      | none => simp [ht] at h1
      | some t =>
        simp only [ht, Option.bind_some] at h1 ⊢
        simp only [h1, Option.bind_some]
        exact h4.congr fun w => by simp
  · exact (add2 hsz hb he builds_empty).congr fun w => by simp

/-! ### The specification, per length -/

theorem enc1 {b e : Nat} (he : e ≤ 0x80) (w : List Nat) : EncodedIn utf8 b e w ↔ TL b e [] w := by
  simp only [EncodedIn, TL]
  constructor
  · rintro ⟨c, h1, h2, rfl⟩
    refine ⟨c, ?_, h1, h2⟩
    rw [utf8, if_pos (by omega)]
  · rintro ⟨c, rfl, h1, h2⟩
    refine ⟨c, h1, h2, ?_⟩
    rw [utf8, if_pos (by omega)]

theorem enc2 {b e : Nat} (hb : 0x80 ≤ b) (he : e ≤ 0x800) (w : List Nat) :
    EncodedIn utf8 b e w ↔ ∃ x y, w = [x, y] ∧ Cont y ∧ b + 12416 ≤ 64 * x + y ∧ 64 * x + y < e + 12416 := by
  simp only [EncodedIn, Cont]
  constructor
  · rintro ⟨c, h1, h2, rfl⟩
    refine ⟨0xc0 + c / 64, 0x80 + c % 64, ?_, by omega, by omega, by omega⟩
    rw [utf8, if_neg (by omega), if_pos (by omega)]
  · rintro ⟨x, y, rfl, h0, h1, h2⟩
    refine ⟨64 * x + y - 12416, by omega, by omega, ?_⟩
    rw [utf8, if_neg (by omega), if_pos (by omega)]
    simp only [List.cons.injEq, and_true]
    exact ⟨by omega, by omega⟩

theorem enc3 {b e : Nat} (hb : 0x800 ≤ b) (he : e ≤ 0x10000) (w : List Nat) :
    EncodedIn utf8 b e w ↔ ∃ x y z, w = [x, y, z] ∧ Cont y ∧ Cont z ∧ b + 925824 ≤ 4096 * x + 64 * y + z ∧
      4096 * x + 64 * y + z < e + 925824 := by
  simp only [EncodedIn, Cont]
  constructor
  · rintro ⟨c, h1, h2, rfl⟩
    refine ⟨0xe0 + c / 4096, 0x80 + c / 64 % 64, 0x80 + c % 64, ?_, by omega, by omega, by omega, by omega⟩
    rw [utf8, if_neg (by omega), if_neg (by omega), if_pos (by omega)]
  · rintro ⟨x, y, z, rfl, h0, h0', h1, h2⟩
    refine ⟨4096 * x + 64 * y + z - 925824, by omega, by omega, ?_⟩
    rw [utf8, if_neg (by omega), if_neg (by omega), if_pos (by omega)]
    simp only [List.cons.injEq, and_true]
    exact ⟨by omega, by omega, by omega⟩

theorem enc4 {b e : Nat} (hb : 0x10000 ≤ b) (w : List Nat) :
    EncodedIn utf8 b e w ↔ ∃ x y z u, w = [x, y, z, u] ∧ Cont y ∧ Cont z ∧ Cont u ∧ b + 63447168 ≤ 262144 * x + 4096 * y + 64 * z + u ∧
      262144 * x + 4096 * y + 64 * z + u < e + 63447168 := by
  simp only [EncodedIn, Cont]
  constructor
  · rintro ⟨c, h1, h2, rfl⟩
    refine ⟨0xf0 + c / 262144, 0x80 + c / 4096 % 64, 0x80 + c / 64 % 64, 0x80 + c % 64, ?_, by omega, by omega, by omega, by omega, by omega⟩
    rw [utf8, if_neg (by omega), if_neg (by omega), if_neg (by omega)]
  · rintro ⟨x, y, z, u, rfl, h0, h0', h0'', h1, h2⟩
    refine ⟨262144 * x + 4096 * y + 64 * z + u - 63447168, by omega, by omega, ?_⟩
    rw [utf8, if_neg (by omega), if_neg (by omega), if_neg (by omega)]
    simp only [List.cons.injEq, and_true]
    exact ⟨by omega, by omega, by omega, by omega⟩

theorem enc_split {b m e : Nat} (h1 : b ≤ m) (h2 : m ≤ e) (w : List Nat) :
    EncodedIn utf8 b e w ↔ EncodedIn utf8 b m w ∨ EncodedIn utf8 m e w := by
  constructor
  · rintro ⟨c, g1, g2, rfl⟩
    by_cases h : c < m
    · exact Or.inl ⟨c, g1, h, rfl⟩
    · exact Or.inr ⟨c, by omega, g2, rfl⟩
  · rintro (⟨c, g1, g2, rfl⟩ | ⟨c, g1, g2, rfl⟩) <;> exact ⟨c, by omega, by omega, rfl⟩

/-- The bounds for which the UTF-8 automaton is right. -/
def Utf8Ok (b e : Nat) : Prop :=
  e ≤ 0x800 ∨
  0x800 ≤ b ∧ e ≤ 0x10000 ∧ (b / 4096 = (e - 1) / 4096 ∨ b % 64 = 0 ∧ e % 64 = 0) ∨
  0x10000 ≤ b ∧ (b / 262144 = e / 262144 ∧ (b / 4096 = (e - 1) / 4096 ∨ b % 64 = 0 ∧ e % 64 = 0) ∨ b % 4096 = 0 ∧ e % 4096 = 0 ∨
    e % 262144 = 0 ∧ b / 4096 + 1 = e / 4096 ∧ b / 64 % 64 = 0)

theorem L2_right {b e : Nat} (hb : 0x80 ≤ b) (hbe : b < e) (he : e ≤ 0x800) (w : List Nat) : L2 b e w ↔ EncodedIn utf8 b e w := by
  rw [L2, if_pos (by omega), if_pos he, enc2 hb he, TL2]
  refine exists_congr fun x => exists_congr fun y => and_congr_right fun _ => ?_
  rw [val2 (by omega) (by omega) (by omega) (by omega) (by omega)]
  refine and_congr_right fun _ => ?_
  omega

theorem digits3 (b : Nat) : 4096 * (b / 4096 + 0xe0) + 64 * (b / 64 % 64 + 0x80) + (b % 64 + 0x80) = b + 925824 := by omega

theorem digits4 (b : Nat) :
    262144 * (b / 262144 + 0xf0) + 4096 * (b / 4096 % 64 + 0x80) + 64 * (b / 64 % 64 + 0x80) + (b % 64 + 0x80) = b + 63447168 := by
  omega

theorem L3_iff {b e : Nat} (hb : 0x800 ≤ b) (hbe : b < e) (he : e ≤ 0x10000) :
    (∀ w, L3 b e w ↔ EncodedIn utf8 b e w) ↔ (b / 4096 = (e - 1) / 4096 ∨ b % 64 = 0 ∧ e % 64 = 0) := by
  simp only [L3, if_pos (show b < 0x10000 by omega), if_pos he, enc3 hb he, TL3]
  have c1 : Cont (b / 64 % 64 + 0x80) := by simp only [Cont]; omega
  have c2 : Cont (b % 64 + 0x80) := by simp only [Cont]; omega
  have d1 : Cont (e / 64 % 64 + 0x80) := by simp only [Cont]; omega
  have d2 : Cont (e % 64 + 0x80) := by simp only [Cont]; omega
  have hR : R3 (b / 4096 + 0xe0) (e / 4096 + 0xe0) (e / 64 % 64 + 0x80) (b % 64 + 0x80) (e % 64 + 0x80) ↔
      (b / 4096 = (e - 1) / 4096 ∨ b % 64 = 0 ∧ e % 64 = 0) := by
    simp only [R3]; omega
  rw [← hR]
  constructor
  · intro h
    refine Classical.byContradiction fun hn => ?_
    obtain ⟨x, y, z, _, _, hw⟩ := val3_wrong c1 d1 c2 d2 (by omega) hn
    apply hw
    have := h [x, y, z]
    rw [digits3, digits3]
    constructor
    · intro hp
      obtain ⟨_, _, _, he, hq⟩ := this.mp ⟨x, y, z, rfl, hp⟩
      cases he; exact hq
    · intro hp
      obtain ⟨_, _, _, he, hq⟩ := this.mpr ⟨x, y, z, rfl, hp⟩
      cases he; exact hq
  · intro h w
    refine exists_congr fun x => exists_congr fun y => exists_congr fun z => and_congr_right fun _ => ?_
    rw [val3 c1 d1 c2 d2 (by omega) h]
    refine and_congr_right fun _ => and_congr_right fun _ => ?_
    omega

theorem L4_iff {b e : Nat} (hbe : b < e) (hb : 0x10000 ≤ b) :
    (∀ w, L4 b e w ↔ EncodedIn utf8 b e w) ↔
      (b / 262144 = e / 262144 ∧ (b / 4096 = (e - 1) / 4096 ∨ b % 64 = 0 ∧ e % 64 = 0) ∨ b % 4096 = 0 ∧ e % 4096 = 0 ∨
        e % 262144 = 0 ∧ b / 4096 + 1 = e / 4096 ∧ b / 64 % 64 = 0) := by
  simp only [L4, enc4 hb, TL4]
  have c0 : Cont (b / 4096 % 64 + 0x80) := by simp only [Cont]; omega
  have c1 : Cont (b / 64 % 64 + 0x80) := by simp only [Cont]; omega
  have c2 : Cont (b % 64 + 0x80) := by simp only [Cont]; omega
  have d0 : Cont (e / 4096 % 64 + 0x80) := by simp only [Cont]; omega
  have d1 : Cont (e / 64 % 64 + 0x80) := by simp only [Cont]; omega
  have d2 : Cont (e % 64 + 0x80) := by simp only [Cont]; omega
  have hR : R4 (b / 262144 + 0xf0) (e / 262144 + 0xf0) (b / 4096 % 64 + 0x80) (e / 4096 % 64 + 0x80) (b / 64 % 64 + 0x80) (e / 64 % 64 + 0x80)
      (b % 64 + 0x80) (e % 64 + 0x80) ↔
      (b / 262144 = e / 262144 ∧ (b / 4096 = (e - 1) / 4096 ∨ b % 64 = 0 ∧ e % 64 = 0) ∨ b % 4096 = 0 ∧ e % 4096 = 0 ∨
        e % 262144 = 0 ∧ b / 4096 + 1 = e / 4096 ∧ b / 64 % 64 = 0) := by
    simp only [R4, R3]
    refine or_congr ?_ (or_congr ?_ ?_)
    · omega
    · omega
    · omega
  rw [← hR]
  constructor
  · intro h
    refine Classical.byContradiction fun hn => ?_
    obtain ⟨x, y, z, u, _, _, hw⟩ := val4_wrong c0 d0 c1 d1 c2 d2 (by omega) hn
    apply hw
    have := h [x, y, z, u]
    rw [digits4, digits4]
    constructor
    · intro hp
      obtain ⟨_, _, _, _, he, hq⟩ := this.mp ⟨x, y, z, u, rfl, hp⟩
      cases he; exact hq
    · intro hp
      obtain ⟨_, _, _, _, he, hq⟩ := this.mpr ⟨x, y, z, u, rfl, hp⟩
      cases he; exact hq
  · intro h w
    refine exists_congr fun x => exists_congr fun y => exists_congr fun z => exists_congr fun u => and_congr_right fun _ => ?_
    rw [val4 c0 d0 c1 d1 c2 d2 (by omega) h, digits4, digits4]

theorem utf8_ne2 (c : Nat) : utf8 c ≠ [0xe0, 0x80] := by
  unfold utf8
  split
  · simp
  · split
    · simp; omega
    · split <;> simp

theorem utf8_ne3 (c y z : Nat) : utf8 c ≠ [0xf0, y, z] := by
  unfold utf8
  split
  · simp
  · split
    · simp
    · split
      · simp; omega
      · simp

/-- **C27.** For bounds `b < e` within Unicode, `range(b, e)` in UTF-8 matches exactly the encodings of the code points
`b ≤ c < e` if and only if the bounds satisfy `Utf8Ok`.  (Surrogates count as code points here: the code does not exclude
them.) -/
theorem C27_range_iff (hsz : CharSetLike.size C = 256) {b e : Nat} (hbe : b < e) (he : e ≤ 0x110000) :
    ∃ n : NFA C, rangeUtf8 b e = some n ∧ n.Wf ∧ ((∀ w, n.Lang w ↔ EncodedIn utf8 b e w) ↔ Utf8Ok b e) := by
  obtain ⟨n, h1, h2, h3⟩ := builds_utf8 (C := C) hsz (b := b) (e := e) (by omega) (by omega)
  refine ⟨n, h1, h2, ?_⟩
  simp only [h3]
  by_cases a1 : e ≤ 0x80
  · refine ⟨fun _ => Or.inl (by omega), fun _ w => ?_⟩
    rw [L1, if_pos (by omega), if_pos a1, enc1 a1]
  by_cases a2 : e ≤ 0x800
  · refine ⟨fun _ => Or.inl a2, fun _ w => ?_⟩
    rw [L1]
    split
    · show TL b 128 [] w ∨ L2 128 e w ↔ _
      rw [enc_split (m := 0x80) (by omega) (by omega), ← enc1 (Nat.le_refl _), L2_right (Nat.le_refl _) (by omega) a2]
    · exact L2_right (by omega) hbe a2 w
  by_cases b2 : b < 0x800
  · refine ⟨fun h => ?_, fun h => ?_⟩
    · exfalso
      have : L1 b e [0xe0, 0x80] := by
        have key : ∀ b', 0x80 ≤ b' → b' < 0x800 → L2 b' e [0xe0, 0x80] := by
          intro b' g1 g2
          rw [L2, if_pos (by omega), if_neg a2]
          refine Or.inl (TL2.mpr ⟨_, _, rfl, ?_⟩)
          rw [val2 (by omega) (by omega) (by omega) (by omega) (by omega)]
          simp only [Cont]; omega
        rw [L1]
        split
        · exact Or.inr (key 0x80 (by omega) (by omega))
        · exact key b (by omega) b2
      obtain ⟨c, _, _, hc⟩ := (h _).mp this
      exact utf8_ne2 c hc.symm
    · simp only [Utf8Ok] at h; omega
  have hL : ∀ w, L1 b e w ↔ L3 b e w := fun w => by rw [L1, if_neg (by omega), L2, if_neg (by omega)]
  simp only [hL]
  by_cases a3 : e ≤ 0x10000
  · rw [L3_iff (by omega) hbe a3]
    simp only [Utf8Ok]; omega
  by_cases b3 : b < 0x10000
  · refine ⟨fun h => ?_, fun h => ?_⟩
    · exfalso
      have : L3 b e [0xf0, 0x80, b % 64 + 0x80] := by
        rw [L3, if_pos b3, if_neg a3]
        refine Or.inl (TL3.mpr ⟨_, _, _, rfl, ?_⟩)
        rw [P3]
        refine Or.inr ⟨by omega, Or.inr (Or.inr ⟨rfl, ?_⟩)⟩
        rw [val2 (by omega) (by omega) (by omega) (by omega) (by omega)]
        simp only [Cont]; omega
      obtain ⟨c, _, _, hc⟩ := (h _).mp this
      exact utf8_ne3 c _ _ hc.symm
    · simp only [Utf8Ok] at h; omega
  have hL : ∀ w, L3 b e w ↔ L4 b e w := fun w => by rw [L3, if_neg (by omega)]
  simp only [hL]
  rw [L4_iff hbe (by omega)]
  simp only [Utf8Ok]; omega

/-- The range of one code point: right for every code point but the last of each group of 2¹⁸ outside the BMP
(U+3FFFF, U+7FFFF, U+BFFFF, U+FFFFF, all noncharacters). -/
theorem C27_character (hsz : CharSetLike.size C = 256) {c : Nat} (hc : c < 0x110000) (h : c < 0x10000 ∨ c % 0x40000 ≠ 0x3ffff) :
    ∃ n : NFA C, character rangeUtf8 c = some n ∧ n.Wf ∧ ∀ w, n.Lang w ↔ w = utf8 c := by
  obtain ⟨n, h1, h2, h3⟩ := C27_range_iff (C := C) hsz (b := c) (e := c + 1) (by omega) (by omega)
  refine ⟨n, by rw [character, Nat.mod_eq_of_lt (by omega), h1], h2, fun w => ?_⟩
  rw [h3.mpr (by simp only [Utf8Ok]; omega)]
  constructor
  · rintro ⟨d, g1, g2, rfl⟩
    rw [show d = c by omega]
  · rintro rfl
    exact ⟨c, by omega, by omega, rfl⟩

/-- C27 as stated, for bounds satisfying `Utf8Ok` and a range without surrogates.  Missing: all other bounds, for which
the statement is false by `C27_range_iff`. -/
theorem C27_range_partial (hsz : CharSetLike.size C = 256) {b e : Nat} (hbe : b < e) (he : e ≤ 0x110000) (hok : Utf8Ok b e)
    (hs : e ≤ 0xd800 ∨ 0xe000 ≤ b) :
    ∃ n : NFA C, rangeUtf8 b e = some n ∧ n.Wf ∧ ∀ w, n.Lang w ↔ ScalarIn utf8 b e w := by
  obtain ⟨n, h1, h2, h3⟩ := C27_range_iff (C := C) hsz hbe he
  refine ⟨n, h1, h2, fun w => (h3.mpr hok w).trans ?_⟩
  constructor
  · rintro ⟨c, g1, g2, rfl⟩; exact ⟨c, g1, g2, by simp only [Scalar]; omega, rfl⟩
  · rintro ⟨c, g1, g2, _, rfl⟩; exact ⟨c, g1, g2, rfl⟩

/-- Concrete failures: `[U+0820 - U+1FFF]` misses U+1000; a range crossing U+0800 matches the ill-formed `E0 80`; U+3FFFF
also matches U+40FFF. -/
theorem C27_wrong (hsz : CharSetLike.size C = 256) :
    (∀ n : NFA C, rangeUtf8 0x820 0x2000 = some n → ¬ n.Lang (utf8 0x1000)) ∧
    (∀ n : NFA C, rangeUtf8 0x7ff 0x801 = some n → n.Lang [0xe0, 0x80]) ∧
    (∀ n : NFA C, character rangeUtf8 0x3ffff = some n → n.Lang (utf8 0x40fff)) := by
  refine ⟨fun n hn => ?_, fun n hn => ?_, fun n hn => ?_⟩
  · rw [((builds_utf8 (C := C) hsz (by omega) (by omega)).lang hn).2]
    simp [L1, L2, L3, TL, utf8]
  · rw [((builds_utf8 (C := C) hsz (by omega) (by omega)).lang hn).2]
    simp [L1, L2, TL]
    exact Or.inl ⟨224, [128], ⟨rfl, rfl⟩, Or.inr (Or.inr ⟨rfl, 128, rfl, by omega, by omega⟩)⟩
  · rw [character, Nat.mod_eq_of_lt (by omega)] at hn
    rw [((builds_utf8 (C := C) hsz (by omega) (by omega)).lang hn).2]
    simp [L1, L2, L3, L4, TL, utf8]
    exact ⟨241, [128,191,191], ⟨rfl, rfl⟩, Or.inr (Or.inr ⟨rfl, 128, [191,191], rfl, rfl, 191, [191], rfl, Or.inl ⟨rfl, 191, rfl, by omega, by omega⟩⟩)⟩

/-- Cases: one block, aligned bounds, and both set types. -/
example : Utf8Ok 0x61 0x7b ∧ Utf8Ok 0xc0 0x250 ∧ Utf8Ok 0x2000 0x2070 ∧ Utf8Ok 0x4e00 0xa000 ∧ Utf8Ok 0x20000 0x2a000 := by
  simp [Utf8Ok]
example : CharSetLike.size (SeqCS 256) = 256 ∧ CharSetLike.size (Verif.CharSet.Table 256) = 256 := ⟨rfl, rfl⟩

end Verif.Enc
