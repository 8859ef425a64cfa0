import Verif.Enc.Lemmas

set_option linter.unusedSectionVars false

/-!
# UTF-8 ranges: arithmetic
-/

namespace Verif.Enc

open Verif.Auto Verif.Utf.Spec

variable {C : Type} [RangeSet C]

def P2 (f0 t0 f1 t1 x y : Nat) : Prop :=
  f0 = t0 ∧ x = f0 ∧ f1 ≤ y ∧ y < t1 ∨
  f0 ≠ t0 ∧ (x = f0 ∧ f1 ≤ y ∧ y < 0xc0 ∨ f0 < x ∧ x < t0 ∧ 0x80 ≤ y ∧ y < 0xc0 ∨ x = t0 ∧ 0x80 ≤ y ∧ y < t1)

def P3 (f0 t0 f1 t1 f2 t2 x y z : Nat) : Prop :=
  f0 = t0 ∧ x = f0 ∧ P2 f1 t1 f2 t2 y z ∨
  f0 ≠ t0 ∧ (x = f0 ∧ P2 f1 0xc0 f2 t2 y z ∨ f0 < x ∧ x < t0 ∧ P2 0x80 0xc0 f2 t2 y z ∨ x = t0 ∧ P2 0x80 t1 f2 t2 y z)

def P4 (f0 t0 f1 t1 f2 t2 f3 t3 x y z u : Nat) : Prop :=
  f0 = t0 ∧ x = f0 ∧ P3 f1 t1 f2 t2 f3 t3 y z u ∨
  f0 ≠ t0 ∧ (x = f0 ∧ P3 f1 0xc0 f2 t2 f3 t3 y z u ∨ f0 < x ∧ x < t0 ∧ P3 0x80 0xc0 f2 t2 f3 t3 y z u ∨
    x = t0 ∧ P3 0x80 t1 f2 t2 f3 t3 y z u)

theorem TL2 {f0 t0 f1 t1 : Nat} {w : List Nat} : TL f0 t0 [(f1, t1)] w ↔ ∃ x y, w = [x, y] ∧ P2 f0 t0 f1 t1 x y := by
  simp only [TL, P2]
  constructor
  · rintro ⟨x, v, rfl, h⟩
    rcases h with ⟨h1, h2, y, rfl, h⟩ | ⟨h1, ⟨h2, y, rfl, h⟩ | ⟨h2, h3, y, rfl, h⟩ | ⟨h2, y, rfl, h⟩⟩ <;>
      exact ⟨x, y, rfl, by omega⟩
  · rintro ⟨x, y, rfl, h⟩
    refine ⟨x, [y], rfl, ?_⟩
    simp only [List.cons.injEq, and_true]
    rcases h with ⟨h1, h2, h⟩ | ⟨h1, ⟨h2, h⟩ | ⟨h2, h3, h⟩ | ⟨h2, h⟩⟩
    · exact Or.inl ⟨h1, h2, y, rfl, h⟩
    · exact Or.inr ⟨h1, Or.inl ⟨h2, y, rfl, h⟩⟩
    · exact Or.inr ⟨h1, Or.inr (Or.inl ⟨h2, h3, y, rfl, h⟩)⟩
    · exact Or.inr ⟨h1, Or.inr (Or.inr ⟨h2, y, rfl, h⟩)⟩

theorem TL3 {f0 t0 f1 t1 f2 t2 : Nat} {w : List Nat} :
    TL f0 t0 [(f1, t1), (f2, t2)] w ↔ ∃ x y z, w = [x, y, z] ∧ P3 f0 t0 f1 t1 f2 t2 x y z := by
  rw [TL]
  simp only [TL2]
  constructor
  · rintro ⟨x, v, rfl, h⟩
    rcases h with ⟨h1, h2, y, z, rfl, h⟩ | ⟨h1, ⟨h2, y, z, rfl, h⟩ | ⟨h2, h3, y, z, rfl, h⟩ | ⟨h2, y, z, rfl, h⟩⟩ <;>
      refine ⟨x, y, z, rfl, ?_⟩
    · exact Or.inl ⟨h1, h2, h⟩
    · exact Or.inr ⟨h1, Or.inl ⟨h2, h⟩⟩
    · exact Or.inr ⟨h1, Or.inr (Or.inl ⟨h2, h3, h⟩)⟩
    · exact Or.inr ⟨h1, Or.inr (Or.inr ⟨h2, h⟩)⟩
  · rintro ⟨x, y, z, rfl, h⟩
    refine ⟨x, [y, z], rfl, ?_⟩
    rcases h with ⟨h1, h2, h⟩ | ⟨h1, ⟨h2, h⟩ | ⟨h2, h3, h⟩ | ⟨h2, h⟩⟩
    · exact Or.inl ⟨h1, h2, y, z, rfl, h⟩
    · exact Or.inr ⟨h1, Or.inl ⟨h2, y, z, rfl, h⟩⟩
    · exact Or.inr ⟨h1, Or.inr (Or.inl ⟨h2, h3, y, z, rfl, h⟩)⟩
    · exact Or.inr ⟨h1, Or.inr (Or.inr ⟨h2, y, z, rfl, h⟩)⟩

theorem TL4 {f0 t0 f1 t1 f2 t2 f3 t3 : Nat} {w : List Nat} :
    TL f0 t0 [(f1, t1), (f2, t2), (f3, t3)] w ↔ ∃ x y z u, w = [x, y, z, u] ∧ P4 f0 t0 f1 t1 f2 t2 f3 t3 x y z u := by
  rw [TL]
  simp only [TL3]
  constructor
  · rintro ⟨x, v, rfl, h⟩
    rcases h with ⟨h1, h2, y, z, u, rfl, h⟩ | ⟨h1, ⟨h2, y, z, u, rfl, h⟩ | ⟨h2, h3, y, z, u, rfl, h⟩ | ⟨h2, y, z, u, rfl, h⟩⟩ <;>
      refine ⟨x, y, z, u, rfl, ?_⟩
    · exact Or.inl ⟨h1, h2, h⟩
    · exact Or.inr ⟨h1, Or.inl ⟨h2, h⟩⟩
    · exact Or.inr ⟨h1, Or.inr (Or.inl ⟨h2, h3, h⟩)⟩
    · exact Or.inr ⟨h1, Or.inr (Or.inr ⟨h2, h⟩)⟩
  · rintro ⟨x, y, z, u, rfl, h⟩
    refine ⟨x, [y, z, u], rfl, ?_⟩
    rcases h with ⟨h1, h2, h⟩ | ⟨h1, ⟨h2, h⟩ | ⟨h2, h3, h⟩ | ⟨h2, h⟩⟩
    · exact Or.inl ⟨h1, h2, y, z, u, rfl, h⟩
    · exact Or.inr ⟨h1, Or.inl ⟨h2, y, z, u, rfl, h⟩⟩
    · exact Or.inr ⟨h1, Or.inr (Or.inl ⟨h2, h3, y, z, u, rfl, h⟩)⟩
    · exact Or.inr ⟨h1, Or.inr (Or.inr ⟨h2, y, z, u, rfl, h⟩)⟩

/-- A continuation byte. -/
def Cont (y : Nat) : Prop := 0x80 ≤ y ∧ y < 0xc0

/-- Two positions are always compared correctly. -/
theorem val2 {f0 t0 f1 t1 x y : Nat} (h0 : f0 ≤ t0) (h1 : 0x80 ≤ f1) (h1' : f1 ≤ 0xc0) (g1 : 0x80 ≤ t1) (g1' : t1 ≤ 0xc0) :
    P2 f0 t0 f1 t1 x y ↔ Cont y ∧ 64 * f0 + f1 ≤ 64 * x + y ∧ 64 * x + y < 64 * t0 + t1 := by
  simp only [P2, Cont]
  omega

/-- The condition under which three positions are compared correctly. -/
def R3 (f0 t0 t1 f2 t2 : Nat) : Prop := f0 = t0 ∨ f0 + 1 = t0 ∧ t1 = 0x80 ∧ t2 = 0x80 ∨ f2 = 0x80 ∧ t2 = 0x80

/-- `P3` with `P2` replaced by its meaning. -/
theorem P3_eq {f0 t0 f1 t1 f2 t2 x y z : Nat} (h1 : Cont f1) (g1 : Cont t1) (h2 : Cont f2) (g2 : Cont t2) (hne : f0 ≠ t0) :
    P3 f0 t0 f1 t1 f2 t2 x y z ↔ Cont z ∧
      (x = f0 ∧ 64 * f1 + f2 ≤ 64 * y + z ∧ 64 * y + z < 64 * 0xc0 + t2 ∨
       f0 < x ∧ x < t0 ∧ 64 * 0x80 + f2 ≤ 64 * y + z ∧ 64 * y + z < 64 * 0xc0 + t2 ∨
       x = t0 ∧ 64 * 0x80 + f2 ≤ 64 * y + z ∧ 64 * y + z < 64 * t1 + t2) := by
  simp only [Cont] at h1 g1 h2 g2
  simp only [P3]
  rw [val2 (f0 := f1) (t0 := 0xc0) (by omega) h2.1 (by omega) g2.1 (by omega),
    val2 (f0 := 0x80) (t0 := 0xc0) (by omega) h2.1 (by omega) g2.1 (by omega),
    val2 (f0 := 0x80) (t0 := t1) (by omega) h2.1 (by omega) g2.1 (by omega)]
  tauto

theorem P3_same {f0 f1 t1 f2 t2 x y z : Nat} : P3 f0 f0 f1 t1 f2 t2 x y z ↔ x = f0 ∧ P2 f1 t1 f2 t2 y z := by
  simp [P3]

theorem val3 {f0 t0 f1 t1 f2 t2 x y z : Nat} (h1 : Cont f1) (g1 : Cont t1) (h2 : Cont f2) (g2 : Cont t2)
    (h : 4096 * f0 + 64 * f1 + f2 ≤ 4096 * t0 + 64 * t1 + t2) (hr : R3 f0 t0 t1 f2 t2) :
    P3 f0 t0 f1 t1 f2 t2 x y z ↔ Cont y ∧ Cont z ∧ 4096 * f0 + 64 * f1 + f2 ≤ 4096 * x + 64 * y + z ∧
      4096 * x + 64 * y + z < 4096 * t0 + 64 * t1 + t2 := by
  by_cases he : f0 = t0
  · subst he
    simp only [Cont] at *
    rw [P3_same, val2 (by omega) h2.1 (by omega) g2.1 (by omega)]
    simp only [Cont]
    constructor
    · rintro ⟨rfl, _⟩; omega
    · rintro ⟨_, _, _, _⟩
      have : x = f0 := by omega
      subst this; omega
  · rw [P3_eq h1 g1 h2 g2 he]
    simp only [Cont, R3] at *
    have hle : f0 < t0 := by omega
    constructor
    · rintro ⟨_, ⟨rfl, _⟩ | _ | ⟨rfl, _⟩⟩ <;> omega
    · rintro ⟨_, _, _, _⟩
      refine ⟨by omega, ?_⟩
      have : f0 ≤ x ∧ x ≤ t0 := by omega
      rcases Nat.lt_or_ge f0 x with c1 | c1
      · rcases Nat.lt_or_ge x t0 with c2 | c2
        · right; left; omega
        · right; right
          have : x = t0 := by omega
          subst this; omega
      · left
        have : x = f0 := by omega
        subst this; omega

/-- Otherwise a wrong triple exists. -/
theorem val3_wrong {f0 t0 f1 t1 f2 t2 : Nat} (h1 : Cont f1) (g1 : Cont t1) (h2 : Cont f2) (g2 : Cont t2)
    (h : 4096 * f0 + 64 * f1 + f2 < 4096 * t0 + 64 * t1 + t2) (hr : ¬ R3 f0 t0 t1 f2 t2) :
    ∃ x y z, f0 ≤ x ∧ x ≤ t0 ∧ ¬ (P3 f0 t0 f1 t1 f2 t2 x y z ↔ Cont y ∧ Cont z ∧ 4096 * f0 + 64 * f1 + f2 ≤ 4096 * x + 64 * y + z ∧
      4096 * x + 64 * y + z < 4096 * t0 + 64 * t1 + t2) := by
  have he : f0 ≠ t0 := fun h => hr (Or.inl h)
  have e := fun x y z => @P3_eq f0 t0 f1 t1 f2 t2 x y z h1 g1 h2 g2 he
  simp only [e]
  simp only [Cont, R3] at *
  by_cases c1 : t2 = 0x80
  · by_cases c2 : f0 + 2 ≤ t0
    · exact ⟨f0 + 1, 0x80, 0x80, by omega, by omega, by omega⟩
    · exact ⟨t0, 0x80, 0x80, by omega, by omega, by omega⟩
  · exact ⟨f0, 0xc0, 0x80, by omega, by omega, by omega⟩

/-- The condition for four positions. -/
def R4 (f0 t0 f1 t1 f2 t2 f3 t3 : Nat) : Prop :=
  f0 = t0 ∧ R3 f1 t1 t2 f3 t3 ∨ f2 = 0x80 ∧ f3 = 0x80 ∧ t2 = 0x80 ∧ t3 = 0x80 ∨
  f0 + 1 = t0 ∧ t1 = 0x80 ∧ t2 = 0x80 ∧ t3 = 0x80 ∧ f1 = 0xbf ∧ f2 = 0x80

theorem P4_same {f0 f1 t1 f2 t2 f3 t3 x y z u : Nat} : P4 f0 f0 f1 t1 f2 t2 f3 t3 x y z u ↔ x = f0 ∧ P3 f1 t1 f2 t2 f3 t3 y z u := by
  simp [P4]

theorem P4_ne {f0 t0 f1 t1 f2 t2 f3 t3 x y z u : Nat} (hne : f0 ≠ t0) : P4 f0 t0 f1 t1 f2 t2 f3 t3 x y z u ↔
    x = f0 ∧ P3 f1 0xc0 f2 t2 f3 t3 y z u ∨ f0 < x ∧ x < t0 ∧ P3 0x80 0xc0 f2 t2 f3 t3 y z u ∨ x = t0 ∧ P3 0x80 t1 f2 t2 f3 t3 y z u := by
  simp [P4, hne]

theorem val4 {f0 t0 f1 t1 f2 t2 f3 t3 x y z u : Nat} (h1 : Cont f1) (g1 : Cont t1) (h2 : Cont f2) (g2 : Cont t2) (h3 : Cont f3) (g3 : Cont t3)
    (h : 262144 * f0 + 4096 * f1 + 64 * f2 + f3 ≤ 262144 * t0 + 4096 * t1 + 64 * t2 + t3) (hr : R4 f0 t0 f1 t1 f2 t2 f3 t3) :
    P4 f0 t0 f1 t1 f2 t2 f3 t3 x y z u ↔ Cont y ∧ Cont z ∧ Cont u ∧
      262144 * f0 + 4096 * f1 + 64 * f2 + f3 ≤ 262144 * x + 4096 * y + 64 * z + u ∧
      262144 * x + 4096 * y + 64 * z + u < 262144 * t0 + 4096 * t1 + 64 * t2 + t3 := by
  have k1 := h1; have k2 := g1; have k3 := h2; have k4 := g2; have k5 := h3; have k6 := g3
  simp only [Cont] at k1 k2 k3 k4 k5 k6
  by_cases he : f0 = t0
  · subst he
    have hr3 : R3 f1 t1 t2 f3 t3 := by
      rcases hr with hr | hr | hr
      · exact hr.2
      · exact Or.inr (Or.inr ⟨hr.2.1, hr.2.2.2⟩)
      · omega
    rw [P4_same, val3 h2 g2 h3 g3 (by omega) hr3]
    simp only [Cont]
    constructor
    · rintro ⟨rfl, _⟩; omega
    · rintro ⟨_, _, _, _, _⟩
      have : x = f0 := by omega
      subst this; omega
  · rw [P4_ne he]
    have hlt : f0 < t0 := by omega
    rcases hr with hr | hr | hr
    · exact absurd hr.1 he
    · obtain ⟨rfl, rfl, rfl, rfl⟩ := hr
      rw [val3 (f0 := f1) (t0 := 0xc0) h2 g2 h3 g3 (by omega) (Or.inr (Or.inr (by omega))),
        val3 (f0 := 0x80) (t0 := 0xc0) h2 g2 h3 g3 (by omega) (Or.inr (Or.inr (by omega))),
        val3 (f0 := 0x80) (t0 := t1) h2 g2 h3 g3 (by omega) (Or.inr (Or.inr (by omega)))]
      simp only [Cont]
      constructor
      · rintro (⟨rfl, _⟩ | _ | ⟨rfl, _⟩) <;> omega
      · rintro ⟨_, _, _, _, _⟩
        have : f0 ≤ x ∧ x ≤ t0 := by omega
        rcases Nat.lt_or_ge f0 x with c1 | c1
        · rcases Nat.lt_or_ge x t0 with c2 | c2
          · right; left; omega
          · right; right
            have : x = t0 := by omega
            subst this; omega
        · left
          have : x = f0 := by omega
          subst this; omega
    · obtain ⟨rfl, rfl, rfl, rfl, rfl, rfl⟩ := hr
      rw [val3 (f0 := 0xbf) (t0 := 0xc0) h2 g2 h3 g3 (by omega) (Or.inr (Or.inl (by omega))), P3_same,
        val2 (f0 := 0x80) (t0 := 0x80) (by omega) (by omega) (by omega) (by omega) (by omega)]
      simp only [Cont]
      constructor
      · rintro (⟨rfl, _⟩ | _ | ⟨rfl, _⟩) <;> omega
      · rintro ⟨_, _, _, _, _⟩
        have : x = f0 := by omega
        subst this; omega

theorem val4_wrong {f0 t0 f1 t1 f2 t2 f3 t3 : Nat} (h1 : Cont f1) (g1 : Cont t1) (h2 : Cont f2) (g2 : Cont t2) (h3 : Cont f3) (g3 : Cont t3)
    (h : 262144 * f0 + 4096 * f1 + 64 * f2 + f3 < 262144 * t0 + 4096 * t1 + 64 * t2 + t3) (hr : ¬ R4 f0 t0 f1 t1 f2 t2 f3 t3) :
    ∃ x y z u, f0 ≤ x ∧ x ≤ t0 ∧ ¬ (P4 f0 t0 f1 t1 f2 t2 f3 t3 x y z u ↔ Cont y ∧ Cont z ∧ Cont u ∧
      262144 * f0 + 4096 * f1 + 64 * f2 + f3 ≤ 262144 * x + 4096 * y + 64 * z + u ∧
      262144 * x + 4096 * y + 64 * z + u < 262144 * t0 + 4096 * t1 + 64 * t2 + t3) := by
  have k1 := h1; have k2 := g1; have k3 := h2; have k4 := g2; have k5 := h3; have k6 := g3
  simp only [Cont] at k1 k2 k3 k4 k5 k6
  by_cases he : f0 = t0
  · subst he
    obtain ⟨y, z, u, l1, l2, hw⟩ := val3_wrong (f0 := f1) (t0 := t1) h2 g2 h3 g3 (by omega) (fun h => hr (Or.inl ⟨rfl, h⟩))
    refine ⟨f0, y, z, u, by omega, by omega, fun hh => hw ?_⟩
    rw [P4_same] at hh
    simp only [true_and] at hh
    rw [hh]
    simp only [Cont]; omega
  · have hr' : ¬ (f2 = 0x80 ∧ f3 = 0x80 ∧ t2 = 0x80 ∧ t3 = 0x80) ∧ ¬ (f0 + 1 = t0 ∧ t1 = 0x80 ∧ t2 = 0x80 ∧ t3 = 0x80 ∧ f1 = 0xbf ∧ f2 = 0x80) :=
      ⟨fun h => hr (Or.inr (Or.inl h)), fun h => hr (Or.inr (Or.inr h))⟩
    clear hr
    have hlt : f0 < t0 := by omega
    have e := fun x y z u => @P4_ne f0 t0 f1 t1 f2 t2 f3 t3 x y z u he
    have e1 := fun y z u => @P3_eq f1 0xc0 f2 t2 f3 t3 y z u h2 g2 h3 g3 (by omega)
    have e2 := fun y z u => @P3_eq 0x80 0xc0 f2 t2 f3 t3 y z u h2 g2 h3 g3 (by omega)
    simp only [e, e1, e2]
    clear e e1 e2
    by_cases c1 : t1 = 0x80
    · subst c1
      simp only [P3_same, P2]
      clear h1 g1 h2 g2 h3 g3
      simp only [Cont]
      by_cases c2 : t2 = 0x80
      · by_cases c3 : t3 = 0x80
        · subst c2 c3
          by_cases c0 : f0 + 2 ≤ t0
          · refine ⟨f0 + 1, 0x80, 0x80, 0x80, by omega, by omega, ?_⟩
            have n1 : ¬ f0 + 1 = f0 := by omega
            have n2 : ¬ f0 + 1 = t0 := by omega
            simp only [n1, n2, false_and, or_false, false_or]
            omega
          · by_cases d2 : f2 = 0x80
            · refine ⟨f0, f1 + 1, 0x80, 0x80, by omega, by omega, ?_⟩
              simp only [Nat.lt_irrefl, he, false_and, and_false, false_or, or_false, true_and, iff_false, Classical.not_not]
              omega
            · refine ⟨t0, 0x80, f2, f3, by omega, by omega, ?_⟩
              simp only [Nat.lt_irrefl, Ne.symm he, false_and, and_false, or_false, false_or, true_and, d2]
              omega
        · refine ⟨f0, f1, 0xc0, 0x80, by omega, by omega, ?_⟩
          simp only [Nat.lt_irrefl, he, false_and, and_false, false_or, or_false, true_and, iff_false, Classical.not_not]
          omega
      · refine ⟨f0, 0xc0, 0x80, f3, by omega, by omega, ?_⟩
        simp only [Nat.lt_irrefl, he, false_and, and_false, false_or, or_false, true_and, iff_false, Classical.not_not]
        omega
    · have e3 := fun y z u => @P3_eq 0x80 t1 f2 t2 f3 t3 y z u h2 g2 h3 g3 (by omega)
      simp only [e3]
      clear e3 h1 g1 h2 g2 h3 g3
      simp only [Cont]
      by_cases c2 : t2 = 0x80
      · by_cases c3 : t3 = 0x80
        · subst c2 c3
          refine ⟨t0, 0x80, 0x80, 0x80, by omega, by omega, ?_⟩
          simp only [Nat.lt_irrefl, Ne.symm he, false_and, and_false, or_false, false_or, true_and]
          omega
        · refine ⟨f0, f1, 0xc0, 0x80, by omega, by omega, ?_⟩
          simp only [Nat.lt_irrefl, he, false_and, and_false, false_or, or_false, true_and, iff_false, Classical.not_not]
          omega
      · refine ⟨f0, 0xc0, 0x80, f3, by omega, by omega, ?_⟩
        simp only [Nat.lt_irrefl, he, false_and, and_false, false_or, or_false, true_and, iff_false, Classical.not_not]
        omega

end Verif.Enc
