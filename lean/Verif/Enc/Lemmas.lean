import Verif.Enc.Model
import Verif.Enc.Spec
import Mathlib.Tactic.Tauto

set_option linter.unusedSectionVars false

/-!
# Lemmas on the languages of the constructed automata
-/

namespace Verif.Enc

open Verif.Auto

variable {C : Type} [RangeSet C]

/-- The computation yields a well-formed automaton for `L`. -/
def Builds (o : Option (NFA C)) (L : Lang) : Prop := ∃ n, o = some n ∧ n.Wf ∧ ∀ w, n.Lang w ↔ L w

theorem Builds.congr {o : Option (NFA C)} {L M : Lang} (h : Builds o L) (e : ∀ w, L w ↔ M w) : Builds o M := by
  obtain ⟨n, h1, h2, h3⟩ := h
  exact ⟨n, h1, h2, fun w => (h3 w).trans (e w)⟩

theorem Builds.lang {o : Option (NFA C)} {L : Lang} {n : NFA C} (h : Builds o L) (e : o = some n) : n.Wf ∧ ∀ w, n.Lang w ↔ L w := by
  obtain ⟨m, h1, h2, h3⟩ := h
  rw [e] at h1; cases h1
  exact ⟨h2, h3⟩

theorem builds_ofSet {c : C} (h : CharSetLike.isEps c = false) : Builds (some (NFA.ofSet c)) fun w => ∃ x, w = [x] ∧ CharSetLike.accepts c x = true :=
  ⟨_, rfl, wf_ofSet c, lang_ofSet c h⟩

theorem builds_range {b e : Nat} (h : e ≤ b ∨ e ≤ CharSetLike.size C) : Builds (rangeNfa b e : Option (NFA C)) fun w => ∃ x, w = [x] ∧ b ≤ x ∧ x < e := by
  obtain ⟨c, h1, h2, h3⟩ := RangeSet.range_spec (C := C) b e h
  simp only [rangeNfa, h1, Option.map_some]
  exact (builds_ofSet h2).congr fun w => by simp [h3]

theorem builds_chr {a : Nat} (h : a < CharSetLike.size C) : Builds (chrNfa a : Option (NFA C)) fun w => w = [a] := by
  obtain ⟨c, h1, h2, h3⟩ := RangeSet.chr_spec (C := C) a h
  simp only [chrNfa, h1, Option.map_some]
  exact (builds_ofSet h2).congr fun w => by simp [h3]

theorem builds_empty : Builds (some (NFA.empty : NFA C)) fun _ => False :=
  ⟨_, rfl, wf_empty, fun w => by simp [lang_empty]⟩

theorem builds_emptyWord : Builds (some (NFA.emptyWord : NFA C)) fun w => w = [] :=
  ⟨_, rfl, wf_emptyWord, fun w => by simp [lang_emptyWord]⟩

theorem Builds.concat {o p : Option (NFA C)} {L M : Lang} (h : Builds o L) (g : Builds p M) :
    Builds (do (← o).concat (← p)) (Cat L M) := by
  obtain ⟨n, h1, h2, h3⟩ := h
  obtain ⟨m, g1, g2, g3⟩ := g
  obtain ⟨r, r1, r2, r3⟩ := C14_concatenation h2 g2
  refine ⟨r, by simp [h1, g1, r1], r2, fun w => ?_⟩
  rw [r3]
  simp only [h3, g3, Cat]

theorem Builds.alt {o p : Option (NFA C)} {L M : Lang} (h : Builds o L) (g : Builds p M) :
    Builds (do (← o).alt (← p)) (fun w => L w ∨ M w) := by
  obtain ⟨n, h1, h2, h3⟩ := h
  obtain ⟨m, g1, g2, g3⟩ := g
  obtain ⟨r, r1, r2, r3⟩ := C13_union h2 g2
  refine ⟨r, by simp [h1, g1, r1], r2, fun w => ?_⟩
  rw [r3, h3, g3]

/-! ### `getUtf8Tuples` -/

/-- The language of `tuples`. -/
def TL (f0 t0 : Nat) : List (Nat × Nat) → Lang
  | [] => fun w => ∃ x, w = [x] ∧ f0 ≤ x ∧ x < t0
  | (f1, t1) :: rest => fun w => ∃ x v, w = x :: v ∧
    (f0 = t0 ∧ x = f0 ∧ TL f1 t1 rest v ∨
     f0 ≠ t0 ∧ (x = f0 ∧ TL f1 0xc0 rest v ∨ f0 < x ∧ x < t0 ∧ TL 0x80 0xc0 rest v ∨ x = t0 ∧ TL 0x80 t1 rest v))

theorem cat_chr {a : Nat} {L : Lang} {w : List Nat} : Cat (fun u => u = [a]) L w ↔ ∃ v, w = a :: v ∧ L v := by
  constructor
  · rintro ⟨u, v, rfl, rfl, h⟩; exact ⟨v, rfl, h⟩
  · rintro ⟨v, rfl, h⟩; exact ⟨[a], v, rfl, rfl, h⟩

theorem cat_range {P : Nat → Prop} {L : Lang} {w : List Nat} : Cat (fun u => ∃ x, u = [x] ∧ P x) L w ↔ ∃ x v, w = x :: v ∧ P x ∧ L v := by
  constructor
  · rintro ⟨u, v, rfl, ⟨x, rfl, hx⟩, h⟩; exact ⟨x, v, rfl, hx, h⟩
  · rintro ⟨x, v, rfl, hx, h⟩; exact ⟨[x], v, rfl, ⟨x, rfl, hx⟩, h⟩

theorem builds_tuples (hsz : CharSetLike.size C = 256) (rest : List (Nat × Nat)) (f0 t0 : Nat) (h0 : f0 < 256) (h0' : t0 < 256)
    (h : ∀ p ∈ rest, p.1 < 256 ∧ p.2 < 256) : Builds (tuples f0 t0 rest : Option (NFA C)) (TL f0 t0 rest) := by
  induction rest generalizing f0 t0 with
  | nil => exact builds_range (by omega)
  | cons p rest ih =>
    obtain ⟨f1, t1⟩ := p
    have hp := h (f1, t1) (by simp)
    have hr : ∀ p ∈ rest, p.1 < 256 ∧ p.2 < 256 := fun p hp => h p (by simp [hp])
    simp only [tuples, TL]
    by_cases hf : f0 = t0
    · rw [if_pos hf]
      refine ((builds_chr (C := C) (a := f0) (by omega)).concat (ih f1 t1 hp.1 hp.2 hr)).congr fun w => ?_
      rw [cat_chr]
      constructor
      · rintro ⟨v, rfl, hv⟩; exact ⟨f0, v, rfl, Or.inl ⟨hf, rfl, hv⟩⟩
      · rintro ⟨x, v, rfl, ⟨_, rfl, hv⟩ | ⟨hn, _⟩⟩
        · exact ⟨v, rfl, hv⟩
        · exact absurd hf hn
    · rw [if_neg hf]
      have b1 := (builds_chr (C := C) (a := f0) (by omega)).concat (ih f1 0xc0 hp.1 (by omega) hr)
      have b2 := (builds_range (C := C) (b := f0 + 1) (e := t0) (by omega)).concat (ih 0x80 0xc0 (by omega) (by omega) hr)
      have b3 := (builds_chr (C := C) (a := t0) (by omega)).concat (ih 0x80 t1 (by omega) hp.2 hr)
      have b := ((builds_empty.alt b1).alt b2).alt b3
      simp only [Option.bind_eq_bind, Option.bind_assoc, Option.bind_some] at b ⊢
      refine Builds.congr (by simpa only [Option.bind_eq_bind, Option.bind_assoc] using b) fun w => ?_
      rw [cat_chr, cat_chr, cat_range]
      constructor
      · rintro (((h | ⟨v, rfl, hv⟩) | ⟨x, v, rfl, hx, hv⟩) | ⟨v, rfl, hv⟩)
        · exact h.elim
        · exact ⟨_, v, rfl, Or.inr ⟨hf, Or.inl ⟨rfl, hv⟩⟩⟩
        · exact ⟨_, v, rfl, Or.inr ⟨hf, Or.inr (Or.inl ⟨by omega, hx.2, hv⟩)⟩⟩
        · exact ⟨_, v, rfl, Or.inr ⟨hf, Or.inr (Or.inr ⟨rfl, hv⟩)⟩⟩
      · rintro ⟨x, v, rfl, ⟨he, _⟩ | ⟨_, ⟨rfl, hv⟩ | ⟨h1, h2, hv⟩ | ⟨rfl, hv⟩⟩⟩
        · exact absurd he hf
        · exact Or.inl (Or.inl (Or.inr ⟨v, rfl, hv⟩))
        · exact Or.inl (Or.inr ⟨x, v, rfl, ⟨by omega, h2⟩, hv⟩)
        · exact Or.inr ⟨v, rfl, hv⟩

end Verif.Enc
