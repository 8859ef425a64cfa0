import Verif.LexSyn.Files

set_option linter.unusedSectionVars false

/-!
# Known names
-/

namespace Verif.LexSyn

open Verif.Auto

variable {C : Type} [CharSetLike C] {A : Chars C} {order : List Bits → List Bits} {fuel : Nat}

theorem closed_iff {p q : Text → Prop} (h : ∀ t, p t ↔ q t) (x : E) : Spec.Closed p x ↔ Spec.Closed q x :=
  ⟨closed_congr fun t => (h t).1, closed_congr fun t => (h t).2⟩

/-- With success the names were known, and with `exit` they were not; the set of names stays. -/
def Tells (st : Store C) (p : Prop) (r : Out (NFA C × Store C)) : Prop :=
  (∀ n st', r = .ok (n, st') → p ∧ ∀ s, st' s ≠ none ↔ st s ≠ none) ∧ (r = .exit → ¬ p)

theorem tells_leaf {st : Store C} {o : Option (NFA C)} {p : Prop} (hp : p) : Tells st p ((lift o).bind fun n => .ok (n, st)) := by
  cases o with
  | none => exact ⟨fun _ _ h => (by cases h), fun h => (by cases h)⟩
  | some n => exact ⟨fun _ _ h => (by cases h; exact ⟨hp, fun _ => Iff.rfl⟩), fun h => (by cases h)⟩

theorem tells_one {st : Store C} {f : NFA C → Option (NFA C)} {p : Prop} {r : Out (NFA C × Store C)} (h : Tells st p r) : Tells st p (one f r) := by
  obtain ⟨h1, h2⟩ := h
  constructor
  · intro n st' h
    obtain ⟨⟨m, st1⟩, e1, e2⟩ := Out.bind_ok h
    obtain ⟨k, _, e3⟩ := Out.bind_ok e2
    cases e3
    exact h1 _ _ e1
  · intro h
    cases r with
    | ok p => simp only [one, Out.bind] at h; cases hf : f p.1 <;> rw [hf] at h <;> cases h
    | exit => exact h2 rfl
    | stuck => cases h

theorem tells_two {st : Store C} {f : NFA C → NFA C → Option (NFA C)} {y z : E} (hy : Tells st (Spec.Closed (fun s => st s ≠ none) y) (build A order fuel y st))
    (hz : ∀ st : Store C, Tells st (Spec.Closed (fun s => st s ≠ none) z) (build A order fuel z st)) :
    Tells st (Spec.Closed (fun s => st s ≠ none) y ∧ Spec.Closed (fun s => st s ≠ none) z) (two f (build A order fuel y st) (build A order fuel z)) := by
  constructor
  · intro n st' h
    obtain ⟨⟨m, st1⟩, e1, e2⟩ := Out.bind_ok h
    obtain ⟨⟨k, st2⟩, e3, e4⟩ := Out.bind_ok e2
    obtain ⟨l, _, e5⟩ := Out.bind_ok e4
    cases e5
    obtain ⟨h1, h2⟩ := hy.1 _ _ e1
    obtain ⟨h3, h4⟩ := (hz st1).1 _ _ e3
    exact ⟨⟨h1, (closed_iff h2 z).1 h3⟩, fun s => (h4 s).trans (h2 s)⟩
  · rintro h ⟨c1, c2⟩
    cases hb : build A order fuel y st with
    | stuck => rw [hb] at h; cases h
    | exit => exact hy.2 hb c1
    | ok p =>
      rw [hb] at h
      obtain ⟨h1, h2⟩ := hy.1 p.1 p.2 hb
      cases hb' : build A order fuel z p.2 with
      | stuck => simp only [two, Out.bind, hb'] at h; cases h
      | exit => exact (hz p.2).2 hb' ((closed_iff h2 z).2 c2)
      | ok q => simp only [two, Out.bind, hb'] at h; cases hf : f p.1 q.1 <;> rw [hf] at h <;> cases h

theorem build_known (x : E) (st : Store C) : Tells st (Spec.Closed (fun s => st s ≠ none) x) (build A order fuel x st) := by
  induction x generalizing st with
  | eps => exact ⟨fun _ _ h => (by cases h; exact ⟨trivial, fun _ => Iff.rfl⟩), fun h => (by cases h)⟩
  | dot | str | word | coll | range => exact tells_leaf trivial
  | named t =>
    simp only [build, useNamed, Spec.Closed]
    split
    · next hn => exact ⟨fun _ _ h => (by cases h), fun _ h => h hn⟩
    · next n hn => exact ⟨fun _ _ h => (by cases h; exact ⟨by simp [hn], fun _ => Iff.rfl⟩), fun h => (by cases h)⟩
    · next n hn =>
      constructor
      · intro m st' h
        obtain ⟨r, _, e2⟩ := Out.bind_ok h
        cases e2
        refine ⟨by simp [hn], fun s => ?_⟩
        simp only [Store.set]
        split
        · next hs => subst hs; simp [hn]
        · rfl
      · intro h
        cases hl : (do (← (← n.dfa order fuel).minimize fuel).nfa : Option (NFA C)) <;> rw [hl] at h <;> cases h
  | alt y z ih1 ih2 | and y z ih1 ih2 | but y z ih1 ih2 | cat y z ih1 ih2 | sepBy y z ih1 ih2 => exact tells_two (ih1 st) ih2
  | neg y ih | opt y ih | star y ih | plus y ih => exact tells_one (ih st)

end Verif.LexSyn
