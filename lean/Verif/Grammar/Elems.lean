import Verif.Grammar.FirstLemmas

/-!
# FIRST sets contain the end marker and declared tokens only
-/

namespace Verif.Grammar

/-- Nothing new is in any set. -/
def Keeps (c d : Comp) : Prop := ∀ p ∈ d.sets, ∃ q ∈ c.sets, q.2 = p.2

theorem Keeps.refl (c : Comp) : Keeps c c := fun p hp => ⟨p, hp, rfl⟩

theorem Keeps.trans {a b c : Comp} (h : Keeps a b) (g : Keeps b c) : Keeps a c := by
  intro p hp
  obtain ⟨q, hq, e⟩ := g p hp
  obtain ⟨r, hr, e'⟩ := h q hq
  exact ⟨r, hr, e'.trans e⟩

theorem mergeFirst_keeps (W : World) (b : Bool) (d s : Nat) (c : Comp) : Keeps c (mergeFirst W b d s c) := by
  intro p hp
  rcases mem_mergeFirst.1 hp with h | ⟨-, h, -⟩
  · exact ⟨p, h, rfl⟩
  · exact ⟨_, h, rfl⟩

theorem firstOfSymbol_keeps (W : World) (b : Bool) (n s : Nat) (c : Comp) : Keeps c (firstOfSymbol W b n s c) := by
  unfold firstOfSymbol
  cases W.searchRule s with
  | none => exact mergeFirst_keeps _ _ _ _ _
  | some r => exact (mergeFirst_keeps _ _ _ _ _).trans (mergeFirst_keeps _ _ _ _ _)

theorem enter_keeps {go : List Nat → Nat → Comp → Option Comp} (hgo : ∀ V n c c', go V n c = some c' → Keeps c c') {V : List Nat} {n : Nat} {c c' : Comp}
    (h : enter go V n c = some c') : Keeps c c' := by
  unfold enter at h
  split at h
  · cases h; exact Keeps.refl _
  · exact hgo _ _ _ _ h

theorem firstGo_keeps (W : World) (f : Nat) : ∀ b V n c c', firstGo W f b V n c = some c' → Keeps c c' := by
  induction f with
  | zero => intro b V n c c' h; simp [firstGo] at h
  | succ f ih =>
    intro b V n c c' h
    have hE : ∀ b V n c c', enter (firstGo W f b) V n c = some c' → Keeps c c' := fun b V n c c' => enter_keeps (ih b)
    have hM := fun b d s c => mergeFirst_keeps W b d s c
    unfold firstGo at h
    split at h
    · cases h
    · cases h; exact Keeps.refl _
    · cases h; exact Keeps.refl _
    · cases h; exact Keeps.refl _
    · cases h; exact firstOfSymbol_keeps _ _ _ _ _
    · cases h; exact Keeps.refl _
    · cases h; exact firstOfSymbol_keeps _ _ _ _ _
    · split at h
      · cases h
      · obtain ⟨d, hd, rfl⟩ := Option.map_eq_some_iff.1 h
        exact (ih _ _ _ _ _ hd).trans (hM _ _ _ _)
    · split at h
      · cases h
      · obtain ⟨d, hd, rfl⟩ := Option.map_eq_some_iff.1 h
        exact (ih _ _ _ _ _ hd).trans (hM _ _ _ _)
    · split at h
      · cases h
      · obtain ⟨d, hd, rfl⟩ := Option.map_eq_some_iff.1 h
        exact (ih _ _ _ _ _ hd).trans (hM _ _ _ _)
    · obtain ⟨d, hd, rfl⟩ := Option.map_eq_some_iff.1 h
      exact (hE _ _ _ _ _ hd).trans (hM _ _ _ _)
    · obtain ⟨d, hd, rfl⟩ := Option.map_eq_some_iff.1 h
      exact (hE _ _ _ _ _ hd).trans (hM _ _ _ _)
    · cases h; exact Keeps.refl _
    · obtain ⟨d, hd, rfl⟩ := Option.map_eq_some_iff.1 h
      exact (ih _ _ _ _ _ hd).trans (hM _ _ _ _)
    · obtain ⟨d, hd, rfl⟩ := Option.map_eq_some_iff.1 h
      exact (ih _ _ _ _ _ hd).trans (hM _ _ _ _)
    · obtain ⟨d, hd, h⟩ := Option.bind_eq_some_iff.1 h
      obtain ⟨e, he, rfl⟩ := Option.map_eq_some_iff.1 h
      exact ((hE _ _ _ _ _ hd).trans (hE _ _ _ _ _ he)).trans ((hM _ _ _ _).trans (hM _ _ _ _))
    · obtain ⟨d, hd, h⟩ := Option.bind_eq_some_iff.1 h
      obtain ⟨e, he, rfl⟩ := Option.map_eq_some_iff.1 h
      exact ((hE _ _ _ _ _ hd).trans (hE _ _ _ _ _ he)).trans ((hM _ _ _ _).trans (hM _ _ _ _))
    · obtain ⟨d, hd, h⟩ := Option.bind_eq_some_iff.1 h
      obtain ⟨er, _, h⟩ := Option.bind_eq_some_iff.1 h
      obtain ⟨e, he, h⟩ := Option.bind_eq_some_iff.1 h
      obtain ⟨el, _, h⟩ := Option.bind_eq_some_iff.1 h
      have h1 := (hE _ _ _ _ _ hd).trans (hE _ _ _ _ _ he)
      split at h
      · obtain ⟨g, hg, rfl⟩ := Option.map_eq_some_iff.1 h
        exact ((h1.trans (hM _ _ _ _)).trans (hE _ _ _ _ _ hg)).trans (hM _ _ _ _)
      · cases h; exact h1.trans (hM _ _ _ _)
    · obtain ⟨d, hd, rfl⟩ := Option.map_eq_some_iff.1 h
      exact (hE _ _ _ _ _ hd).trans ((hM _ _ _ _).trans (hM _ _ _ _))

theorem firstPass_keeps (W : World) (f : Nat) (rs : List Nat) : ∀ c c', firstPass W f rs c = some c' → Keeps c c' := by
  induction rs with
  | nil => intro c c' h; cases h; exact Keeps.refl _
  | cons r rs ih =>
    intro c c' h
    obtain ⟨d, hd, h⟩ := Option.bind_eq_some_iff.1 h
    exact (enter_keeps (firstGo_keeps W f false) hd).trans (ih _ _ h)

theorem firstLoop_keeps {W : World} {f : Nat} : ∀ {k : Nat} {F₀ F : Sets} {b : Bool}, firstLoop W f k F₀ = some F → Keeps ⟨F₀, b⟩ ⟨F, b⟩ := by
  intro k
  induction k with
  | zero => intro F₀ F b h; simp [firstLoop] at h
  | succ k ih =>
    intro F₀ F b h
    rw [firstLoop] at h
    cases e : firstPass W f W.rules ⟨F₀, false⟩ with
    | none => rw [e] at h; cases h
    | some c =>
      rw [e] at h
      simp only at h
      have hs := firstPass_keeps W f W.rules ⟨F₀, false⟩ c e
      split at h
      · intro p hp
        obtain ⟨q, hq, e1⟩ := ih (b := b) h p hp
        obtain ⟨r, hr, e2⟩ := hs q hq
        exact ⟨r, hr, e2.trans e1⟩
      · cases h
        intro p hp
        exact hs p hp

theorem computeFirst_elems {W : World} {F : Sets} {f k : Nat} (h : computeFirst W f k = some F) {n x : Nat} (hx : (n, x) ∈ F) : x = W.zero ∨ x ∈ W.terminals := by
  obtain ⟨q, hq, e⟩ := firstLoop_keeps (b := false) h _ hx
  simp only [initFirst, List.mem_cons, List.mem_map] at hq
  rcases hq with rfl | ⟨t, ht, rfl⟩
  · exact .inl e.symm
  · exact .inr (by have : t = x := e; exact this ▸ ht)

end Verif.Grammar
