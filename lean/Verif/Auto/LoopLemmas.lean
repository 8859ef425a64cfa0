import Verif.Auto.NfaLemmas

set_option linter.unusedSectionVars false

/-! # Words looping at the start state, for each operation -/

namespace Verif.Auto

variable {C : Type} [CharSetLike C]

theorem Star.mono {L M : Lang} (h : ∀ w, L w → M w) {w : List Nat} (hw : Star L w) : Star M w := by
  induction hw with
  | nil => exact .nil
  | app hu _ ih => exact .app (h _ hu) ih

theorem Star.idem {L : Lang} {w : List Nat} (hw : Star (Star L) w) : Star L w := by
  induction hw with
  | nil => exact .nil
  | app hu _ ih => exact hu.append ih

/-- A start state without incoming transitions has only the trivial loop. -/
theorem loop_noIn {n : NFA C} (h : ∀ i c, ¬ HasEdge n.rules i c 0) (w : List Nat) : n.Loop w ↔ w = [] := by
  constructor
  · intro hr
    have : (fun (i : Nat) (w : List Nat) => i = 0 ∧ w = []) 0 w := by
      refine Run.residual (fun i w => i = 0 ∧ w = []) ⟨rfl, rfl⟩ ?_ ?_ hr
      · rintro i c _ w e _ ⟨rfl, _⟩; exact absurd e (h i c)
      · rintro i c _ x w e _ _ ⟨rfl, _⟩; exact absurd e (h i c)
    exact this.2
  · rintro rfl; exact .nil

theorem loop_emptyWord (w : List Nat) : (NFA.emptyWord : NFA C).Loop w ↔ w = [] :=
  loop_noIn (by intro i c h; simp [NFA.emptyWord, hasEdge_cons, hasEdge_nil] at h) w

theorem loop_empty (w : List Nat) : (NFA.empty : NFA C).Loop w ↔ w = [] :=
  loop_noIn (by intro i c h; simp [NFA.empty, hasEdge_cons, hasEdge_nil] at h) w

theorem loop_ofSet (s : C) (w : List Nat) : (NFA.ofSet s).Loop w ↔ w = [] :=
  loop_noIn (by intro i c h; rw [edge_ofSet] at h; omega) w

theorem loop_alt {n o r : NFA C} (hn : n.Wf) (ho : o.Wf) (h : n.alt o = some r) (w : List Nat) : r.Loop w ↔ w = [] := by
  obtain ⟨r', h1, -, -, -, h5⟩ := alt_eq hn ho
  rw [h] at h1; cases h1
  refine loop_noIn (fun i c e => ?_) w
  rw [h5] at e
  rcases e with e | ⟨i', j', rfl, e, _⟩ | ⟨i', j', rfl, e, _⟩ | e | e <;> omega

theorem loop_concat {n o r : NFA C} (hn : n.Wf) (ho : o.Wf) (h : n.concat o = some r) (w : List Nat) :
    r.Loop w ↔ n.Loop w := by
  obtain ⟨r', h1, -, -, -, h5⟩ := concat_eq hn ho
  rw [h] at h1; cases h1
  have hs := hn.single
  constructor
  · intro hr
    have : (fun (i : Nat) (w : List Nat) => i < n.nstates ∧ Run n.rules i w 0) 0 w := by
      refine Run.residual (fun i w => i < n.nstates ∧ Run n.rules i w 0) ⟨by omega, .nil⟩ ?_ ?_ hr
      · rintro i c j w e he ⟨hj, hp⟩
        rw [h5] at e
        rcases e with e | ⟨i', j', rfl, rfl, _⟩ | ⟨_, _, rfl⟩
        · exact ⟨(hn.target _ _ _ e).1, .eps e he hp⟩
        · omega
        · omega
      · rintro i c j x w e he ha ⟨hj, hp⟩
        rw [h5] at e
        rcases e with e | ⟨i', j', rfl, rfl, _⟩ | ⟨_, _, rfl⟩
        · exact ⟨(hn.target _ _ _ e).1, .chr e he ha hp⟩
        · omega
        · omega
    exact this.2
  · intro hr
    exact Run.mono (k := 0) (rs' := r.rules) (fun i c j e => (h5 _ _ _).mpr (Or.inl e)) hr

theorem loop_star {n r : NFA C} (hn : n.Wf) (h : n.star = some r) (w : List Nat) :
    r.Loop w ↔ r.Lang w := by
  obtain ⟨r', h1, h2, h3, h4, h5⟩ := star_eq hn
  rw [h] at h1; cases h1
  obtain ⟨r'', h1, hwf, -⟩ := star_spec hn
  rw [h] at h1; cases h1
  have hs := hn.single
  rw [lang_single hwf, h3]
  constructor
  · intro hr
    exact Run.epsStep hr ((h5 _ _ _).mpr (Or.inr (Or.inr ⟨rfl, rfl, rfl⟩))) isEps_eps'
  · intro hr
    have : (fun (i : Nat) (w : List Nat) => (i = n.nstates ∧ w = []) ∨ (i < n.nstates ∧ Run r.rules i w 0)) 0 w := by
      refine Run.residual (fun i w => (i = n.nstates ∧ w = []) ∨ (i < n.nstates ∧ Run r.rules i w 0)) (Or.inl ⟨rfl, rfl⟩) ?_ ?_ hr
      · intro i c j w e he hp
        have e' := e
        rw [h5] at e
        rcases e with e | ⟨rfl, rfl, rfl⟩ | ⟨rfl, rfl, rfl⟩
        · have := hn.target _ _ _ e
          rcases hp with hp | ⟨hj, hp⟩
          · omega
          · exact Or.inr ⟨this.1, .eps e' he hp⟩
        · rcases hp with hp | ⟨hj, hp⟩
          · omega
          · exact Or.inr ⟨by omega, .eps e' he hp⟩
        · rcases hp with ⟨_, rfl⟩ | ⟨hj, hp⟩
          · exact Or.inr ⟨by omega, .nil⟩
          · omega
      · intro i c j x w e he ha hp
        have e' := e
        rw [h5] at e
        rcases e with e | ⟨rfl, rfl, rfl⟩ | ⟨rfl, rfl, rfl⟩
        · have := hn.target _ _ _ e
          rcases hp with hp | ⟨hj, hp⟩
          · omega
          · exact Or.inr ⟨this.1, .chr e' he ha hp⟩
        · rw [isEps_eps'] at he; cases he
        · rw [isEps_eps'] at he; cases he
    rcases this with ⟨h, _⟩ | ⟨_, h⟩
    · omega
    · exact h

end Verif.Auto
