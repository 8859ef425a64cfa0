import Verif.Grammar.Follow
import Verif.Grammar.Elems

/-! # FOLLOW sets contain tokens only -/

namespace Verif.Grammar

variable {W : World} {F : Sets}

/-- All elements of the sets are terminals. -/
def Toks (W : World) (c : Comp) : Prop := ∀ p ∈ c.sets, W.node p.2 = some .term

theorem mergeFollow_toks {d : Nat} {xs : List Nat} {c : Comp} (hc : Toks W c) : Toks W (mergeFollow W d xs c) := by
  intro p hp
  rcases mem_mergeFollow.1 hp with h | ⟨-, -, -, h⟩
  · exact hc p h
  · exact h

theorem preCopy_toks {s d : Nat} {c : Comp} (hc : Toks W c) : Toks W (preCopy W s d c) := mergeFollow_toks hc

theorem followOfSymbol_toks {n s : Nat} {c : Comp} (hc : Toks W c) : Toks W (followOfSymbol W n s c) := by
  unfold followOfSymbol
  cases W.searchRule s with
  | none => exact preCopy_toks hc
  | some r => exact preCopy_toks (preCopy_toks hc)

theorem enter_toks {go : List Nat → Nat → Comp → Option Comp} (hgo : ∀ V n c c', Toks W c → go V n c = some c' → Toks W c') {V : List Nat} {n : Nat} {c c' : Comp}
    (hc : Toks W c) (h : enter go V n c = some c') : Toks W c' := by
  unfold enter at h
  split at h
  · cases h; exact hc
  · exact hgo _ _ _ _ hc h

theorem followGo_toks (f : Nat) : ∀ V n c c', Toks W c → followGo W F f V n c = some c' → Toks W c' := by
  induction f with
  | zero => intro V n c c' _ h; simp [followGo] at h
  | succ f ih =>
    intro V n c c' hc h
    have hE : ∀ {V n c c'}, Toks W c → enter (followGo W F f) V n c = some c' → Toks W c' := fun hc h => enter_toks ih hc h
    unfold followGo at h
    split at h
    · cases h
    · cases h; exact hc
    · cases h; exact hc
    · cases h; exact hc
    · cases h; exact followOfSymbol_toks hc
    · cases h; exact hc
    · cases h; exact followOfSymbol_toks hc
    · split at h
      · cases h
      · exact ih _ _ _ _ (preCopy_toks hc) h
    · split at h
      · cases h
      · exact ih _ _ _ _ (preCopy_toks hc) h
    · split at h
      · cases h
      · exact ih _ _ _ _ (preCopy_toks hc) h
    · exact hE (preCopy_toks hc) h
    · exact hE (preCopy_toks hc) h
    · cases h; exact hc
    · exact ih _ _ _ _ (preCopy_toks hc) h
    · exact ih _ _ _ _ (preCopy_toks hc) h
    · obtain ⟨d, h1, h2⟩ := Option.bind_eq_some_iff.1 h
      exact hE (hE (preCopy_toks (preCopy_toks hc)) h1) h2
    · obtain ⟨d, h1, h2⟩ := Option.bind_eq_some_iff.1 h
      exact hE (hE (preCopy_toks (preCopy_toks hc)) h1) h2
    · obtain ⟨e, -, h2⟩ := Option.bind_eq_some_iff.1 h
      obtain ⟨d, h3, h4⟩ := Option.bind_eq_some_iff.1 h2
      refine hE (hE ?_ h3) h4
      split
      · exact preCopy_toks (mergeFollow_toks (preCopy_toks hc))
      · exact mergeFollow_toks (preCopy_toks hc)
    · exact hE (preCopy_toks (preCopy_toks hc)) h

theorem followPass_toks (f : Nat) (rs : List Nat) : ∀ c c', Toks W c → followPass W F f rs c = some c' → Toks W c' := by
  induction rs with
  | nil => intro c c' hc h; cases h; exact hc
  | cons r rs ih =>
    intro c c' hc h
    rw [followPass] at h
    obtain ⟨d, h1, h2⟩ := Option.bind_eq_some_iff.1 h
    exact ih _ _ (enter_toks (followGo_toks f) hc h1) h2

theorem followLoop_toks {f : Nat} : ∀ (k : Nat) (c : Comp) (S : Sets), Toks W c → followLoop W F f k c = some S → ∀ p ∈ S, W.node p.2 = some .term := by
  intro k
  induction k with
  | zero => intro c S _ h; simp [followLoop] at h
  | succ k ih =>
    intro c S hc h
    rw [followLoop] at h
    split at h
    · cases h
    · next d e =>
      have hd := followPass_toks f _ _ _ hc e
      split at h
      · exact ih ⟨d.sets, false⟩ _ hd h
      · cases h; exact hd

theorem insert_toks {c : Comp} {n x : Nat} (hc : Toks W c) (hx : W.node x = some .term) : Toks W (c.insert n x) := by
  intro p hp
  unfold Comp.insert at hp
  split at hp
  · exact hc p hp
  · rcases List.mem_cons.1 hp with rfl | h
    · exact hx
    · exact hc p h

theorem initFollow_toks {eof : Nat} (he : W.node eof = some .term) : Toks W (initFollow W eof) := by
  unfold initFollow
  generalize W.rules = rs
  have h0 : Toks W ⟨[], true⟩ := nofun
  revert h0
  generalize (⟨[], true⟩ : Comp) = c
  induction rs generalizing c with
  | nil => exact fun h => h
  | cons r rs ih =>
    intro hc
    refine ih _ ?_
    simp only
    split
    · split
      · exact insert_toks (insert_toks (insert_toks hc he) he) he
      · exact hc
    · exact hc

theorem computeFollow_elems {eof f k : Nat} {S : Sets} (he : W.node eof = some .term) (h : computeFollow W F eof f k = some S) {n x : Nat} (hx : (n, x) ∈ S) : W.node x = some .term :=
  followLoop_toks k ⟨(initFollow W eof).sets, true⟩ _ (initFollow_toks he) h _ hx

end Verif.Grammar
