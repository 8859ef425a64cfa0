import Verif.Auto.LoopLemmas
import Verif.Auto.ListLemmas

set_option linter.unusedSectionVars false

/-!
# Properties of the operations on automata

* C13 union, C14 concatenation, C15 star; C17 combination of rules.  Whole expressions: `RxProps`.

`Wf` is what every constructor establishes and every operation keeps, so each theorem also says that its
result is again `Wf`, i.e. that the operations compose.
-/

namespace Verif.Auto

variable {C : Type} [CharSetLike C]

/-- **C13.** `a | b`. -/
theorem C13_union {n o : NFA C} (hn : n.Wf) (ho : o.Wf) :
    ∃ r, n.alt o = some r ∧ r.Wf ∧ ∀ w, r.Lang w ↔ n.Lang w ∨ o.Lang w := alt_spec hn ho

/-- **C14.** `a b`. -/
theorem C14_concatenation {n o : NFA C} (hn : n.Wf) (ho : o.Wf) :
    ∃ r, n.concat o = some r ∧ r.Wf ∧ ∀ w, r.Lang w ↔ ∃ u v, w = u ++ v ∧ n.Lang u ∧ o.Lang v := concat_spec hn ho

/-- **C13.** `?a`. -/
theorem C13_optional {n : NFA C} (hn : n.Wf) :
    ∃ r, n.opt = some r ∧ r.Wf ∧ ∀ w, r.Lang w ↔ n.Lang w ∨ w = [] := by
  obtain ⟨r, h1, h2, h3⟩ := alt_spec hn (wf_emptyWord (C := C))
  exact ⟨r, h1, h2, fun w => by rw [h3, lang_emptyWord]⟩

/-- **C13/C14.** The primitive automata: nothing, the empty word, one character of a set. -/
theorem C13_primitive :
    ((NFA.empty : NFA C).Wf ∧ ∀ w, ¬ (NFA.empty : NFA C).Lang w) ∧
    ((NFA.emptyWord : NFA C).Wf ∧ ∀ w, (NFA.emptyWord : NFA C).Lang w ↔ w = []) ∧
    ∀ s : C, CharSetLike.isEps s = false →
      (NFA.ofSet s).Wf ∧ ∀ w, (NFA.ofSet s).Lang w ↔ ∃ x, w = [x] ∧ CharSetLike.accepts s x = true :=
  ⟨⟨wf_empty, lang_empty⟩, ⟨wf_emptyWord, lang_emptyWord⟩, fun s hs => ⟨wf_ofSet s, lang_ofSet s hs⟩⟩

/-- **C15.** What `a*` computes exactly: finite concatenations of words of `a` *or of words leading from the
start state of `a` back to it*. -/
theorem C15_star_exact {n : NFA C} (hn : n.Wf) :
    ∃ r, n.star = some r ∧ r.Wf ∧ ∀ w, r.Lang w ↔ Star (fun u => n.Lang u ∨ n.Loop u) w := star_spec hn

/-- **C15.** So `a*` is right exactly when every loop at the start of `a` is itself a concatenation of words
of `a`. -/
theorem C15_star_iff {n : NFA C} (hn : n.Wf) :
    ∃ r, n.star = some r ∧ ((∀ w, r.Lang w ↔ Star n.Lang w) ↔ ∀ w, n.Loop w → Star n.Lang w) := by
  obtain ⟨r, h1, h2, h3⟩ := star_spec hn
  refine ⟨r, h1, ?_, ?_⟩
  · intro h w hw
    exact (h w).mp ((h3 w).mpr (Star.one (Or.inr hw)))
  · intro h w
    rw [h3]
    constructor
    · intro hw
      refine Star.idem (Star.mono (fun u hu => ?_) hw)
      rcases hu with hu | hu
      · exact Star.one hu
      · exact h u hu
    · exact Star.mono fun u hu => Or.inl hu

/-- `a*` never loses words. -/
theorem C15_star_complete {n r : NFA C} (hn : n.Wf) (h : n.star = some r) (w : List Nat) (hw : Star n.Lang w) : r.Lang w := by
  obtain ⟨r', h1, -, h3⟩ := star_spec hn
  rw [h] at h1; cases h1
  exact (h3 w).mpr (Star.mono (fun u hu => Or.inl hu) hw)

/-- **C17, first half.** The automaton combined from several rules reaches its `k`-th accepting state exactly
on the words of the `k`-th rule. -/
theorem C17_combined (l : List (NFA C)) (h : ∀ n ∈ l, n.Wf) (hne : l ≠ []) :
    ∃ r, NFA.ofList l = some r ∧ r.WfM ∧ r.nstates = r.accept + l.length ∧
      ∀ k w, r.LangAt k w ↔ ∃ n, l[k]? = some n ∧ n.Lang w := ofList_spec l h hne

/-- Case: three rules. -/
example : ∀ n ∈ [(NFA.emptyWord : NFA (SeqCS 128)), .empty, .ofSet (SeqCS.single 97 (by omega))], n.Wf := by
  intro n hn
  simp at hn
  rcases hn with rfl | rfl | rfl
  · exact wf_emptyWord
  · exact wf_empty
  · exact wf_ofSet _

end Verif.Auto
