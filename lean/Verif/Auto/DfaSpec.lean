import Verif.Auto.Refine
import Verif.Auto.Spec

/-! # Specification: deterministic automata -/

namespace Verif.Auto

variable {C : Type} [CharSetLike C]

/-- Well-formed deterministic automata: transitions stay inside, none is an epsilon transition, and no
character leads from a state to two different states. -/
structure DFA.Wf (d : DFA C) : Prop where
  rules : d.rules.length = d.nstates
  accept : d.accept.length = d.nstates
  target : ∀ i c j, HasEdge d.rules i c j → j < d.nstates
  noEps : ∀ i c j, HasEdge d.rules i c j → CharSetLike.isEps c = false
  det : ∀ i c j c' j' y, HasEdge d.rules i c j → HasEdge d.rules i c' j' → CharSetLike.accepts c y = true →
    CharSetLike.accepts c' y = true → j = j'
  action : ∀ a ∈ d.accept, a ≤ d.numActions

/-- Reading word `w` from the start state ends in a state with action `a` (0: not accepting). -/
def DFA.Ends (d : DFA C) (w : List Nat) (a : Nat) : Prop := ∃ q, Run d.rules 0 w q ∧ d.accept[q]? = some a

/-- Word `w` is accepted with action `a`. -/
def DFA.Acts (d : DFA C) (w : List Nat) (a : Nat) : Prop := a ≠ 0 ∧ d.Ends w a

/-- The words of the automaton. -/
def DFA.Lang (d : DFA C) : List Nat → Prop := fun w => ∃ a, d.Acts w a

end Verif.Auto
