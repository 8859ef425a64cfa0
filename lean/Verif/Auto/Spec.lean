import Verif.Auto.Nfa

/-!
# Specification: languages

Words are lists of code units.
-/

namespace Verif.Auto

abbrev Lang := List Nat → Prop

/-- Finite concatenations of words of `L`. -/
inductive Star (L : Lang) : Lang
  | nil : Star L []
  | app {u v} : L u → Star L v → Star L (u ++ v)

def Cat (L M : Lang) : Lang := fun w => ∃ u v, w = u ++ v ∧ L u ∧ M v

variable {C : Type} [CharSetLike C]

/-- There is a transition labelled `c` from `i` to `j`. -/
def HasEdge (rs : Rules C) (i : Nat) (c : C) (j : Nat) : Prop := ∃ es, rs[i]? = some es ∧ (c, j) ∈ es

/-- A path reading a word. -/
inductive Run (rs : Rules C) : Nat → List Nat → Nat → Prop
  | nil {i} : Run rs i [] i
  | eps {i c j w k} : HasEdge rs i c j → CharSetLike.isEps c = true → Run rs j w k → Run rs i w k
  | chr {i c j x w k} : HasEdge rs i c j → CharSetLike.isEps c = false → CharSetLike.accepts c x = true →
      Run rs j w k → Run rs i (x :: w) k

/-- The words taking the start state to accepting state number `k`. -/
def NFA.LangAt (n : NFA C) (k : Nat) : Lang := fun w => n.accept + k < n.nstates ∧ Run n.rules 0 w (n.accept + k)

/-- The language of an automaton. -/
def NFA.Lang (n : NFA C) : Lang := fun w => ∃ k, n.LangAt k w

/-- The words leading from the start state back to it. -/
def NFA.Loop (n : NFA C) : List Nat → Prop := fun w => Run n.rules 0 w 0

/-- Well-formed automata with one accepting state, the last one: what all constructors build.
Unused entries of the vector are empty. -/
structure NFA.Wf (n : NFA C) : Prop where
  single : n.accept + 1 = n.nstates
  size : n.nstates ≤ n.rules.length
  target : ∀ i c j, HasEdge n.rules i c j → i < n.nstates ∧ j < n.nstates

end Verif.Auto
