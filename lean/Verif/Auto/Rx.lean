import Verif.Auto.Minimize
import Verif.Auto.Spec

set_option linter.unusedSectionVars false

/-!
# Regular expressions as the grammar file writes them

`/repo/src/kdev-pg-parser.yy` lines 302-360: the operators of `regexp`, each with its semantic action.  `named a` is the use
`{x}` of an expression defined as `a`: its automaton is made deterministic and minimised at the first use, and copied
from then on (lines 346-359).  `leaf` stands for the automata of words, collections, ranges and the dot (lines 342-344, 402-428), which
are the subject of `Verif/Enc`.
-/

namespace Verif.Auto

variable {C : Type} [CharSetLike C]

inductive Rx (C : Type) [CharSetLike C]
  | nothing
  | emptyWord
  | set (s : C) (h : CharSetLike.isEps s = false)
  | alt (a b : Rx C)
  | cat (a b : Rx C)
  | star (a : Rx C)
  | plus (a : Rx C)
  | opt (a : Rx C)
  | sepBy (item sep : Rx C)
  | and (a b : Rx C)
  | but (a b : Rx C)
  | compl (a : Rx C)
  | named (a : Rx C)
  | leaf (n : NFA C) (h : n.Wf)

/-- Meaning: the textbook one.  Complements are relative to the words over the code space. -/
def Rx.den : Rx C → Lang
  | nothing => fun _ => False
  | emptyWord => fun w => w = []
  | set s _ => fun w => ∃ x, w = [x] ∧ CharSetLike.accepts s x = true
  | alt a b => fun w => a.den w ∨ b.den w
  | cat a b => Cat a.den b.den
  | star a => Star a.den
  | plus a => Cat a.den (Star a.den)
  | opt a => fun w => a.den w ∨ w = []
  | sepBy i s => Cat i.den (Star (Cat s.den i.den))
  | and a b => fun w => a.den w ∧ b.den w
  | but a b => fun w => a.den w ∧ ¬ b.den w
  | compl a => fun w => (∀ x ∈ w, x < CharSetLike.size C) ∧ ¬ a.den w
  | named a => a.den
  | leaf n _ => n.Lang

/-- The semantic actions of the parser.  `order` and `fuel` are those of the determinisations. -/
def Rx.build (order : List Bits → List Bits) (fuel : Nat) : Rx C → Option (NFA C)
  | nothing => some .empty
  | emptyWord => some .emptyWord
  | set s _ => some (.ofSet s)
  | alt a b => do (← a.build order fuel).alt (← b.build order fuel)
  | cat a b => do (← a.build order fuel).concat (← b.build order fuel)
  | star a => do (← a.build order fuel).star
  | plus a => do (← a.build order fuel).plus
  | opt a => do (← a.build order fuel).opt
  | sepBy i s => do (← i.build order fuel).sepBy (← s.build order fuel)
  | and a b => do (← a.build order fuel).and order fuel (← b.build order fuel)
  | but a b => do (← a.build order fuel).but order fuel (← b.build order fuel)
  | compl a => do (← a.build order fuel).negate order fuel
  | named a => do (← (← (← a.build order fuel).dfa order fuel).minimize fuel).nfa
  | leaf n _ => some n

end Verif.Auto
