import Verif.Lexer.Model
import Verif.Auto.DfaSpec

/-! # Specification: reading input, longest match -/

namespace Verif.Lexer

open Verif.Auto

variable {S P C : Type} [CharSetLike C]

/-- From state `s` the iterator delivers the characters `w` and is then in state `e`. -/
inductive Reads (it : Iter S P) : S → List Nat → S → Prop
  | nil {s} : Reads it s [] s
  | cons {s c s' w e} : it.hasNext s = true → it.next s = some (c, s') → Reads it s' w e → Reads it s (c :: w) e

/-- The whole rest of the input is `w`. -/
def Stream (it : Iter S P) (s : S) (w : List Nat) : Prop := ∃ e, Reads it s w e ∧ it.hasNext e = false

/-- The prefix of `w` of length `k` is the longest accepted one, with action `a`. -/
structure Longest (d : DFA C) (w : List Nat) (k a : Nat) : Prop where
  le : k ≤ w.length
  acts : d.Acts (w.take k) a
  max : ∀ k' ≤ w.length, k < k' → ¬ d.Lang (w.take k')

/-- No prefix of `w` is accepted. -/
def NoMatch (d : DFA C) (w : List Nat) : Prop := ∀ k ≤ w.length, ¬ d.Lang (w.take k)

/-- Iterators whose whole state is the position in the buffer. -/
def PositionOnly (it : Iter S P) : Prop := ∀ e s, it.setPlain e (it.plain s) = s

end Verif.Lexer
