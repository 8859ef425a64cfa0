import Verif.Read.Spec
import Verif.Gen.Spec

/-!
# Specification: the tokens of an input, as items of the grammar
-/

namespace Verif.Whole

open Verif.Read Verif.TokStream

/-- `inp` is the sequence of tokens of the input that `D` describes, each given by the terminal item with its number; from the end of the input on it is `EOF`. -/
def Sequence (D : Read.Spec) (kind : Nat → Int) (inp : Nat → Nat) : Prop := ∀ p, ∃ ts t, Tokens D 0 0 ts ∧ ts[p]? = some t ∧ t.kind = kind (inp p)

/-- The grammar `W` and the lexer that `D` describes belong together: the terminals have different numbers, `EOF` has 1000, and the tokens of the rules are terminals.  No rule takes an empty
piece of text. -/
structure Together (D : Read.Spec) (W : Grammar.World) (eof : Nat) (num : Nat → Nat) : Prop where
  adv : D.Advances
  inj : ∀ a b, W.node a = some .term → W.node b = some .term → num a = num b → a = b
  eof : eof ∈ W.terminals ∧ num eof = 1000
  known : ∀ r p u q x, p < D.n → D.found r p = some (u, q) → u.term = .tok x → ∃ t ∈ W.terminals, num t = x

/-- The tokens of the text are those of the terminals `ω`, then it ends or no rule matches. -/
def Yields (D : Read.Spec) (num : Nat → Nat) (ω : List Nat) : Prop := ∃ ts, Tokens D 0 0 ts ∧ ts.map (·.kind) = (ω.map fun t => (num t : Int)) ++ [1000]

end Verif.Whole
