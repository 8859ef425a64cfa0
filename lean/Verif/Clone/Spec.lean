import Verif.Grammar.Spec

/-!
# Specification: copies of items, separated lists
-/

namespace Verif.Clone

open Verif.Grammar

/-- The nodes of which there is one each: `0`, symbols, terminals; operator items are not part of other items. -/
inductive Single : Item → Prop
  | zero : Single .zero
  | sym : Single .sym
  | term : Single .term
  | op (o) : Single (.op o)

/-- `Copy W V n c`: in `V`, `c` is a copy of the item `n` of `W`: nodes of the same kinds, and all of them new but for the `Single` ones. -/
inductive Copy (W V : World) : Nat → Nat → Prop
  | single {n it} : Single it → W.node n = some it → V.node n = some it → Copy W V n n
  | nonterm {n c s} : W.node n = some (.nonterm s) → V.node c = some (.nonterm s) → W.heap.length ≤ c → Copy W V n c
  | inlined {n c s} : W.node n = some (.inlined s) → V.node c = some (.inlined s) → W.heap.length ≤ c → Copy W V n c
  | plus {n c i j} : W.node n = some (.plus i) → V.node c = some (.plus j) → W.heap.length ≤ c → Copy W V i j → Copy W V n c
  | star {n c i j} : W.node n = some (.star i) → V.node c = some (.star j) → W.heap.length ≤ c → Copy W V i j → Copy W V n c
  | action0 {n c} : W.node n = some (.action none) → V.node c = some (.action none) → W.heap.length ≤ c → Copy W V n c
  | action {n c i j} : W.node n = some (.action (some i)) → V.node c = some (.action (some j)) → W.heap.length ≤ c → Copy W V i j → Copy W V n c
  | alt {n c l r l' r'} : W.node n = some (.alt l r) → V.node c = some (.alt l' r') → W.heap.length ≤ c → Copy W V l l' → Copy W V r r' → Copy W V n c
  | cons {n c l r l' r'} : W.node n = some (.cons l r) → V.node c = some (.cons l' r') → W.heap.length ≤ c → Copy W V l l' → Copy W V r r' → Copy W V n c
  | evolve {n c i j s} : W.node n = some (.evolve i s) → V.node c = some (.evolve j s) → W.heap.length ≤ c → Copy W V i j → Copy W V n c
  | try0 {n c i j} : W.node n = some (.tryc i none) → V.node c = some (.tryc j none) → W.heap.length ≤ c → Copy W V i j → Copy W V n c
  | tryc {n c l r l' r'} : W.node n = some (.tryc l (some r)) → V.node c = some (.tryc l' (some r')) → W.heap.length ≤ c → Copy W V l l' → Copy W V r r' → Copy W V n c
  | annot {n c i j} : W.node n = some (.annot i) → V.node c = some (.annot j) → W.heap.length ≤ c → Copy W V i j → Copy W V n c
  | cond {n c i j} : W.node n = some (.cond i) → V.node c = some (.cond j) → W.heap.length ≤ c → Copy W V i j → Copy W V n c

/-- `m` is in `n`, or `n` itself. -/
inductive In (W : World) (n : Nat) : Nat → Prop
  | self : In W n n
  | part {m k} : In W n m → Part W m k → In W n k

/-- Items refer to items made before them: the parser works bottom-up.  (Operator items refer to a base only, which is not copied.) -/
def Ordered (W : World) (n : Nat) : Prop := ∀ m k, In W n m → Part W m k → (∃ o, W.node m = some (.op o)) ∨ k < m

/-- An action without an item: `[: code :]` alone. -/
def Bare (W : World) (n : Nat) : Prop := ∃ m, In W n m ∧ W.node m = some (.action none)

/-- There is a condition. -/
def Conditional (W : World) (n : Nat) : Prop := ∃ m i, In W n m ∧ W.node m = some (.cond i)

/-- `α` is an `item`, then any number of times a `sep` and an `item`. -/
inductive Separated (W : World) (item sep : Nat) : List Nat → Prop
  | one {α} : Der W item α → Separated W item sep α
  | more {α β γ} : Separated W item sep α → Der W sep β → Der W item γ → Separated W item sep (α ++ β ++ γ)

end Verif.Clone
