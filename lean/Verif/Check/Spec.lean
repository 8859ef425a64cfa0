import Verif.Grammar.Spec
import Mathlib.Logic.Relation

/-! # Specification of the checks -/

namespace Verif.Check

open Verif.Grammar

/-- `m` is `n` or a part of it, directly or not. -/
inductive Below (W : World) (n : Nat) : Nat → Prop
  | refl : Below W n n
  | part {m k} : Below W n m → Part W m k → Below W n k

/-- The rule used for symbol `s` inlines symbol `t`, leaving out the nodes `cut`. -/
def InlinesBut (W : World) (cut : List Nat) (s t : Nat) : Prop :=
  ∃ r n, W.searchRule s = some r ∧ Below W r n ∧ W.node n = some (.inlined (some t)) ∧ n ∉ cut

/-- The rule used for symbol `s` inlines symbol `t`. -/
def Inlines (W : World) (s t : Nat) : Prop := InlinesBut W [] s t

/-- No symbol is inlined in itself, directly or not. -/
def InlineAcyclic (W : World) : Prop := ∀ s, ¬ Relation.TransGen (Inlines W) s s

/-- The symbol has a rule that is an operator expression, the one used for inlining. -/
def OperatorSym (W : World) (s : Nat) : Prop := ∃ r i t o, W.searchRule s = some r ∧ W.node r = some (.evolve i t) ∧ W.node i = some (.op o)

/-- No operator expression is inlined. -/
def NoInlinedOp (W : World) : Prop := ∀ n s, Occurs W n → W.node n = some (.inlined (some s)) → ¬ OperatorSym W s

/-- `m` is `n` or a part of it, directly or not, but not a part of an operator expression in it. -/
inductive Inside (W : World) (n : Nat) : Nat → Prop
  | refl : Inside W n n
  | part {m k} : Inside W n m → (∀ o, W.node m ≠ some (.op o)) → Part W m k → Inside W n k

/-- Two items between which the parser has to choose, where the conflict is reported for `n`: the sides of a choice, or two rules of one
symbol. -/
inductive Rivals (W : World) (n : Nat) : Nat → Nat → Prop
  | alt {l r} : W.node n = some (.alt l r) → Rivals W n l r
  | rules {r i i' s} : r ∈ W.rules → W.node r = some (.evolve i s) → W.node n = some (.evolve i' s) → r ≠ n → Rivals W n r n

/-- The token can start both items. -/
def BothStart (W : World) (a b t : Nat) : Prop := (∃ γ, Der W a (t :: γ)) ∧ ∃ γ, Der W b (t :: γ)

/-- Token `t` may come after item `n` of the grammar (`eof` after what is derived from a start symbol). -/
inductive After (W : World) (eof : Nat) : Nat → Nat → Prop
  | start {r i s} : r ∈ W.rules → W.node r = some (.evolve i s) → s ∈ W.start → After W eof s eof
  | symbol {n s t} : Occurs W n → W.node n = some (.nonterm s) ∨ W.node n = some (.inlined (some s)) → After W eof n t → After W eof s t
  | rule {r i s t} : r ∈ W.rules → W.node r = some (.evolve i s) → After W eof s t → After W eof i t
  | last {n l r t} : Occurs W n → W.node n = some (.cons l r) → After W eof n t → After W eof r t
  | next {n l r t γ} : Occurs W n → W.node n = some (.cons l r) → t ∈ W.terminals → Der W r (t :: γ) → After W eof l t
  | skip {n l r t} : Occurs W n → W.node n = some (.cons l r) → Nullable W r → After W eof n t → After W eof l t
  | same {n m t} : Occurs W n → (∀ l r, W.node n ≠ some (.cons l r)) → (∀ i s, W.node n ≠ some (.evolve i s)) → Part W n m →
      After W eof n t → After W eof m t
  | again {n i t γ} : Occurs W n → W.node n = some (.star i) ∨ W.node n = some (.plus i) → t ∈ W.terminals → Der W i (t :: γ) → After W eof i t
  | operand {n o t} : Occurs W n → W.node n = some (.op o) → t ∈ W.terminals →
      t ∈ o.post ++ o.bin ++ o.tern.map (·.1) ++ o.tern.map (·.2) ++ o.paren.map (·.2) → After W eof o.base t

/-- Some rule defines the symbol. -/
def Defined (W : World) (s : Nat) : Prop := ∃ r i, r ∈ W.rules ∧ W.node r = some (.evolve i s)

/-- The item is a non-terminal, inlined or not, that refers to the symbol, or the symbol itself. -/
def Mentions (W : World) (n s : Nat) : Prop := W.node n = some (.nonterm s) ∨ W.node n = some (.inlined (some s)) ∨ n = s ∧ W.node n = some .sym

/-- The symbol can be expanded to a sequence that is empty or starts with a declared token. -/
def Productive (W : World) (s : Nat) : Prop := Nullable W s ∨ ∃ t γ, t ∈ W.terminals ∧ Der W s (t :: γ)

end Verif.Check
