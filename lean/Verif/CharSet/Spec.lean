import Verif.CharSet.Model

/-!
# Specification of the character sets

Expressions over the public operations, with their meaning as predicates on characters.
-/

namespace Verif.CharSet

/-- A character set expression. -/
inductive CExpr where
  | empty
  | full
  | single (c : Nat)
  | range (b e : Nat)
  | str (units : List Nat)
  | inter (a b : CExpr)
  | diff (a b : CExpr)
  | union (a b : CExpr)
  | neg (a : CExpr)
deriving DecidableEq, Repr

/-- The characters (of a code space of size `S`) denoted by an expression. -/
def CExpr.den (S : Nat) : CExpr → Nat → Prop
  | .empty, _ => False
  | .full, x => x < S
  | .single c, x => x = c
  | .range b e, x => b ≤ x ∧ x < e
  | .str us, x => x ∈ us
  | .inter a b, x => a.den S x ∧ b.den S x
  | .diff a b, x => a.den S x ∧ ¬ b.den S x
  | .union a b, x => a.den S x ∨ b.den S x
  | .neg a, x => x < S ∧ ¬ a.den S x

/-- The arguments lie in the code space, and strings have no repeated character. -/
def CExpr.Ok (S : Nat) : CExpr → Prop
  | .empty | .full => True
  | .single c => c < S
  | .range _ e => e ≤ S
  | .str us => us.Nodup ∧ ∀ u ∈ us, u < S
  | .inter a b | .diff a b | .union a b => a.Ok S ∧ b.Ok S
  | .neg a => a.Ok S

/-- Evaluation with `SeqCharSet`. -/
def CExpr.seq (S : Nat) : CExpr → Seq
  | .empty => .emptySet
  | .full => .fullSet S
  | .single c => .single c
  | .range b e => .range b e
  | .str us => .ofString us
  | .inter a b => (a.seq S).intersection (b.seq S)
  | .diff a b => (a.seq S).difference (b.seq S)
  | .union a b => (a.seq S).getUnion (b.seq S)
  | .neg a => (a.seq S).negate S

/-- Evaluation with `TableCharSet`; `none` is an access outside the table. -/
def CExpr.table (S : Nat) : CExpr → Option (Table S)
  | .empty => some .emptySet
  | .full => some .fullSet
  | .single c => Table.single c
  | .range b e => Table.range b e
  | .str us => Table.ofString us
  | .inter a b => do return (← a.table S).intersection (← b.table S)
  | .diff a b => do return (← a.table S).difference (← b.table S)
  | .union a b => do return (← a.table S).getUnion (← b.table S)
  | .neg a => do return (← a.table S).negate

/-- Expressions on which `negate` does not leave an empty range behind: every complement is taken of a
set that contains 0 or lacks the last character, or is cut by an intersection. -/
def CExpr.Tidy (S : Nat) : CExpr → Prop
  | .empty | .full | .single _ | .range _ _ | .str _ => True
  | .inter _ _ => True
  | .diff a _ => a.Tidy S
  | .union a b => a.Tidy S ∧ b.Tidy S
  | .neg a => a.Tidy S ∧ (a.den S 0 ∨ ¬ a.den S (S - 1))

end Verif.CharSet
