import Verif.OpRule.Model

/-!
# Specification: integer literals and expressions of C++, derived classes
-/

namespace Verif.OpRule

open Verif.Syntax (Name Operator Prio Assoc OpDecl)
open Verif.Top (Text txt)

/-! ### Integer literals -/

def Digits (n : Text) : Prop := n ≠ [] ∧ ∀ c ∈ n, 48 ≤ c ∧ c ≤ 57

def Octal (n : Text) : Prop := ∀ c ∈ n, 48 ≤ c ∧ c ≤ 55

/-- The number written with these digits. -/
def value (base : Nat) : Text → Nat := List.foldl (fun v c => base * v + (c - 48)) 0

/-- Integer literals without suffix ([lex.icon]): decimal if the first digit is not `0`, else octal; they have to fit into the largest type. -/
inductive IntLit : Text → Nat → Prop
  | dec {c n} : c ≠ 48 → Digits (c :: n) → value 10 (c :: n) < 2 ^ 63 → IntLit (c :: n) (value 10 (c :: n))
  | oct {n} : Octal n → value 8 n < 2 ^ 64 → IntLit (48 :: n) (value 8 n)

/-- `const unsigned int priority = n;` for a literal: the value of `priority`. -/
def PriorityIs (n : Text) (v : Nat) : Prop := ∃ w, IntLit n w ∧ v = w % 2 ^ 32

/-! ### Expressions -/

/-- Expressions of C++ from the comma to equality ([expr.comma] to [expr.eq]) with their values, in a state where operand `n` has the value `ρ n`; `&&` and `||` are taken to bind to the right, which does
not change values; one comparison only. -/
inductive Level | prim | eq | land | lor | cond | expr
deriving DecidableEq

inductive E (ρ : Nat → Nat) : Level → List T → Nat → Prop
  | atom {n} : E ρ .prim [.atom n] (ρ n)
  | num {n} : E ρ .prim [.num n] n
  | paren {ts v} : E ρ .expr ts v → E ρ .prim (.lp :: (ts ++ [.rp])) v
  | eq1 {ts v} : E ρ .prim ts v → E ρ .eq ts v
  | eq {ts us v w} : E ρ .prim ts v → E ρ .prim us w → E ρ .eq (ts ++ .eq :: us) (if v = w then 1 else 0)
  | land1 {ts v} : E ρ .eq ts v → E ρ .land ts v
  | land {ts us v w} : E ρ .eq ts v → E ρ .land us w → E ρ .land (ts ++ .and :: us) (if v ≠ 0 ∧ w ≠ 0 then 1 else 0)
  | lor1 {ts v} : E ρ .land ts v → E ρ .lor ts v
  | lor {ts us v w} : E ρ .land ts v → E ρ .lor us w → E ρ .lor (ts ++ .or :: us) (if v ≠ 0 ∨ w ≠ 0 then 1 else 0)
  | cond1 {ts v} : E ρ .lor ts v → E ρ .cond ts v
  | cond {ts us vs v w x} : E ρ .lor ts v → E ρ .expr us w → E ρ .cond vs x → E ρ .cond (ts ++ .quest :: (us ++ .colon :: vs)) (if v ≠ 0 then w else x)
  | expr1 {ts v} : E ρ .cond ts v → E ρ .expr ts v
  | comma {ts us v w} : E ρ .cond ts v → E ρ .expr us w → E ρ .expr (ts ++ .comma :: us) w

/-- The text is an expression, and it holds exactly if `P` does. -/
def Means (ρ : Nat → Nat) (ts : List T) (P : Prop) : Prop := (∃ v, E ρ .expr ts v) ∧ ∀ v, E ρ .expr ts v → (v ≠ 0 ↔ P)

/-- The text is an operand, and its value is `v`. -/
def Has (ρ : Nat → Nat) (ts : List T) (v : Nat) : Prop := E ρ .prim ts v ∧ ∀ w, E ρ .prim ts w → w = v

/-! ### Records -/

/-- What stands for an associativity in the generated parser. -/
def leftText : Assoc → Text
  | .left => txt "1"
  | .right => txt "0"
  | .isLeft c => txt "(" ++ c ++ txt "?1:0)"
  | .isRight c => txt "(" ++ c ++ txt "?0:1)"

/-- What stands for a priority in the generated parser. -/
def strengthText : Prio → Text
  | .zero => txt "0"
  | .number n => n
  | .code c => c

/-- Code has no zeros. -/
def NoZero : OpDecl → Prop
  | .bin _ _ (.isLeft c) | .bin _ _ (.isRight c) | .tern _ _ _ (.isLeft c) | .tern _ _ _ (.isRight c) | .post _ _ (some (.isLeft c)) | .post _ _ (some (.isRight c)) => 0 ∉ c
  | _ => True

/-! ### Classes -/

/-- A structure is the other one or derived from it, the structures being those of symbols. -/
inductive Derived (base : Text → Text) : Text → Text → Prop
  | base {s c} : Derived base (base s) c → Derived base (className s) c
  | self {c} : Derived base c c

end Verif.OpRule
