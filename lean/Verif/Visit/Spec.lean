import Verif.Visit.Model
import Verif.Vars.DeclLemmas

/-!
# What visitors should do
-/

namespace Verif.Visit

open Verif.Vars

/-- Node `u` is below `t` (or is `t`), and this is the way to it. -/
inductive At : Tree → Path → Tree → Prop
  | here {s a b vars} : At (.node s a b vars) [] (.node s a b vars)
  | member {s a b vars n seq vs k c p u} : (n, seq, vs) ∈ vars → vs[k]? = some c → At c p u → At (.node s a b vars) ((n, seq, k) :: p) u

/-- An annotation stands for a token or a node, as `annotation` (kdev-pg.cpp lines 125-160) has it. -/
def Kinded : Item → Prop
  | .ann d (.tok _) => d.kind = .tok
  | .ann d (.sym _) => d.kind = .node
  | .cons l r => Kinded l ∧ Kinded r
  | .alt l r => Kinded l ∧ Kinded r
  | .star x => Kinded x
  | .plus x => Kinded x
  | .act x => Kinded x
  | .cond x => Kinded x
  | .recover x _ => Kinded x
  | .rollback x y => Kinded x ∧ Kinded y
  | _ => True

/-- Members of the same name have the same type, in all rules of a symbol. -/
def Agree (G : Grammar) (s : Nat) : Prop :=
  ∀ r ∈ G.rules s, ∀ q ∈ G.rules s, ∀ d e, Has G r d → Has G q e → d.temp = false → e.temp = false → d.name = e.name → SameType d e

/-- How a member is named in the output of the debug visitor. -/
def label (x : String × Bool × Nat) : String := if x.2.1 then x.1 ++ "[]" else x.1

/-- The operands of the nodes of operator rules, by the prefix of the structure. -/
def operands : String → List String
  | "Prefix" | "Postfix" => ["first"]
  | "Binary" => ["first", "second"]
  | "Ternary" => ["first", "second", "third"]
  | _ => []

end Verif.Visit
