import Verif.GenText.Spec

/-!
# Names of variables and labels in C++

Specification of C116, apart from the code generator: the tokens of a function are read from left to right.  A variable is declared by a type and its name; it can be used from there to the end of the block, and
is declared once in a block.  A label is set once.  A jump goes to a label that comes later in the function, and does not pass a declaration that is still in force at the label.

Simplification: only identifiers made of a fixed beginning and a number are looked at (the variables and labels that the code generator invents; a name without a number has the number 0); all variables declared by one of the types below have an initial
value.  C++ also has backward jumps; here they are refused.
-/

namespace Verif.GenText.Spec

abbrev Var := Word × Nat

structure Sc where
  /-- the variables of the open blocks, the innermost first -/
  scopes : List (List Var) := [[]]
  /-- jumps to labels that are still to come, and the variables in force at the jump -/
  pending : List (Nat × List Var) := []
  labels : List Nat := []
deriving DecidableEq, Repr

def Sc.visible (st : Sc) : List Var := st.scopes.flatten

/-- Words behind which an identifier is declared: `qint64 x`, `bool x`, `unsigned int x`, `T *x`, `T *&x`, `List<T> x`. -/
def declares : Tok → Bool
  | .w .«*» | .w .«*&» | .w .«>» | .w .«qint64» | .w .«bool» | .w .«int» => true
  | _ => false

/-- A variable is declared. -/
def Sc.declare (st : Sc) (v : Var) : Option Sc := match st.scopes with
  | [] => none
  | top :: rest => if v ∈ top then none else some { st with scopes := (v :: top) :: rest }

/-- A label is set. -/
def Sc.label (st : Sc) (i : Nat) : Option Sc :=
  if i ∈ st.labels then none
  else if st.pending.all fun p => p.1 ≠ i || st.visible.all (p.2.contains ·) then some { st with labels := i :: st.labels, pending := st.pending.filter (·.1 ≠ i) }
  else none

/-- The next token is `t`, the one before was `p`. -/
def Sc.step (p : Tok) (st : Sc) (t : Tok) : Option Sc := match t with
  | .lb => some { st with scopes := [] :: st.scopes }
  | .rb => match st.scopes with
    | _ :: a :: rest => some { st with scopes := a :: rest }
    | _ => none
  | .num .«__catch_» i => some (if p = .kGoto then { st with pending := (i, st.visible) :: st.pending } else st)
  | .colon => match p with
    | .num .«__catch_» i => st.label i
    | _ => none
  | .num v i => if declares p then st.declare (v, i) else if (v, i) ∈ st.visible then some st else none
  | _ => some st

def Sc.scan (p : Tok) (st : Sc) : Toks → Option Sc
  | [] => some st
  | t :: ts => (Sc.step p st t).bind fun st' => Sc.scan t st' ts

/-- The names in a function body are in order. -/
def Named (ts : Toks) : Prop := ∃ st, Sc.scan .semi {} ts = some st ∧ st.scopes = [[]] ∧ st.pending = []

end Verif.GenText.Spec
