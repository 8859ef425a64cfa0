import Verif.LocTable.Model

/-!
# Specification of the location table

Abstract state: the list of line starts.  Independent of the table's representation and of earlier
queries.
-/

namespace Verif.LocTable.Spec

/-- `a` is the right answer for offset `q`: the last line starting at or before `q`, and the distance
from its start. -/
def Answer (starts : List Int) (q : Int) (a : Int × Int) : Prop :=
  (q < 0 ∧ a = (-1, -1)) ∨
  (0 ≤ q ∧ ∃ (l : Nat) (s : Int), a = ((l : Int), q - s) ∧ starts[l]? = some s ∧ s ≤ q ∧
    ∀ (j : Nat) (s' : Int), starts[j]? = some s' → s' ≤ q → j ≤ l)

/-- Histories in contract: newline offsets lie in the current last line, the table is never shrunk
below its contents. -/
def Contract (starts : List Int) : List Op → Prop
  | [] => True
  | .newline o :: os => (∀ s ∈ starts, s ≤ o) ∧ Contract (starts ++ [o + 1]) os
  | .query _ :: os => Contract starts os
  | .resize n :: os => starts.length ≤ n ∧ Contract starts os

/-- Every query is answered right, with respect to the newlines seen before it. -/
def Answers (starts : List Int) : List Op → List (Int × Int) → Prop
  | [], as => as = []
  | .newline o :: os, as => Answers (starts ++ [o + 1]) os as
  | .resize _ :: os, as => Answers starts os as
  | .query q :: os, as => ∃ a as', as = a :: as' ∧ Answer starts q a ∧ Answers starts os as'

end Verif.LocTable.Spec
