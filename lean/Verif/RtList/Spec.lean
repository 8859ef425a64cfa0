import Verif.RtList.Model

/-!
# Specification of sequences: plain lists of (address, element) pairs

Independent of the heap model except for the type of operations.
-/

namespace Verif.RtList.Spec

variable {α : Type}

/-- The abstract state: every sequence built so far, as its list of (node address, element). -/
abbrev World (α : Type) := List (List (Nat × α))

/-- Number of nodes in all sequences; this is the address of the next node. -/
def nodes (w : World α) : Nat := (w.map List.length).sum

/-- Append `(fresh, e)` to the (first) sequence that contains the node `p`;
`none` when `p` is not a node of any sequence. -/
def appendTo (p fresh : Nat) (e : α) : World α → Option (World α)
  | [] => none
  | l :: ls =>
    if p ∈ l.map Prod.fst then some ((l ++ [(fresh, e)]) :: ls)
    else (appendTo p fresh e ls).map (l :: ·)

/-- One operation on the abstract state. -/
def step (w : World α) : Op α → Option (World α)
  | .new e => some (w ++ [[(nodes w, e)]])
  | .app p e => appendTo p (nodes w) e w

/-- A program of operations on the abstract state. -/
def run (w : World α) : List (Op α) → Option (World α)
  | [] => some w
  | o :: os => (step w o).bind fun w' => run w' os

end Verif.RtList.Spec
