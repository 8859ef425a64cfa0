import Verif.MemPool.Model

/-!
# Specification: the client's view of a pool

Every region is its own array of bytes, zero when handed out, changed only by writes to it.
-/

namespace Verif.MemPool.Spec

/-- The contents of the regions handed out, oldest first. -/
abbrev View := List (List UInt8)

def step (v : View) : Op → Option View
  | .alloc n => some (v ++ [List.replicate n 0])
  | .write k o x => do
    let r ← v[k]?
    if o < r.length then some (v.set k (r.set o x)) else none

def run (v : View) : List Op → Option View
  | [] => some v
  | o :: os => (step v o).bind fun v' => run v' os

/-- Two regions share no byte. -/
def Disjoint (a b : Region) : Prop :=
  a.block ≠ b.block ∨ a.off + a.size ≤ b.off ∨ b.off + b.size ≤ a.off

end Verif.MemPool.Spec
