/-!
# Model of the AST sequence type `KDevPG::ListNode`

Source: `/repo/src/include/kdev-pg-list.h` (lines 17-80).

A heap is a list of nodes; the address of a node is its position in the heap, so allocation
appends a node.  Simplifications:
* `int index` is an unbounded `Nat` (the code overflows after 2^31 elements);
* the memory pool is replaced by "allocation gives a fresh node" (its own property is C02).

`none` stands for undefined behaviour (dangling pointer) or non-termination of a loop.
-/

namespace Verif.RtList

/-- `struct ListNode` (kdev-pg-list.h:17-21): element, index, next pointer. -/
structure Node (α : Type) where
  element : α
  index : Nat
  next : Nat
deriving DecidableEq, Repr

/-- The memory holding list nodes; an address is an index. -/
abbrev Heap (α : Type) := List (Node α)

variable {α : Type}

/-- `hasNext()` (kdev-pg-list.h:53-54): `index < next->index`. -/
def hasNext (h : Heap α) (p : Nat) : Option Bool := do
  let n ← h[p]?
  let m ← h[n.next]?
  return decide (n.index < m.index)

/-- `back()` (kdev-pg-list.h:62-69): `while (node->hasNext()) node = node->next;`.
The loop gets fuel; running out of fuel is `none`. -/
def backLoop (h : Heap α) : Nat → Nat → Option Nat
  | 0, _ => none
  | fuel + 1, p => do
    let b ← hasNext h p
    if b then
      let n ← h[p]?
      backLoop h fuel n.next
    else
      return p

/-- `back()`; a loop that visits more nodes than exist never stops. -/
def back (h : Heap α) (p : Nat) : Option Nat := backLoop h (h.length + 1) p

/-- `front()` (kdev-pg-list.h:59-60): `back()->next`. -/
def front (h : Heap α) (p : Nat) : Option Nat := do
  let b ← back h p
  let n ← h[b]?
  return n.next

/-- `count()` (kdev-pg-list.h:56-57): `1 + back()->index`. -/
def count (h : Heap α) (p : Nat) : Option Nat := do
  let b ← back h p
  let n ← h[b]?
  return 1 + n.index

/-- `at(index)` (kdev-pg-list.h:44-51): `while (index != node->index) node = node->next;`. -/
def atLoop (h : Heap α) (i : Nat) : Nat → Nat → Option Nat
  | 0, _ => none
  | fuel + 1, p => do
    let n ← h[p]?
    if i = n.index then return p else atLoop h i fuel n.next

/-- `at(index)`. -/
def at_ (h : Heap α) (p i : Nat) : Option Nat := atLoop h i (h.length + 1) p

/-- `create(element, p)` (kdev-pg-list.h:23-31): a one-element ring. -/
def create1 (h : Heap α) (e : α) : Heap α × Nat :=
  (h ++ [{ element := e, index := 0, next := h.length }], h.length)

/-- `create(n1, element, p)` (kdev-pg-list.h:33-42): link a new node after `n1`. -/
def create2 (h : Heap α) (n1 : Nat) (e : α) : Option (Heap α × Nat) := do
  let (h1, n2) := create1 h e
  let nd1 ← h1[n1]?
  let h2 := h1.set n2 { element := e, index := nd1.index + 1, next := nd1.next }
  let nd1' ← h2[n1]?
  let h3 := h2.set n1 { nd1' with next := n2 }
  return (h3, n2)

/-- `snoc(list, element, p)` (kdev-pg-list.h:72-80). -/
def snoc (h : Heap α) (list : Option Nat) (e : α) : Option (Heap α × Nat) :=
  match list with
  | none => some (create1 h e)
  | some p => do
    let b ← back h p
    create2 h b e

/-- The loop emitted by the default visitor generator for a sequence member
(kdev-pg-default-visitor-bits-gen.cpp:79-90): start at `front()`, do { visit; next } while the
node is not the first one again.  Returns the visited elements in order. -/
def visitLoop (h : Heap α) (stop : Nat) : Nat → Nat → Option (List α)
  | 0, _ => none
  | fuel + 1, p => do
    let n ← h[p]?
    if n.next = stop then return [n.element]
    else do
      let rest ← visitLoop h stop fuel n.next
      return n.element :: rest

/-- The whole emitted `if (seq) { it = seq->front(), end = it; do ... while (it != end); }`. -/
def visitSequence (h : Heap α) (seq : Option Nat) : Option (List α) :=
  match seq with
  | none => some []
  | some p => do
    let f ← front h p
    visitLoop h f (h.length + 1) f

/-- One client operation on sequences: `snoc` on a null pointer or on a handle. -/
inductive Op (α : Type) where
  | new (e : α)
  | app (handle : Nat) (e : α)

/-- Execute one operation. -/
def step (h : Heap α) : Op α → Option (Heap α)
  | .new e => (snoc h none e).map Prod.fst
  | .app p e => (snoc h (some p) e).map Prod.fst

/-- Execute a program of operations from a given heap. -/
def run (h : Heap α) : List (Op α) → Option (Heap α)
  | [] => some h
  | o :: os => (step h o).bind fun h' => run h' os

end Verif.RtList
