import Verif.Grammar.Model

/-!
# Model of `CloneTree` and of separated lists

Sources: `/repo/src/kdev-pg-clone-tree.cpp`, `/repo/src/kdev-pg-default-visitor.cpp` lines 85-88, `/repo/src/kdev-pg-parser.yy` lines 520-534.

Nodes are those of the grammar model; a new node is put at the end of the heap.  Names, code and arguments are left out there; they are copied as they are.
-/

namespace Verif.Clone

open Verif.Grammar

/-- `new`. -/
def alloc (h : List Item) (it : Item) : List Item × Nat := (h ++ [it], h.length)

/-- `CloneTree::visitNode` and what is then on top of `mTemps`.  The stack is empty whenever an item is visited, as a result is taken off at once.
`none`: the top of the empty stack is taken (an action without item), an invalid pointer, or no fuel. -/
def visit (h : List Item) : Nat → Nat → Option (List Item × Nat)
  | 0, _ => none
  | f + 1, n => match h[n]? with
    | none => none
    -- lines 14-27, 147-151: the node itself
    | some .zero => some (h, n)
    | some .sym => some (h, n)
    | some .term => some (h, n)
    | some (.op _) => some (h, n)
    -- lines 29-37
    | some (.nonterm s) => some (alloc h (.nonterm s))
    | some (.inlined s) => some (alloc h (.inlined s))
    -- lines 39-57
    | some (.plus i) => do
      let (h, i) ← visit h f i
      pure (alloc h (.plus i))
    | some (.star i) => do
      let (h, i) ← visit h f i
      pure (alloc h (.star i))
    -- lines 59-67: without item, nothing is on the stack
    | some (.action none) => none
    | some (.action (some i)) => do
      let (h, i) ← visit h f i
      pure (alloc h (.action (some i)))
    -- lines 69-97
    | some (.alt l r) => do
      let (h, l) ← visit h f l
      let (h, r) ← visit h f r
      pure (alloc h (.alt l r))
    | some (.cons l r) => do
      let (h, l) ← visit h f l
      let (h, r) ← visit h f r
      pure (alloc h (.cons l r))
    -- lines 99-107
    | some (.evolve i s) => do
      let (h, i) ← visit h f i
      pure (alloc h (.evolve i s))
    -- lines 109-127
    | some (.tryc t none) => do
      let (h, t) ← visit h f t
      pure (alloc h (.tryc t none))
    | some (.tryc t (some c)) => do
      let (h, t) ← visit h f t
      let (h, c) ← visit h f c
      pure (alloc h (.tryc t (some c)))
    -- lines 135-145
    | some (.annot i) => do
      let (h, i) ← visit h f i
      pure (alloc h (.annot i))
    -- there is no `visitCondition`: `DefaultVisitor` visits the item only
    | some (.cond i) => visit h f i

/-- `CloneTree::clone` (lines 153-161). -/
def clone (h : List Item) (n : Nat) : Option (List Item × Nat) := visit h (h.length + 1) n

/-- `item @ sep` (parser.yy lines 529-534).  The order in which the arguments are evaluated does not matter but for the positions on the heap. -/
def sepList (h : List Item) (item sep : Nat) : Option (List Item × Nat) := do
  let (h, s) ← clone h sep
  let (h, i) ← clone h item
  let (h, c) := alloc h (.cons s i)
  let (h, st) := alloc h (.star c)
  pure (alloc h (.cons item st))

end Verif.Clone
