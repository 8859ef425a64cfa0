/-!
# Model of the generated operator expression parser: the tree that is built

Source: `/repo/src/kdev-pg-code-gen.cpp` lines 561-790 (`CodeGenerator::visitOperator`), 864-879 (the loop at the end of the function), 1073-1080
(`OperatorStackItem`), 1119-1134 (`create`); `/repo/src/kdev-pg-parser.yy` lines 582-650 (priorities and associativity).

Which operators and operands are recognised is modelled in `Verif.Gen` (`opLoop`).  Here, a `Run` is the sequence of those that are recognised; what is done
with the nodes and the stack is modelled.  Nodes are on a heap, a pointer is an index.

Simplifications: a base expression is one node; conditions and code of operators are left out; the priority and `left` of an operator (which may be given
by user code) are those of its occurrence, so they may be different each time; `yylex` adds one to the position.  `none` stands for undefined behaviour
(null or invalid pointers, members that a node does not have, the last entry of an empty stack), or for a sequence that is not a run.
-/

namespace Verif.Ops

/-- An occurrence of an operator. -/
structure Op where
  name : Nat
  prio : Nat
  /-- 1 for `%left`, 0 for `%right` -/
  left : Nat
deriving DecidableEq, Repr

/-- What is recognised, one after the other; `i` is what is between parentheses, or between `?` and `:`. -/
inductive Run
  | stop
  | base (n : Nat) (k : Run)
  | pre (o : Op) (k : Run)
  | paren (i k : Run)
  | post (o : Op) (k : Run)
  | bin (o : Op) (k : Run)
  | tern (o : Op) (i k : Run)
deriving DecidableEq, Repr

inductive Kind
  | base | pre | post | bin | tern
deriving DecidableEq, Repr

/-- A node; `op` is the operator for which it was made (not a member of the C++ node).  Memory from the pool is zero. -/
structure Node where
  kind : Kind
  op : Op := ⟨0, 0, 0⟩
  first : Option Nat := none
  second : Option Nat := none
  third : Option Nat := none
  start : Int := 0
  stop : Int := 0
deriving DecidableEq, Repr

/-- `*yynode`, `opStack` with the last entry first, and `tokenStream->index() - 1`. -/
structure St where
  heap : List Node := []
  root : Option Nat := none
  stack : List (Nat × Nat) := []
  pos : Int
deriving DecidableEq, Repr

/-- The priority of operands on the stack: `(unsigned int)-2`. -/
def operand : Nat := 4294967294

/-- `if(last) n->endToken = last->endToken;` -/
def setEnd (h : List Node) (n : Nat) (last : Option Nat) : Option (List Node) := match last with
  | none => some h
  | some l => match h[n]?, h[l]? with
    | some x, some y => some (h.set n { x with stop := y.stop })
    | _, _ => none

/-- `while(priority < opStack.last().p + left)` (lines 590-604, 624-637, 664-692): whether the bottom of the stack was taken (`br`), the heap, the stack
and `last`. -/
def popLoop (q l : Nat) : List Node → List (Nat × Nat) → Option Nat → Option (Bool × List Node × List (Nat × Nat) × Option Nat)
  | _, [], _ => none
  | h, (n, p) :: rest, last =>
    if q < (p + l) % 4294967296 then
      match setEnd h n last with
      | none => none
      | some h => match rest with
        | [] => some (true, h, [], some n)
        | r :: rs => popLoop q l h (r :: rs) (some n)
    else some (false, h, (n, p) :: rest, last)

/-- The assignment to `ref` for postfix operators (lines 607-608). -/
def refPost (x : Node) (v : Nat) : Option Node := match x.kind with
  | .base => none
  | .bin => if x.second.isSome then some { x with second := some v } else some { x with first := some v }
  | _ => some { x with first := some v }

/-- The assignment to `ref` for binary and ternary operators (lines 640-651, 696-707). -/
def refBin (x : Node) (v : Nat) : Option Node := match x.kind with
  | .tern => if x.third.isSome then some { x with third := some v } else if x.second.isSome then some { x with second := some v } else some { x with first := some v }
  | _ => refPost x v

/-- The assignment of an operand or a prefix operator (lines 727-735, `PUSH_UNARY`). -/
def refUnary (x : Node) (v : Nat) : Option Node :=
  if x.kind = .base then none
  else if x.first.isNone then some { x with first := some v }
  else match x.kind with
    | .bin => if x.second.isNone then some { x with second := some v } else none
    | .tern => if x.second.isNone then some { x with second := some v } else some { x with third := some v }
    | _ => none

/-- `create<..>(last)` and the members set then (lines 597-599, 609-610, 631-632, 651, 673-674, 707). -/
def made (k : Kind) (o : Op) (last : Nat) (x : Node) : Node :=
  { kind := k, op := o, first := some last, start := x.start, stop := if k = .post then x.stop + 1 else 0 }

/-- Postfix, binary and ternary operators up to `yylex` (lines 579-707); for ternary operators without the middle operand. -/
def operator (k : Kind) (o : Op) (st : St) : Option (Bool × St) := match popLoop o.prio o.left st.heap st.stack none with
  | some (true, h, _, some last) => match h[last]? with
    | none => none
    | some x => some (true, { st with heap := h ++ [made k o last x], root := some h.length, stack := [(h.length, if k = .post then operand else o.prio)] })
  | some (false, h, (m, p) :: rest, some last) => match h[last]?, h[m]? with
    | some x, some y => match (if k = .post then refPost else refBin) { y with stop := x.stop } h.length with
      | none => none
      | some y => some (false, { st with
          heap := h.set m y ++ [made k o last x], stack := (h.length, if k = .post then operand else o.prio) :: (m, p) :: rest })
    | _, _ => none
  | _ => none

/-- An operand or a prefix operator is put into the open place (lines 725-736, `PUSH_UNARY` in lines 763-776). -/
def unary (st : St) (v p : Nat) : Option St := match st.stack with
  | [] => some { st with root := some v, stack := [(v, p)] }
  | (m, q) :: rest => match st.heap[m]? with
    | none => none
    | some x => match refUnary x v with
      | none => none
      | some x => some { st with heap := st.heap.set m x, stack := (v, p) :: (m, q) :: rest }

/-- The loop at the end of the function (lines 867-877). -/
def finish : List Node → List (Nat × Nat) → Option Nat → Option (List Node)
  | h, [], _ => some h
  | h, (n, _) :: rest, last => match setEnd h n last with
    | none => none
    | some h => finish h rest (some n)

def St.lex (st : St) : St := { st with pos := st.pos + 1 }

def St.finish (st : St) : Option St := (Ops.finish st.heap st.stack none).map fun h => { st with heap := h }

/-- `while(true)` (lines 563-787); the flag is `expectOperator`. -/
def exec : Run → Bool → St → Option St
  | .stop, true, st => some st
  -- the base: one node for the tokens from here on
  | .base n k, false, st =>
    (unary { st with heap := st.heap ++ [{ kind := .base, start := st.pos, stop := st.pos + n - 1 }], pos := st.pos + n } st.heap.length operand).bind
      (exec k true)
  | .pre o k, false, st =>
    (unary { st with heap := st.heap ++ [{ kind := .pre, op := o, start := st.pos }] } st.heap.length o.prio).bind fun st => exec k false st.lex
  -- lines 739-778: the function is called for what is inside
  | .paren i k, false, st =>
    ((exec i false { heap := st.heap, pos := st.pos + 1 }).bind St.finish).bind fun r => match r.root with
      | none => none
      | some v => match r.heap[v]? with
        | none => none
        | some x => (unary { st with heap := r.heap.set v { x with start := x.start - 1, stop := x.stop + 1 }, pos := r.pos + 1 } v operand).bind (exec k true)
  | .post o k, true, st => (operator .post o st).bind fun r => exec k true r.2.lex
  | .bin o k, true, st => (operator .bin o st).bind fun r => exec k false r.2.lex
  | .tern o i k, true, st => (operator .tern o st).bind fun r =>
    if r.1 then
      -- lines 675-687
      ((exec i false { heap := r.2.heap, pos := r.2.pos + 1 }).bind St.finish).bind fun s => match s.root, r.2.root with
        | some v, some t => match s.heap[t]? with
          | none => none
          | some x => exec k false { r.2 with heap := s.heap.set t { x with second := some v }, pos := s.pos + 1 }
        | _, _ => none
    -- lines 693-707: no call; the loop goes on after `?`, and ends at `:`
    else exec i false r.2.lex
  | _, _, _ => none

/-- The whole function, from a position. -/
def parse (r : Run) (pos : Int) : Option St := (exec r false { pos }).bind St.finish

end Verif.Ops
