import Verif.Grammar.SymModel

/-!
# Model of grammar items, nullability, FIRST and FOLLOW

Sources: `/repo/src/kdev-pg-ast.h` lines 30-330 (items), `/repo/src/kdev-pg.cpp` lines 303-403 (`reducesToEpsilon`, `isZero`),
`/repo/src/kdev-pg-bnf-visitor.cpp`, `/repo/src/kdev-pg-first.cpp`, `/repo/src/kdev-pg-follow.cpp`,
`/repo/src/kdev-pg-default-visitor.cpp`, `/repo/src/kdev-pg-visitor.h`.

Items are nodes on a heap; a pointer is an index.  Sharing matters, as visited sets and the FIRST and FOLLOW maps are keyed by
pointers: the parser makes one node per declared terminal, one per symbol and one zero node, and all other nodes are fresh.
Recursive functions take fuel; `none` is a dereference of an invalid pointer or exhausted fuel (unbounded recursion).

Left out: texts (names, code, arguments), declarations (`visitVariableDeclaration` does nothing here), `AliasItem` (never
created), the parameter `K` (always 1), `followDeps` (used for messages only).
-/

namespace Verif.Grammar

/-- `Model::OperatorItem` (kdev-pg-ast.h lines 179-263): the base and the tokens of the operators. -/
structure OpItem where
  base : Nat
  pre : List Nat := []
  post : List Nat := []
  bin : List Nat := []
  tern : List (Nat × Nat) := []
  paren : List (Nat × Nat) := []
deriving DecidableEq, Repr

/-- The subclasses of `Model::Node` (kdev-pg-ast.h lines 33-330).  `none` is a null pointer. -/
inductive Item
  | zero
  | plus (item : Nat)
  | star (item : Nat)
  | sym
  | action (item : Option Nat)
  | alt (l r : Nat)
  | cons (l r : Nat)
  | evolve (item sym : Nat)
  | tryc (t : Nat) (c : Option Nat)
  | term
  | nonterm (s : Nat)
  | annot (item : Nat)
  | cond (item : Nat)
  | op (o : OpItem)
  | inlined (s : Option Nat)
deriving DecidableEq, Repr

/-- The part of `World` used by the analyses.  `bnf` holds `mPlusStuff`, `mStarStuff` and `mOpStuff`
(kdev-pg-bnf-visitor.cpp lines 40-42), filled beforehand: the visitor fills an entry when it first meets the node, and nothing
else refers to the new nodes.  `parsed` is the number of nodes made by the parser; those made by `BnfVisitor` come after them. -/
structure World where
  heap : List Item
  parsed : Nat
  rules : List Nat
  zero : Nat
  terminals : List Nat
  start : List Nat
  bnf : Nat → Option Nat

/-- `node->kind` etc. -/
def World.node (W : World) (n : Nat) : Option Item := W.heap[n]?

/-- `searchRule(sym)`: the first rule of the symbol in the list (see `C33_search_rule`, `C33_first_of_several`). -/
def World.searchRule (W : World) (s : Nat) : Option Nat :=
  W.rules.find? fun r => match W.node r with
    | some (.evolve _ s') => s' = s
    | _ => false

/-- The sets `first(n)` (or `follow(n)`), as pairs of a node and an element. -/
abbrev Sets := List (Nat × Nat)

/-- The elements of one set. -/
def Sets.of (F : Sets) (n : Nat) : List Nat := (F.filter fun p => p.1 = n).map (·.2)

/-! ### `reducesToEpsilon` -/

/-- `reducesToEpsilon(node, v)` (kdev-pg.cpp lines 303-366): the result and the new `v`. -/
def r2e (W : World) (F : Sets) : Nat → Nat → List Nat → Option (Bool × List Nat)
  | 0, _, _ => none
  | f + 1, n, v =>
    if n ∈ v then some (true, v)
    else match W.node n with
      | none => none
      | some (.cons l r) =>
        match r2e W F f l (n :: v) with
        | none => none
        | some (true, v') => r2e W F f r v'
        | some (false, v') => some (false, v')
      | some (.alt l r) =>
        match r2e W F f l (n :: v) with
        | none => none
        | some (true, v') => some (true, v')
        | some (false, v') => r2e W F f r v'
      | some (.tryc t c) =>
        match r2e W F f t (n :: v) with
        | none => none
        | some (true, v') => some (true, v')
        | some (false, v') => match c with
          | none => some (false, v')
          | some c => r2e W F f c v'
      | some (.action none) => some (true, n :: v)
      | some (.action (some i)) => r2e W F f i (n :: v)
      | some (.cond i) => r2e W F f i (n :: v)
      | some (.annot i) => r2e W F f i (n :: v)
      | some (.plus i) => r2e W F f i (n :: v)
      | some (.nonterm s) => r2e W F f s (n :: v)
      | some (.inlined none) => some (true, n :: v)
      | some (.inlined (some s)) => r2e W F f s (n :: v)
      | some .sym => some (decide ((n, W.zero) ∈ F), n :: v)
      | some (.star _) => some (true, n :: v)
      | some .zero => some (true, n :: v)
      | some (.op _) => some (false, n :: v)
      | some .term => some (false, n :: v)
      | some (.evolve _ _) => some (false, n :: v)

/-- `reducesToEpsilon(node)` (lines 368-372).  The recursion is never deeper than the number of nodes, as each call but the
innermost adds a node to `v`; see `r2e_total`. -/
def reduces (W : World) (F : Sets) (n : Nat) : Option Bool := (r2e W F (W.heap.length + 1) n []).map (·.1)

/-- `isZero(node)` (lines 374-403); `fuel` bounds the depth. -/
def isZero (W : World) : Nat → Nat → Option Bool
  | 0, _ => none
  | f + 1, n => match W.node n with
    | none => none
    | some (.action none) => none
    | some (.action (some i)) => isZero W f i
    | some (.cond i) => isZero W f i
    | some (.annot i) => isZero W f i
    | some (.plus i) => isZero W f i
    | some (.star i) => isZero W f i
    | some .zero => some true
    | some _ => some false

/-! ### `BnfVisitor`: the nodes it creates -/

/-- The nodes `c` and `a` made by `visitPlus` and `visitStar` (kdev-pg-bnf-visitor.cpp lines 79-84, 103-108): the new heap,
with `c` and `a` at its end. -/
def bnfLoop (heap : List Item) (zero item : Nat) : List Item :=
  heap ++ [.cons item (heap.length + 1), .alt zero heap.length]

/-- An alternative of the rewritten operator grammar. -/
inductive OpBody
  | pre (t : Nat)
  | post (t : Nat)
  | bin (t : Nat)
  | tern (t u : Nat)
  | paren (t u : Nat)
deriving DecidableEq, Repr

/-- The alternatives, outermost first (lines 159-228): each loop puts its alternatives in front of those made before. -/
def OpItem.bodies (o : OpItem) : List OpBody :=
  (o.pre.map OpBody.pre ++ o.post.map OpBody.post ++ o.bin.map OpBody.bin ++ o.tern.map (fun p => OpBody.tern p.1 p.2) ++
    o.paren.map (fun p => OpBody.paren p.1 p.2)).reverse

/-- The nodes of one alternative: `cons` items that end at heap position `pos + ...`, given `tmp+0 = top`.  The first node of
the list is the one the alternative refers to. -/
def OpBody.nodes (top pos : Nat) : OpBody → List Item
  | .pre t => [.cons t top]
  | .post t => [.cons top t]
  | .bin t => [.cons top (pos + 1), .cons t top]
  | .tern t u => [.cons top (pos + 1), .cons t (pos + 2), .cons top (pos + 3), .cons u top]
  | .paren t u => [.cons t (pos + 1), .cons top u]

/-- The nodes made by `visitOperator` (lines 128-240), from heap position `pos` on: for each alternative an `AlternativeItem`
followed by its `cons` items.  The real layout keeps them in several arrays; only the links matter. -/
def opNodes (top base : Nat) (pos : Nat) : List OpBody → List Item
  | [] => []
  | b :: bs =>
    let len := (b.nodes top (pos + 1)).length
    .alt (pos + 1) (if bs = [] then base else pos + 1 + len) :: (b.nodes top (pos + 1) ++ opNodes top base (pos + 1 + len) bs)

/-- The result of `visitOperator`: the new heap and `mOpStuff[node]`. -/
def bnfOp (heap : List Item) (o : OpItem) : List Item × Nat :=
  (heap ++ opNodes heap.length o.base heap.length o.bodies, if o.bodies = [] then o.base else heap.length)

/-- What `visitPlus`, `visitStar` and `visitOperator` do when they meet node `n` for the first time
(kdev-pg-bnf-visitor.cpp lines 71-240). -/
def addBnf (W : World) (n : Nat) : World := match W.node n with
  | some (.plus i) => { W with heap := bnfLoop W.heap W.zero i, bnf := fun m => if m = n then some W.heap.length else W.bnf m }
  | some (.star i) => { W with heap := bnfLoop W.heap W.zero i, bnf := fun m => if m = n then some (W.heap.length + 1) else W.bnf m }
  | some (.op o) => { W with heap := (bnfOp W.heap o).1, bnf := fun m => if m = n then some (bnfOp W.heap o).2 else W.bnf m }
  | _ => W

/-- All of them, for the nodes in the given order. -/
def rewrite (W : World) (ns : List Nat) : World := ns.foldl addBnf { W with parsed := W.heap.length }

/-! ### FIRST -/

/-- The FIRST (or FOLLOW) sets and `mChanged`. -/
structure Comp where
  sets : Sets
  changed : Bool
deriving DecidableEq, Repr

/-- `if(!dest.contains(x)) { dest.insert(x); mChanged = true; }`. -/
def Comp.insert (c : Comp) (n x : Nat) : Comp := if (n, x) ∈ c.sets then c else ⟨(n, x) :: c.sets, true⟩

/-- `initializeFirst()` (kdev-pg-first.cpp lines 14-23). -/
def initFirst (W : World) : Sets := (W.zero, W.zero) :: W.terminals.map fun t => (t, t)

/-- The elements `NextFirst::merge` copies: all, or those that are not `ZeroItem`s if `mMergeZeroBlocked`. -/
def passes (W : World) (blocked : Bool) (x : Nat) : Bool := !(blocked && (W.node x = some .zero))

/-- `NextFirst::merge(dest, source)` (lines 43-63). -/
def mergeFirst (W : World) (blocked : Bool) (dest source : Nat) (c : Comp) : Comp :=
  ((c.sets.of source).filter (passes W blocked)).foldl (fun c x => c.insert dest x) c

/-- `copy(symbol, node); copy(rule, node)` of `visitNonTerminal`/`visitInlinedNonTerminal` (kdev-pg-bnf-visitor.cpp lines 45-70). -/
def firstOfSymbol (W : World) (blocked : Bool) (n s : Nat) (c : Comp) : Comp :=
  let c := mergeFirst W blocked n s c
  match W.searchRule s with
  | none => c
  | some r => mergeFirst W blocked n r c

/-- `visitNode(child)` where `go` is the dispatch on the kind (kdev-pg-first.cpp lines 65-78): nothing if the node is being
visited. -/
def enter {α : Type} (go : List Nat → Nat → α → Option α) (V : List Nat) (n : Nat) (c : α) : Option α :=
  if n ∈ V then some c else go (n :: V) n c

/-- Dispatch of `NextFirst` on the kind of `n` (kdev-pg-first.cpp lines 80-107 and kdev-pg-bnf-visitor.cpp).  `V` is `mVisited`,
`b` is `mMergeZeroBlocked`.  Calls written `DefaultVisitor::visitNode(x)` in the source bypass the test of `mVisited` and go to
the dispatch at once. -/
def firstGo (W : World) : Nat → Bool → List Nat → Nat → Comp → Option Comp
  | 0, _, _, _, _ => none
  | f + 1, b, V, n, c =>
    match W.node n with
    | none => none
    | some .zero => some c
    | some .sym => some c
    | some .term => some c
    | some (.nonterm s) => some (firstOfSymbol W b n s c)
    | some (.inlined none) => some c
    | some (.inlined (some s)) => some (firstOfSymbol W b n s c)
    | some (.plus _) => match W.bnf n with
      | none => none
      | some k => (firstGo W f b V k c).map (mergeFirst W b n k)
    | some (.star _) => match W.bnf n with
      | none => none
      | some k => (firstGo W f b V k c).map (mergeFirst W b n k)
    | some (.op _) => match W.bnf n with
      | none => none
      | some k => (firstGo W f b V k c).map (mergeFirst W b n k)
    | some (.annot i) => (enter (firstGo W f b) V i c).map (mergeFirst W b n i)
    | some (.cond i) => (enter (firstGo W f b) V i c).map (mergeFirst W b n i)
    | some (.action none) => some c
    | some (.action (some i)) => (firstGo W f b V i c).map (mergeFirst W b n i)
    | some (.tryc t none) => (firstGo W f b V t c).map (mergeFirst W b n t)
    | some (.tryc l (some r)) =>
      (enter (firstGo W f b) V l c).bind fun c => (enter (firstGo W f b) V r c).map fun c => mergeFirst W b n r (mergeFirst W b n l c)
    | some (.alt l r) =>
      (enter (firstGo W f b) V l c).bind fun c => (enter (firstGo W f b) V r c).map fun c => mergeFirst W b n r (mergeFirst W b n l c)
    | some (.cons l r) =>
      (enter (firstGo W f b) V r c).bind fun c =>
      (reduces W c.sets r).bind fun er =>
      (enter (firstGo W f (b || !er)) V l c).bind fun c =>
      let c := mergeFirst W (b || !er) n l c
      (reduces W c.sets l).bind fun el =>
      if el then (enter (firstGo W f (b || !er)) V r c).map (mergeFirst W (b || !er) n r) else some c
    | some (.evolve i s) =>
      (enter (firstGo W f b) V i c).map fun c => mergeFirst W b s n (mergeFirst W b n i c)

/-- One run over all rules (lines 114-121); `next(*it)` starts with an empty `mVisited` and without blocking (lines 29-34). -/
def firstPass (W : World) (fuel : Nat) : List Nat → Comp → Option Comp
  | [], c => some c
  | r :: rs, c => (enter (firstGo W fuel false) [] r c).bind (firstPass W fuel rs)

/-- The loop of `computeFirst()` (lines 109-123); `n` bounds the number of rounds. -/
def firstLoop (W : World) (fuel : Nat) : Nat → Sets → Option Sets
  | 0, _ => none
  | n + 1, F => match firstPass W fuel W.rules ⟨F, false⟩ with
    | none => none
    | some c => if c.changed then firstLoop W fuel n c.sets else some c.sets

/-- `computeFirst()`. -/
def computeFirst (W : World) (fuel rounds : Nat) : Option Sets := firstLoop W fuel rounds (initFirst W)

/-! ### FOLLOW -/

/-- The elements `NextFollow::merge` copies (kdev-pg-follow.cpp lines 105-124): the terminals. -/
def isTerm (W : World) (x : Nat) : Bool := W.node x = some .term

/-- `NextFollow::merge(dest, source)` (lines 97-124): nothing if `dest` is a zero or terminal item. -/
def mergeFollow (W : World) (dest : Nat) (source : List Nat) (c : Comp) : Comp :=
  if W.node dest = some .zero ∨ W.node dest = some .term then c
  else (source.filter (isTerm W)).foldl (fun c x => c.insert dest x) c

/-- `preCopy(from, to)` (lines 170-177): FOLLOW(to) into FOLLOW(from). -/
def preCopy (W : World) (src dst : Nat) (c : Comp) : Comp := mergeFollow W src (c.sets.of dst) c

/-- `preCopy(rule, node); preCopy(symbol, node)`. -/
def followOfSymbol (W : World) (n s : Nat) (c : Comp) : Comp :=
  let c := match W.searchRule s with
    | none => c
    | some r => preCopy W r n c
  preCopy W s n c

/-- Dispatch of `NextFollow` (kdev-pg-follow.cpp lines 126-183 and kdev-pg-bnf-visitor.cpp). -/
def followGo (W : World) (F : Sets) : Nat → List Nat → Nat → Comp → Option Comp
  | 0, _, _, _ => none
  | f + 1, V, n, c =>
    match W.node n with
    | none => none
    | some .zero => some c
    | some .sym => some c
    | some .term => some c
    | some (.nonterm s) => some (followOfSymbol W n s c)
    | some (.inlined none) => some c
    | some (.inlined (some s)) => some (followOfSymbol W n s c)
    | some (.plus _) => match W.bnf n with
      | none => none
      | some k => followGo W F f V k (preCopy W k n c)
    | some (.star _) => match W.bnf n with
      | none => none
      | some k => followGo W F f V k (preCopy W k n c)
    | some (.op _) => match W.bnf n with
      | none => none
      | some k => followGo W F f V k (preCopy W k n c)
    | some (.annot i) => enter (followGo W F f) V i (preCopy W i n c)
    | some (.cond i) => enter (followGo W F f) V i (preCopy W i n c)
    | some (.action none) => some c
    | some (.action (some i)) => followGo W F f V i (preCopy W i n c)
    | some (.tryc t none) => followGo W F f V t (preCopy W t n c)
    | some (.tryc l (some r)) =>
      (enter (followGo W F f) V l (preCopy W r n (preCopy W l n c))).bind (enter (followGo W F f) V r)
    | some (.alt l r) =>
      (enter (followGo W F f) V l (preCopy W r n (preCopy W l n c))).bind (enter (followGo W F f) V r)
    | some (.cons l r) =>
      let c := mergeFollow W l (F.of r) (preCopy W r n c)
      (reduces W F r).bind fun er =>
      (enter (followGo W F f) V l (if er then preCopy W l n c else c)).bind (enter (followGo W F f) V r)
    | some (.evolve i s) => enter (followGo W F f) V i (preCopy W i n (preCopy W n s c))

/-- The constructor of `NextFollow` (lines 75-88): the end of the input follows the rules of start symbols.  `eof` is the node
`pushTerminal("EOF", ..)` returns. -/
def initFollow (W : World) (eof : Nat) : Comp :=
  W.rules.foldl (fun c r => match W.node r with
    | some (.evolve i s) => if s ∈ W.start then ((c.insert r eof).insert s eof).insert i eof else c
    | _ => c) ⟨[], true⟩

def followPass (W : World) (F : Sets) (fuel : Nat) : List Nat → Comp → Option Comp
  | [], c => some c
  | r :: rs, c => (enter (followGo W F fuel) [] r c).bind (followPass W F fuel rs)

/-- The loop of `computeFollow()` (lines 206-221); `changed` is true in the first round. -/
def followLoop (W : World) (F : Sets) (fuel : Nat) : Nat → Comp → Option Sets
  | 0, _ => none
  | n + 1, c => match followPass W F fuel W.rules c with
    | none => none
    | some c => if c.changed then followLoop W F fuel n ⟨c.sets, false⟩ else some c.sets

/-- `computeFollow()`. -/
def computeFollow (W : World) (F : Sets) (eof fuel rounds : Nat) : Option Sets := followLoop W F fuel rounds ⟨(initFollow W eof).sets, true⟩

end Verif.Grammar
