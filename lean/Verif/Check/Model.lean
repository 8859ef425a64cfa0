import Verif.Grammar.Model

/-!
# Model of the checks made before code is generated

Sources: `/repo/src/kdev-pg-inline-checker.cpp`, `/repo/src/kdev-pg-checker.cpp`, `/repo/src/kdev-pg-default-visitor.cpp`,
`/repo/src/kdev-pg-main.cpp` lines 342-424.

Left out: the texts of the messages (`FollowDepChecker` only prints) and the names of tokens and symbols: a token is declared if its node
is in `terminals` (the parser makes one node per declared name, and a fresh node for each use of a name that is not
declared).
-/

namespace Verif.Check

open Verif.Grammar

/-! ### `InlineChecker` -/

/-- The members of `InlineChecker` (kdev-pg-inline-checker.h line 25), the inlined non-terminals whose `mSymbol` was set to null,
and the number of errors reported. -/
structure Inl where
  visited : List Nat := []
  visiting : List Nat := []
  cut : List Nat := []
  errors : Nat := 0
deriving DecidableEq, Repr

/-- `isOperatorSymbol(sym)` (kdev-pg.cpp lines 296-300). -/
def isOpSym (W : World) (s : Nat) : Bool := match W.searchRule s with
  | none => false
  | some r => match W.node r with
    | some (.evolve i _) => match W.node i with
      | some (.op _) => true
      | _ => false
    | _ => false

/-- What `visitInlinedNonTerminal` does after visiting the rule (kdev-pg-inline-checker.cpp lines 47-60): `t` is the exception. -/
def leave (n s : Nat) : Option Nat × Inl → Option Nat × Inl
  | (none, c) => (none, { c with visiting := c.visiting.filter (· ≠ s) })
  | (some x, c) =>
    let c := { c with visiting := c.visiting.filter (· ≠ s) }
    if s ≠ x then (some x, c) else (none, { c with cut := n :: c.cut })

/-- `visitNode(l); visitNode(r)`, with exceptions. -/
def both (go : Inl → Option (Option Nat × Inl)) : Option (Option Nat × Inl) → Option (Option Nat × Inl)
  | none => none
  | some (none, c) => go c
  | some (some x, c) => some (some x, c)

/-- `InlineChecker::visitNode(n)` (kdev-pg-inline-checker.cpp, the rest is in kdev-pg-default-visitor.cpp): the symbol thrown, if any,
and the new state.  `none`: invalid pointer or fuel exhausted. -/
def inl (W : World) : Nat → Nat → Inl → Option (Option Nat × Inl)
  | 0, _, _ => none
  | f + 1, n, c => match W.node n with
    | none => none
    | some .zero => some (none, c)
    | some .sym => some (none, c)
    | some .term => some (none, c)
    | some (.nonterm _) => some (none, c)
    | some (.op _) => some (none, c)
    | some (.plus i) => inl W f i c
    | some (.star i) => inl W f i c
    | some (.action none) => some (none, c)
    | some (.action (some i)) => inl W f i c
    | some (.cond i) => inl W f i c
    | some (.annot i) => inl W f i c
    | some (.evolve i _) => inl W f i c
    | some (.tryc l none) => inl W f l c
    | some (.tryc l (some r)) => both (inl W f r) (inl W f l c)
    | some (.alt l r) => both (inl W f r) (inl W f l c)
    | some (.cons l r) => both (inl W f r) (inl W f l c)
    | some (.inlined none) => some (none, c)
    | some (.inlined (some s)) =>
      if n ∈ c.cut then some (none, c)
      else if s ∈ c.visiting then some (some s, { c with errors := c.errors + 1 })
      else if n ∈ c.visited then some (none, c)
      else
        let c := { c with visited := n :: c.visited, visiting := s :: c.visiting, errors := c.errors + if isOpSym W s then 1 else 0 }
        match W.searchRule s with
        | none => some (leave n s (none, c))
        | some r => (inl W f r c).map (leave n s)

/-- The loop over the rules with a new checker for each (kdev-pg-main.cpp lines 364-368): the exception that ends the program, if any, the
nodes cut and the number of errors.  The test `mVisited.contains(node->mSymbol)` of `operator()` is always false. -/
def inlRules (W : World) (f : Nat) : List Nat → List Nat → Nat → Option (Option Nat × List Nat × Nat)
  | [], cut, e => some (none, cut, e)
  | r :: rs, cut, e => match inl W f r { cut, errors := e } with
    | none => none
    | some (none, c) => inlRules W f rs c.cut c.errors
    | some (some x, c) => some (some x, c.cut, c.errors)

/-- The grammar with the symbols of some inlined non-terminals set to null. -/
def withCut (W : World) (cut : List Nat) : World :=
  { W with heap := W.heap.mapIdx fun n it => if n ∈ cut then .inlined none else it }

/-! ### The other checkers -/

/-- The nodes a checker visits from `n`, in the order in which the visits end (kdev-pg-default-visitor.cpp).  All checkers but
`EmptyOperatorChecker` do not follow inlined non-terminals. -/
def walk (W : World) : Nat → Nat → Option (List Nat)
  | 0, _ => none
  | f + 1, n => match W.node n with
    | none => none
    | some .zero => some [n]
    | some .sym => some [n]
    | some .term => some [n]
    | some (.nonterm s) => some [s, n]
    | some (.op _) => some [n]
    | some (.inlined _) => some [n]
    | some (.plus i) => (walk W f i).map (· ++ [n])
    | some (.star i) => (walk W f i).map (· ++ [n])
    | some (.action none) => some [n]
    | some (.action (some i)) => (walk W f i).map (· ++ [n])
    | some (.cond i) => (walk W f i).map (· ++ [n])
    | some (.annot i) => (walk W f i).map (· ++ [n])
    | some (.evolve i s) => (walk W f i).map (· ++ [s, n])
    | some (.tryc l none) => (walk W f l).map (· ++ [n])
    | some (.tryc l (some r)) => (walk W f l).bind fun a => (walk W f r).map fun b => a ++ b ++ [n]
    | some (.alt l r) => (walk W f l).bind fun a => (walk W f r).map fun b => a ++ b ++ [n]
    | some (.cons l r) => (walk W f l).bind fun a => (walk W f r).map fun b => a ++ b ++ [n]

/-- A reported conflict: the node printed and the elements listed. -/
abbrev Conflict := Nat × List Nat

/-- `U.intersect(..); if (!U.empty())` (kdev-pg-checker.cpp lines 53-79, 116-150). -/
def clash (n : Nat) (a b : List Nat) : List Conflict := if a.filter (· ∈ b) = [] then [] else [(n, a.filter (· ∈ b))]

/-- `globalSystem.env`, for one symbol: its rules (kdev-pg-environment.h). -/
def env (W : World) (s : Nat) : List Nat := W.rules.filter fun r => match W.node r with
  | some (.evolve _ s') => s' = s
  | _ => false

/-- What `FirstFirstConflictChecker` reports at a node (kdev-pg-checker.cpp lines 35-98). -/
def firstFirstAt (W : World) (F : Sets) (n : Nat) : List Conflict := match W.node n with
  | some (.alt l r) => clash n (F.of l) (F.of r)
  | some (.evolve _ s) => (env W s).flatMap fun e => if e = n then [] else clash n (F.of e) (F.of n)
  | _ => []

/-- `FirstFirstConflictChecker` for one rule. -/
def firstFirst (W : World) (F : Sets) (f r : Nat) : Option (List Conflict) := (walk W f r).map fun l => l.flatMap (firstFirstAt W F)

/-- What `FirstFollowConflictChecker` reports at a node (lines 108-151, 232-264).  `none`: `isZero` dereferences a null pointer (a bare
action) or its fuel is exhausted. -/
def firstFollowAt (W : World) (F S : Sets) (n : Nat) : Option (List Conflict) :=
  let check := clash n (F.of n) (S.of n)
  let ifNull := (reduces W F n).map fun b => if b then check else []
  match W.node n with
  | some (.alt _ r) => (isZero W (W.heap.length + 1) r).bind fun z => if z then some [] else ifNull
  | some (.cons _ _) => ifNull
  | some (.plus _) => ifNull
  | some (.star _) => some check
  | _ => some []

/-- All results, in order. -/
def collect {α β : Type} (g : α → Option (List β)) : List α → Option (List β)
  | [] => some []
  | x :: l => (g x).bind fun a => (collect g l).map (a ++ ·)

/-- `FirstFollowConflictChecker` for one rule. -/
def firstFollow (W : World) (F S : Sets) (f r : Nat) : Option (List Conflict) := (walk W f r).bind (collect (firstFollowAt W F S))

/-- A declared variable (kdev-pg-ast.h, `VariableDeclarationItem`): `isNode` is `mVariableType == TypeNode`, `type` stands for the
name of the type. -/
structure Decl where
  isNode : Bool
  type : Nat
deriving DecidableEq, Repr

/-- The declarations of the grammar: `decls n` is the chain that starts at `mDeclarations` of rule `n` or the declaration of annotation
`n`; `find` looks a name up in `globalSystem.symbols`. -/
structure Decls where
  decls : Nat → List Decl := fun _ => []
  find : Nat → Option Nat := fun _ => none

/-- Errors reported by `visitSymbol` of `UndefinedSymbolChecker` (lines 285-293). -/
def undefSym (W : World) (s : Nat) : Nat := if env W s = [] then 1 else 0

/-- `visitVariableDeclaration` (lines 295-322): the rest of the chain is not visited. -/
def undefDecl (W : World) (D : Decls) : List Decl → Nat
  | [] => 0
  | d :: _ => if d.isNode then match D.find d.type with
    | none => 1
    | some s => undefSym W s
    else 0

/-- Errors reported by `UndefinedSymbolChecker` at a node (lines 271-322). -/
def undefinedAt (W : World) (D : Decls) (n : Nat) : Nat := match W.node n with
  | some .sym => undefSym W n
  | some (.inlined (some s)) => undefSym W s
  | some (.evolve _ _) => undefDecl W D (D.decls n)
  | some (.annot _) => undefDecl W D (D.decls n)
  | _ => 0

def undefinedSymbols (W : World) (D : Decls) (f r : Nat) : Option Nat := (walk W f r).map fun l => (l.map (undefinedAt W D)).sum

/-- Errors reported by `UndefinedTokenChecker` (lines 324-346).  `E`: the nodes of tokens named `EOF`; this name is always found, as
`NextFollow` has put it into `terminals` (kdev-pg-follow.cpp line 75). -/
def tokenAt (W : World) (E : List Nat) (n : Nat) : Nat := match W.node n with
  | some .term => if n ∈ W.terminals ∨ n ∈ E then 0 else 1
  | _ => 0

def undefinedTokens (W : World) (E : List Nat) (f r : Nat) : Option Nat := (walk W f r).map fun l => (l.map (tokenAt W E)).sum

/-- Errors reported by `EmptyFirstChecker` (lines 348-371): its `visitNonTerminal` does nothing, so that the only symbol it meets is that of
the rule. -/
def emptyFirst (W : World) (F : Sets) (r : Nat) : Nat := match W.node r with
  | some (.evolve _ s) => if F.of s = [] then 1 else 0
  | _ => 0

/-- Errors reported by `EmptyOperatorChecker` (lines 373-385), which follows inlined non-terminals
(kdev-pg-default-visitor.h lines 19-21). -/
def emptyOp (W : World) (F : Sets) : Nat → Nat → Option Nat
  | 0, _ => none
  | f + 1, n => match W.node n with
    | none => none
    | some .zero => some 0
    | some .sym => some 0
    | some .term => some 0
    | some (.nonterm _) => some 0
    | some (.op o) => match W.node o.base with
      | some (.nonterm s) => (reduces W F s).map fun b => if b then 1 else 0
      | _ => none
    | some (.inlined none) => some 0
    | some (.inlined (some s)) => match W.searchRule s with
      | none => some 0
      | some r => emptyOp W F f r
    | some (.plus i) => emptyOp W F f i
    | some (.star i) => emptyOp W F f i
    | some (.action none) => some 0
    | some (.action (some i)) => emptyOp W F f i
    | some (.cond i) => emptyOp W F f i
    | some (.annot i) => emptyOp W F f i
    | some (.evolve i _) => emptyOp W F f i
    | some (.tryc l none) => emptyOp W F f l
    | some (.tryc l (some r)) => (emptyOp W F f l).bind fun a => (emptyOp W F f r).map (a + ·)
    | some (.alt l r) => (emptyOp W F f l).bind fun a => (emptyOp W F f r).map (a + ·)
    | some (.cons l r) => (emptyOp W F f l).bind fun a => (emptyOp W F f r).map (a + ·)

end Verif.Check
