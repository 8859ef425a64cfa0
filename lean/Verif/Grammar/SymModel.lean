/-!
# Model of the symbol and terminal tables and of the rule lookup

Sources: `/repo/src/kdev-pg.h` lines 110-111, 164-175, 205-235, 258-281; `/repo/src/kdev-pg.cpp` lines 35-60, 100-108.

`QMap<QString, T*>` is an association list without repeated keys.  Names are of any type `K` with decidable equality.  A node
allocated by `createNode` is a number; `next` is the number of the next node, so two allocated nodes are never the same.
-/

namespace Verif.Grammar

variable {K : Type} [DecidableEq K]

/-- `QMap::find`: the value stored for a key. -/
def find (m : List (K × Nat)) (k : K) : Option Nat := (m.find? fun p => p.1 = k).map (·.2)

/-- The part of `World` used here: `symbols`, `start`, `terminals`, with the description of each terminal node, and the number
of nodes allocated so far. -/
structure Tables (K : Type) where
  symbols : List (K × Nat) := []
  start : List Nat := []
  terminals : List (K × Nat) := []
  descr : List (Nat × K) := []
  next : Nat := 0

/-- `pushSymbol(name)` (kdev-pg.h lines 216-230): the new tables and the returned node. -/
def pushSymbol (t : Tables K) (name : K) : Tables K × Nat :=
  match find t.symbols name with
  | none => ({ t with symbols := (name, t.next) :: t.symbols, start := t.next :: t.start, next := t.next + 1 }, t.next)
  | some s => ({ t with start := t.start.filter (· ≠ s) }, s)

/-- `pushTerminal(name, description)` (lines 206-214). -/
def pushTerminal (t : Tables K) (name descr : K) : Tables K × Nat :=
  match find t.terminals name with
  | none => ({ t with terminals := (name, t.next) :: t.terminals, descr := (t.next, descr) :: t.descr, next := t.next + 1 }, t.next)
  | some s => (t, s)

/-- `terminal(name)` (lines 164-172): the stored node, or a new one that is not stored. -/
def terminal (t : Tables K) (name : K) : Tables K × Nat :=
  match find t.terminals name with
  | none => ({ t with descr := (t.next, name) :: t.descr, next := t.next + 1 }, t.next)
  | some s => (t, s)

/-- A call made while the grammar file is read. -/
inductive Call (K : Type)
  | symbol (name : K)
  | pushTerm (name descr : K)
  | term (name : K)

def call (t : Tables K) : Call K → Tables K × Nat
  | .symbol n => pushSymbol t n
  | .pushTerm n d => pushTerminal t n d
  | .term n => terminal t n

/-- The tables after the calls, and the nodes returned. -/
def run (t : Tables K) : List (Call K) → Tables K × List Nat
  | [] => (t, [])
  | c :: cs =>
    let (t', n) := call t c
    let (t'', ns) := run t' cs
    (t'', n :: ns)

/-! ### Rules

A rule is the pair of its `mSymbol` (an address) and an identity. -/

/-- The loop of `std::lower_bound` (libstdc++ `__lower_bound`: `first`, `len`) with `ruleComp` (kdev-pg.h lines 258-265), which
compares the addresses of the symbols.  `none` stands for an access outside the list. -/
def lowerBound (rules : List (Nat × Nat)) (sym : Nat) (first len : Nat) : Option Nat :=
  if _h : len = 0 then some first
  else
    let half := len / 2
    match rules[first + half]? with
    | none => none
    | some r => if r.1 < sym then lowerBound rules sym (first + half + 1) (len - half - 1) else lowerBound rules sym first half
termination_by len
decreasing_by all_goals omega

/-- `searchRule(sym)` (lines 272-278). -/
def searchRule (rules : List (Nat × Nat)) (sym : Nat) : Option (Option (Nat × Nat)) :=
  match lowerBound rules sym 0 rules.length with
  | none => none
  | some i => match rules[i]? with
    | none => some none
    | some r => if r.1 ≠ sym then some none else some (some r)

/-- What `std::sort(rules.begin(), rules.end(), &ruleComp)` (`finishedParsing`, lines 267-270) may leave: the standard fixes the
order of the symbols only. -/
def Sorted (before after : List (Nat × Nat)) : Prop := after.Perm before ∧ after.Pairwise fun a b => ¬ b.1 < a.1

end Verif.Grammar
