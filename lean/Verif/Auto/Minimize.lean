import Verif.Auto.DfaOps

/-!
# Model of `DFA<CharSet>`: minimisation

Source: `/repo/src/kdev-pg-regexp.cpp` lines 298-364.
-/

namespace Verif.Auto

variable {C : Type} [CharSetLike C]

/-- For every group the set of characters leading into it (lines 301-305); the sets start as `CharSet()`. -/
def groupSets (groups : List Nat) : List (C × Nat) → List C → Option (List C)
  | [], v => some v
  | (c, j) :: es, v => do
    let g ← groups[j]?
    if g < v.length then groupSets groups es (v.modify g fun s => CharSetLike.unite s c) else none

/-- `std::vector::operator==`. -/
def vecEq : List C → List C → Bool
  | [], [] => true
  | a :: l, b :: m => CharSetLike.beq a b && vecEq l m
  | _, _ => false

/-- `sameGroup` (lines 299-307). -/
def sameGroup (rs : Rules C) (ngroups : Nat) (groups : List Nat) (x y : Nat) : Option Bool := do
  let xs ← groupSets groups (← rs[x]?) (List.replicate ngroups CharSetLike.eps)
  let ys ← groupSets groups (← rs[y]?) (List.replicate ngroups CharSetLike.eps)
  return vecEq xs ys

/-- The initial groups (lines 312-314).  `accept[i] - accept[0] + grinv.size()` is computed modulo the word size;
as `accept[0] ≤ numActions` this is the difference below. -/
def initGroups (accept : List Nat) (a0 size : Nat) : List Nat → List (List Nat) → Option (List (List Nat))
  | [], g => some g
  | i :: is, g => do
    let a ← accept[i]?
    initGroups accept a0 size is (g.modify ((a + size - a0) % size) (· ++ [i]))

/-- `groups[j] = i` for the members of group `i` (lines 319-321). -/
def assignGroup (i : Nat) : List Nat → List Nat → Option (List Nat)
  | [], groups => some groups
  | j :: js, groups => if j < groups.length then assignGroup i js (groups.set j i) else none

/-- The loop of lines 319-321 from group number `i` on. -/
def assignGroups (i : Nat) : List (List Nat) → List Nat → Option (List Nat)
  | [], groups => some groups
  | g :: gs, groups => do assignGroups (i + 1) gs (← assignGroup i g groups)

/-- Putting state `i` into the first group it fits in, or a new one (lines 326-336). -/
def place (rs : Rules C) (ngroups : Nat) (groups : List Nat) (i : Nat) : List (List Nat) → Option (List (List Nat))
  | [] => some [[i]]
  | g :: gs => do
    let h ← g[0]?
    let gh ← groups[h]?
    let gi ← groups[i]?
    if gh = gi then
      if (← sameGroup rs ngroups groups h i) then return (g ++ [i]) :: gs
      else return g :: (← place rs ngroups groups i gs)
    else return g :: (← place rs ngroups groups i gs)

/-- One refinement (lines 324-337). -/
def regroup (rs : Rules C) (ngroups : Nat) (groups : List Nat) : List Nat → List (List Nat) → Option (List (List Nat))
  | [], g => some g
  | i :: is, g => do regroup rs ngroups groups is (← place rs ngroups groups i g)

/-- The refinement loop (lines 317-339); the results are `groups` and the final number of groups. -/
def minLoop (rs : Rules C) (N : Nat) : Nat → List (List Nat) → List Nat → Option (List Nat × Nat)
  | 0, _, _ => none
  | fuel + 1, grinv, groups => do
    let groups ← assignGroups 0 grinv groups
    let grinv' ← regroup rs grinv.length groups (List.range N) []
    if grinv.length = grinv'.length then return (groups, grinv'.length)
    else minLoop rs N fuel grinv' groups

/-- A transition to a group (line 346). -/
def renameEdge (groups : List Nat) (e : C × Nat) : Option (C × Nat) := do return (e.1, ← groups[e.2]?)

/-- The new `accept` and rules (lines 340-347). -/
def mergeLoop (rs : Rules C) (accept groups : List Nat) : List Nat → Rules C × List Nat → Option (Rules C × List Nat)
  | [], r => some r
  | i :: is, (rules, acc) => do
    let g ← groups[i]?
    let a ← accept[i]?
    let es ← rs[i]?
    let es' ← es.mapM (renameEdge groups)
    if g < rules.length ∧ g < acc.length then mergeLoop rs accept groups is (rules.modify g (· ++ es'), acc.set g a)
    else none

/-- `mapping` (lines 353-355). -/
def unionRules : List (C × Nat) → List C → Option (List C)
  | [], m => some m
  | (c, j) :: es, m => if j < m.length then unionRules es (m.modify j fun s => CharSetLike.unite s c) else none

/-- One transition per target (lines 353-359). -/
def compress (N : Nat) (es : List (C × Nat)) : Option (List (C × Nat)) := do
  let m ← unionRules es (List.replicate N CharSetLike.emptySet)
  return (m.zip (List.range N)).filter fun e => !CharSetLike.empty e.1

/-- The minimised automaton before the final removal of states (lines 312-360). -/
def DFA.quotient (fuel : Nat) (d : DFA C) : Option (DFA C) := do
  let init ← if d.nstates = 0 then some (List.replicate (d.numActions + 1) [])
    else do initGroups d.accept (← d.accept[0]?) (d.numActions + 1) (List.range d.nstates) (List.replicate (d.numActions + 1) [])
  let (groups, n) ← minLoop d.rules d.nstates fuel init (List.replicate d.nstates 0)
  let (rules, acc) ← mergeLoop d.rules d.accept groups (List.range d.nstates) (List.replicate n [], List.replicate n 0)
  return ⟨n, ← rules.mapM (compress n), d.numActions, acc⟩

/-- `minimize()` (lines 308-364). -/
def DFA.minimize (fuel : Nat) (d : DFA C) : Option (DFA C) := do
  let d ← d.eliminateUnarrivable
  let d ← d.eliminateInactive
  let d ← d.quotient fuel
  let d ← d.eliminateUnarrivable
  d.eliminateInactive

end Verif.Auto
