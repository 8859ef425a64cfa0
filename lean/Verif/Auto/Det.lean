import Verif.Auto.Nfa

/-!
# Model of determinisation: `NFA::closure`, `vecUnion`, `follow`, `dfa`

Source: `/repo/src/kdev-pg-regexp.cpp` lines 521-682.

A `UsedBitArray` (`BitArray`, see `Verif.BitArr`) is the list of its bits; an access outside it is undefined
behaviour (`none`).  A `std::stack` is a list with the top first.
-/

namespace Verif.Auto

variable {C : Type} [CharSetLike C]

abbrev Bits := List Bool

/-- `UsedBitArray nxt(n); nxt[j] = true;` (lines 561-562, 623-624). -/
def single (n j : Nat) : Option Bits :=
  if j < n then some ((List.replicate n false).set j true) else none

/-- The loop over the rules of one state (lines 533-540), following the transitions whose label satisfies `p`:
epsilon in `closure`; the same loop with other conditions occurs in `DFA::eliminateUnarrivableStates`
(lines 258-265), `acceptsEpsilon` (lines 695-702) and `isEmpty` (lines 718-725). -/
def scan (p : C → Bool) : List (C × Nat) → Bits → List Nat → Option (Bits × List Nat)
  | [], s, todo => some (s, todo)
  | (c, j) :: es, s, todo =>
    if p c then
      match s[j]? with
      | none => none
      | some true => scan p es s todo
      | some false => scan p es (s.set j true) (j :: todo)
    else scan p es s todo

omit [CharSetLike C] in
/-- Every pushed state is a bit that was unset. -/
theorem scan_measure {p : C → Bool} {es : List (C × Nat)} {s : Bits} {todo : List Nat} {s' : Bits} {todo' : List Nat}
    (h : scan p es s todo = some (s', todo')) :
    2 * s'.count false + todo'.length ≤ 2 * s.count false + todo.length := by
  induction es generalizing s todo with
  | nil => simp [scan] at h; obtain ⟨rfl, rfl⟩ := h; omega
  | cons e es ih =>
    obtain ⟨c, j⟩ := e
    simp only [scan] at h
    split at h
    · split at h
      · cases h
      · exact ih h
      · rename_i hj
        have := ih h
        have hlt := (List.getElem?_eq_some_iff.mp hj).1
        have hv := (List.getElem?_eq_some_iff.mp hj).2
        rw [List.count_set hlt] at this
        have hc : 0 < s.count false := List.count_pos_iff.mpr (hv ▸ List.getElem_mem hlt)
        simp [hv] at this
        omega
    · exact ih h

/-- The loop of `closure` (lines 529-541). -/
def closureLoop (p : C → Bool) (rs : Rules C) (s : Bits) : List Nat → Option Bits
  | [] => some s
  | x :: todo =>
    match rs[x]? with
    | none => none
    | some es =>
      match _h : scan p es s todo with
      | none => none
      | some (s', todo') => closureLoop p rs s' todo'
termination_by todo => 2 * s.count false + todo.length
decreasing_by
  have := scan_measure _h
  simp only [List.length_cons]
  omega

/-- `closure(states)` (lines 521-543). -/
def NFA.closure (n : NFA C) (s : Bits) : Option Bits :=
  if s.length = n.nstates then
    closureLoop CharSetLike.isEps n.rules s ((List.range n.nstates).filter fun i => s[i]? == some true).reverse
  else none

/-- `vecUnion(a, b)` (lines 544-550). -/
def vecUnion (a b : Bits) : Option Bits :=
  if a.length ≤ b.length then some (List.zipWith (· || ·) a b) else none

/-- The pairs of `follow`. -/
abbrev Pairs (C : Type) := List (C × Bits)

/-- `follow`: the pairs for the rules of one state (lines 559-564). -/
def edgePairs (nstates : Nat) (es : List (C × Nat)) : Option (Pairs C) :=
  es.mapM fun e => do return (e.1, ← single nstates e.2)

/-- `follow`: the pairs for state `i` (lines 557-565). -/
def statePairs (n : NFA C) (s : Bits) (i : Nat) : Option (Pairs C) :=
  match s[i]? with
  | none => none
  | some false => some []
  | some true =>
    match n.rules[i]? with
    | none => none
    | some es => edgePairs n.nstates es

/-- `follow`: the pairs for all states of the set (lines 553-566). -/
def initPairs (n : NFA C) (s : Bits) : Option (Pairs C) := do
  let ps ← (List.range n.nstates).mapM (statePairs n s)
  -- `vector pr(nstates)`: default pairs, an epsilon set and an empty array
  return List.replicate n.nstates (CharSetLike.eps, []) ++ ps.flatten

/-- The pairs `pr[i]`, `pr[j]` overlap (lines 573-580). -/
def overlap (pr : Pairs C) (i j : Nat) : Bool :=
  match pr[i]?, pr[j]? with
  | some a, some b => !CharSetLike.isEps a.1 && !CharSetLike.isEps b.1 && !CharSetLike.empty (CharSetLike.inter a.1 b.1)
  | _, _ => false

/-- The first overlapping pair of indices in the order of the loops (lines 571-580). -/
def findPair (pr : Pairs C) : Option (Nat × Nat) :=
  (List.range pr.length).findSome? fun i =>
    ((List.range i).find? fun j => overlap pr i j).map fun j => (i, j)

/-- One splitting (lines 582-606). -/
def splitPair (pr : Pairs C) (i j : Nat) : Option (Pairs C) := do
  let a ← pr[i]?
  let b ← pr[j]?
  let inter := CharSetLike.inter a.1 b.1
  let diff1 := CharSetLike.diff a.1 inter
  let diff2 := CharSetLike.diff b.1 inter
  let pr := pr.set i (inter, ← vecUnion a.2 b.2)
  if CharSetLike.empty diff1 then
    if CharSetLike.empty diff2 then do
      -- `swap(pr[j], pr.back()); pr.pop_back()`
      return (pr.set j (← pr.getLast?)).dropLast
    else return pr.set j (diff2, b.2)
  else if CharSetLike.empty diff2 then return pr.set j (diff1, a.2)
  else return pr.set j (diff1, a.2) ++ [(diff2, b.2)]

end Verif.Auto
