import Verif.Auto.CharSet

/-!
# Model of `NFA<CharSet>`: construction

Source: `/repo/src/kdev-pg-regexp.cpp` lines 368-520.

`rules` is a `std::vector<std::vector<pair<CharSet, size_t>>>`, here a list of lists; an access outside
the vector is undefined behaviour (`none`).  Copy loops that write each index once are modelled by the
list they produce.  `size_t` is unbounded.  The operand of `|=` and `<<=` is another object than `*this`
(as in every call in the code base).
-/

namespace Verif.Auto

variable {C : Type} [CharSetLike C]

abbrev Rules (C : Type) := List (List (C × Nat))

/-- `NFA<CharSet>` (lines 373-376): start state 0, accepting states `accept .. nstates-1`. -/
structure NFA (C : Type) where
  nstates : Nat
  rules : Rules C
  accept : Nat

/-- `std::vector::resize`. -/
def resize (rs : Rules C) (n : Nat) : Rules C := rs.take n ++ List.replicate (n - rs.length) []

/-- `rules[i].push_back(e)`. -/
def pushAt (rs : Rules C) (i : Nat) (e : C × Nat) : Option (Rules C) :=
  if i < rs.length then some (rs.modify i (· ++ [e])) else none

/-- Renumbering the targets of one state's rules. -/
def shift (k : Nat) (es : List (C × Nat)) : List (C × Nat) := es.map fun e => (e.1, e.2 + k)

/-- `NFA()` (lines 417-418): accepts nothing. -/
def NFA.empty : NFA C := ⟨2, [[], []], 1⟩

/-- `emptyWord()` (lines 419-426). -/
def NFA.emptyWord : NFA C := ⟨1, [[]], 0⟩

/-- `NFA(const CharSet&)` (lines 429-432). -/
def NFA.ofSet (c : C) : NFA C := ⟨2, [[(c, 1)], []], 1⟩

/-- The first `o.nstates` entries of the rules of `o`, renumbered (the copy loops of lines 448-453, 479-484
and 502-507). -/
def copied (o : NFA C) (k : Nat) : Option (Rules C) :=
  if o.nstates ≤ o.rules.length then some ((o.rules.take o.nstates).map (shift k)) else none

/-- `adjust(startnum)` (lines 462-475). -/
def NFA.adjust (n : NFA C) (k : Nat) : NFA C :=
  ⟨n.nstates + k, List.replicate k [] ++ (resize n.rules n.nstates).map (shift k), n.accept + k⟩

/-- `operator|=` (lines 476-497). -/
def NFA.alt (n o : NFA C) : Option (NFA C) := do
  let a := n.adjust 1
  let os ← copied o a.nstates
  let rs := a.rules ++ os ++ [[], []]
  let rs ← pushAt rs 0 (CharSetLike.eps, 1)
  let rs ← pushAt rs 0 (CharSetLike.eps, a.nstates)
  let m := a.nstates + o.nstates
  let rs ← pushAt rs a.accept (CharSetLike.eps, m)
  let rs ← pushAt rs (m - 1) (CharSetLike.eps, m)
  return ⟨m + 1, rs, m⟩

/-- `operator<<=` (lines 498-511). -/
def NFA.concat (n o : NFA C) : Option (NFA C) := do
  let rs := resize n.rules (n.nstates + o.nstates + 1)
  let rs ← pushAt rs n.accept (CharSetLike.eps, n.nstates)
  let os ← copied o n.nstates
  return ⟨n.nstates + o.nstates, rs.take n.nstates ++ os ++ rs.drop (n.nstates + o.nstates), o.accept + n.nstates⟩

/-- `operator*` (lines 512-520). -/
def NFA.star (n : NFA C) : Option (NFA C) := do
  let rs ← pushAt n.rules n.accept (CharSetLike.eps, 0)
  let rs ← pushAt rs 0 (CharSetLike.eps, n.nstates)
  return ⟨n.nstates + 1, resize rs (n.nstates + 1), n.nstates⟩

/-- The loop of the list constructor (lines 445-460): the rules of states `start ..`, and the targets of the
transitions of state 0. `acc` is the accepting state of the next automaton. -/
def listLoop : List (NFA C) → Nat → Nat → Option (Rules C × List (C × Nat))
  | [], _, _ => some ([], [])
  | n :: ns, start, acc => do
    let os ← copied n start
    -- `rules[start - 1]` after `start += nstates` is the last entry just copied, or state 0 if there is none
    if n.nstates = 0 then none
    else do
      let os ← pushAt os (n.nstates - 1) (CharSetLike.eps, acc)
      let (rest, starts) ← listLoop ns (start + n.nstates) (acc + 1)
      return (os ++ rest, (CharSetLike.eps, start) :: starts)

/-- `NFA(const std::vector<NFA>&)` (lines 433-461).  An automaton without states in the list is outside the
model (`none`): there is none, see `Wf`. -/
def NFA.ofList (l : List (NFA C)) : Option (NFA C) :=
  if l.isEmpty then some .empty
  else do
    let accept := 1 + (l.map (·.nstates)).sum
    let (rs, starts) ← listLoop l 1 accept
    return ⟨accept + l.length, starts :: rs ++ List.replicate l.length [], accept⟩

/-- `?` (parser.yy line 319), `+` (line 335), `@` (line 329). -/
def NFA.opt (n : NFA C) : Option (NFA C) := n.alt .emptyWord
def NFA.plus (n : NFA C) : Option (NFA C) := do (← n.star).concat n
def NFA.sepBy (item sep : NFA C) : Option (NFA C) := do item.concat (← (← sep.concat item).star)

end Verif.Auto
