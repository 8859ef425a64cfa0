import Verif.Lexer.Model
import Verif.Auto.Length

/-!
# Model of lexer rules with lookahead and barrier

Source: `/repo/src/kdev-pg-parser.yy` lines 191-272.  Warnings and the code of the action are not modelled; of the action
text only the leading `Iterator::plain() -= k;` matters here.  `int` is unbounded.
-/

namespace Verif.Lexer

open Verif.Auto

variable {C : Type} [CharSetLike C]

/-- One entry of `lexerEnvs` / `lexerActions`: the automaton, and `k` if the action begins with `Iterator::plain() -= k;`. -/
structure Rule (C : Type) where
  nfa : NFA C
  rewind : Option Int

/-- `minLength()` as the `int` it is. -/
def minInt : Option Nat → Int
  | none => -1
  | some n => n

/-- The decision on the length of the lookahead or barrier (lines 208-218 and 240-250): `none` is `ignore`,
`some k` the value of `minLen`. -/
def decideLen (minLen maxLen : Int) : Option Int :=
  if minLen = 0 then none
  else if minLen ≠ maxLen then none
  else some minLen

/-- Computing both lengths and deciding (line 207, line 239). -/
def fixedLen (fuel : Nat) (l : NFA C) : Option (Option Int) := do
  let min ← l.minLength
  let max ← l.maxLength fuel
  return decideLen (minInt min) max

/-- `r %la(l)` (lines 200-231). -/
def lookaheadRule (fuel : Nat) (r l : NFA C) : Option (List (Rule C)) := do
  match ← fixedLen fuel l with
  | none => return [⟨r, none⟩]
  | some k => return [⟨← r.concat l, some k⟩]

/-- `r %ba(b)` (lines 232-272); `any` is `GNFA::anyChar()`, `anything` its iteration (regexp.cpp lines 1252-1256). -/
def barrierRule (order : List Bits → List Bits) (fuel : Nat) (any r b : NFA C) : Option (List (Rule C)) := do
  match ← fixedLen fuel b with
  | none => return [⟨r, none⟩]
  | some k =>
    let exclude ← any.star
    let exclude ← exclude.concat b
    let exclude ← exclude.concat (← any.star)
    let staying ← r.but order fuel exclude
    let exclude ← exclude.concat any
    let r ← r.concat b
    let r ← r.but order fuel exclude
    return [⟨staying, none⟩, ⟨r, some k⟩]

/-! ### Positions -/

/-- An iterator over a fixed buffer, with its position; `next` as in `decodeIter`. -/
def bufIter (next : List Nat → Option (Nat × List Nat)) (buf : List Nat) : Iter Nat Nat where
  hasNext p := p < buf.length
  next p := (next (buf.drop p)).map fun (c, rest) => (c, buf.length - rest.length)
  plain p := p
  setPlain _ p := p

/-- `next` of the iterators over code units. -/
def unitNext : List Nat → Option (Nat × List Nat)
  | [] => none
  | c :: s => some (c, s)

/-- `plain() -= k`: moving a pointer outside the buffer is undefined behaviour. -/
def stepBack (buf : List Nat) (p : Nat) (k : Option Int) : Option Nat :=
  match k with
  | none => some p
  | some k => if 0 ≤ (p : Int) - k ∧ (p : Int) - k ≤ buf.length then some ((p : Int) - k).toNat else none

end Verif.Lexer
