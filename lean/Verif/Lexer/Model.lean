import Verif.Auto.DfaOps
import Verif.CharSet.Dispatch
import Verif.Utf.Model

/-!
# Model of the generated lexer's state machine and of `DFA::nextAction`

Sources: `/repo/src/kdev-pg-regexp.cpp` lines 95-117 (`codegen`) and 186-216 (`nextAction`);
`/repo/src/kdev-pg-generate.cpp` lines 657-674 (`lxCURR_POS`, `lxNEXT_CHR`) and 714-720.

The generated text is

```
lpos = plain(); lstate = 0; goto _state_0;
_state_i: [lpos = plain(); lstate = accept[i];]  if(!hasNext()) goto _end; chr = next();  <dispatch on chr>
_end: plain() = lpos; switch(lstate) { case 0: fail .. case k: actions[k] .. }
```

The jumps `goto _state_j` are a loop over the state number.
-/

namespace Verif.Lexer

open Verif.Auto

/-- An input iterator (`kdev-pg-char-sets.h`): its state, its position in the underlying buffer (`plain()`) and the
assignment `plain() = p`.  `next` is `none` where it has undefined behaviour. -/
structure Iter (S P : Type) where
  hasNext : S → Bool
  next : S → Option (Nat × S)
  plain : S → P
  setPlain : S → P → S

variable {S P C : Type} [CharSetLike C]

/-- What the lexer has read and remembered when it reaches `_end`. -/
structure Stop (S P : Type) where
  iter : S
  lpos : P
  lstate : Nat

/-- The state machine from `_state_q` on (regexp.cpp lines 100-107); `step` is the dispatch printed for the
transitions of a state: `none` is `goto _end`.  The fuel bounds the number of characters read. -/
def run (it : Iter S P) (step : List (C × Nat) → Nat → Option Nat) (d : DFA C) : Nat → Nat → S → P → Nat → Option (Stop S P)
  | 0, _, _, _, _ => none
  | fuel + 1, q, s, lpos, lstate => do
    let a ← d.accept[q]?
    let es ← d.rules[q]?
    let lpos := if a ≠ 0 then it.plain s else lpos
    let lstate := if a ≠ 0 then a else lstate
    if it.hasNext s then do
      let (chr, s') ← it.next s
      match step es chr with
      | none => return ⟨s', lpos, lstate⟩
      | some j => run it step d fuel j s' lpos lstate
    else return ⟨s, lpos, lstate⟩

/-- One call of the generated state machine: the iterator afterwards and the number of the action run
(regexp.cpp lines 95-117; generate.cpp line 718 initialises `lpos` and `lstate`).  An `lstate` without `case`
would run past the `switch`: `none`. -/
def lex (it : Iter S P) (step : List (C × Nat) → Nat → Option Nat) (d : DFA C) (fuel : Nat) (s : S) : Option (S × Nat) := do
  let r ← run it step d fuel 0 s (it.plain s) 0
  if r.lstate ≤ d.numActions then return (it.setPlain r.iter r.lpos, r.lstate) else none

/-- `nextAction(iter)` (regexp.cpp lines 186-216).  The whole iterator is copied (`npos = iter`), and the initial
action `(size_t)-1` is `none` here. -/
def nextLoop (it : Iter S P) (d : DFA C) : Nat → Nat → S → S → Option Nat → Option (S × Option Nat)
  | 0, _, _, _, _ => none
  | fuel + 1, q, s, npos, action => do
    let a ← d.accept[q]?
    let npos := if a ≠ 0 then s else npos
    let action := if a ≠ 0 then some a else action
    if it.hasNext s then do
      let es ← d.rules[q]?
      let (chr, s') ← it.next s
      match stepRules es chr with
      | none => return (npos, action)
      | some j => nextLoop it d fuel j s' npos action
    else return (npos, action)

def nextAction (it : Iter S P) (d : DFA C) (fuel : Nat) (s : S) : Option (S × Option Nat) := nextLoop it d fuel 0 s s none

/-! ### The two kinds of dispatch (regexp-helper.h lines 547-637) -/

open Verif.CharSet in
/-- The decision tree of a sequence lexer. -/
def seqStep (N : Nat) (es : List (SeqCS N × Nat)) (chr : Nat) : Option Nat :=
  (seqDispatch N (es.map fun e => (e.1.s, e.2))).exec chr

open Verif.CharSet in
/-- The `switch` of a table lexer. -/
def tableStep {N : Nat} (es : List (Table N × Nat)) (chr : Nat) : Option Nat := switchExec chr (tableDispatch es)

/-! ### Iterators -/

/-- Iterators over code units: `QStringIterator`, `ByteStringIterator` (kdev-pg-char-sets.h lines 197-273); the state
is what is left of the buffer. -/
def unitIter : Iter (List Nat) (List Nat) where
  hasNext s := !s.isEmpty
  next
    | [] => none
    | c :: s => some (c, s)
  plain s := s
  setPlain _ p := p

/-- Decoding iterators without extra state: `QUtf16ToUcs4Iterator`, `Utf8ToUcs4Iterator`, `QUtf8ToUcs2Iterator`,
`QUtf8ToAsciiIterator` (lines 275-475, 545-616), with `next` from `Verif.Utf`. -/
def decodeIter (next : List Nat → Option (Nat × List Nat)) : Iter (List Nat) (List Nat) where
  hasNext s := !s.isEmpty
  next := next
  plain s := s
  setPlain _ p := p

/-- `QUtf8ToUtf16Iterator` (lines 467-543): the state is the rest of the buffer and the member `surrogate`;
`plain()` is a reference to the position only (lines 482-485). -/
def utf16Iter : Iter (List Nat × Nat) (List Nat) where
  hasNext s := !s.1.isEmpty
  next s := (Utf.utf16Next s.1 s.2).map fun (c, sur, rest) => (c, (rest, sur))
  plain s := s.1
  setPlain s p := (p, s.2)

end Verif.Lexer
