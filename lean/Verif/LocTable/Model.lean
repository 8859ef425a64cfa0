/-!
# Model of `KDevPG::LocationTable`

Source: `/repo/src/include/kdev-pg-location-table.h`.

The heap array `lines` is a list of cells; `none` is a cell that `realloc` left uninitialised.
Reading such a cell, or any cell outside the array, is undefined behaviour: the whole result is `none`.
`qint64` is modelled by `Int` (no overflow at 2^63), `realloc` never fails.
-/

namespace Verif.LocTable

/-- Data members (lines 105-112); `lineCount` is the length of `lines`. -/
structure Table where
  lines : List (Option Int)
  lineCount : Nat
  currentLine : Nat
  lastLine : Nat
deriving DecidableEq, Repr

/-- `lines[i]` as an rvalue. -/
def cell (a : List (Option Int)) (i : Nat) : Option Int :=
  match a[i]? with
  | some (some x) => some x
  | _ => none

/-- `resize` (lines 36-41): `realloc` keeps the common prefix.  `Q_ASSERT(size > 0)`. -/
def Table.resize (t : Table) (size : Nat) : Option Table :=
  if 0 < size then
    some { t with lines := t.lines.take size ++ List.replicate (size - t.lines.length) none
                  lineCount := size }
  else none

/-- Constructor (lines 21-26). -/
def Table.init (size : Nat) : Option Table :=
  match Table.resize ⟨[], 0, 0, 0⟩ size with
  | none => none
  | some t => if 0 < t.lines.length then
      some { t with lines := t.lines.set 0 (some 0), currentLine := 1 }
    else none

/-- `newline` (lines 93-99). -/
def Table.newline (t : Table) (offset : Int) : Option Table :=
  match (if t.currentLine = t.lineCount then t.resize (t.currentLine * 2) else some t) with
  | none => none
  | some t => if t.currentLine < t.lines.length then
      some { t with lines := t.lines.set t.currentLine (some (offset + 1))
                    currentLine := t.currentLine + 1 }
    else none

/-- `std::lower_bound(lines + first, lines + first + len, v)`: the halving loop of the standard
library (the halving of `len` is that of libstdc++). -/
def lowerBound (a : List (Option Int)) (v : Int) (first len : Nat) : Option Nat :=
  if _h : len = 0 then some first
  else
    match cell a (first + len / 2) with
    | none => none
    | some x =>
      if x < v then lowerBound a v (first + len / 2 + 1) (len - len / 2 - 1)
      else lowerBound a v first (len / 2)
termination_by len
decreasing_by all_goals omega

/-- The shortcut relative to the last match (lines 60-70); `some none` is `i == -1`. -/
def Table.shortcut (t : Table) (offset : Int) : Option (Option Nat) :=
  if t.lastLine + 1 < t.currentLine then
    match cell t.lines t.lastLine with
    | none => none
    | some a =>
      if a ≤ offset then
        match cell t.lines (t.lastLine + 1) with
        | none => none
        | some b =>
          if offset < b then some (some t.lastLine)
          else if t.lastLine + 2 < t.currentLine then
            match cell t.lines (t.lastLine + 2) with
            | none => none
            | some c => if offset < c then some (some (t.lastLine + 1)) else some none
          else some none
      else some none
  else some none

/-- `positionAt` (lines 46-87).  The `Q_ASSERT` on line 74 and `--it` before the first element are
undefined behaviour (`none`). -/
def Table.positionAt (t : Table) (offset : Int) : Option (Table × (Int × Int)) :=
  if offset < 0 then some (t, (-1, -1))
  else if t.currentLine = 0 then none
  else
    match cell t.lines (t.currentLine - 1) with
    | none => none
    | some z =>
      if z < offset then some (t, ((t.currentLine - 1 : Nat), offset - z))
      else
        match t.shortcut offset with
        | none => none
        | some (some i) =>
          match cell t.lines i with
          | none => none
          | some x => some ({ t with lastLine := i }, (i, offset - x))
        | some none =>
          match lowerBound t.lines offset 0 t.currentLine with
          | none => none
          | some it =>
            if it = t.currentLine then none
            else
              match cell t.lines it with
              | none => none
              | some x =>
                if x ≠ offset then
                  if it = 0 then none
                  else
                    match cell t.lines (it - 1) with
                    | none => none
                    | some y => some ({ t with lastLine := it - 1 }, ((it - 1 : Nat), offset - y))
                else some ({ t with lastLine := it }, (it, offset - x))

/-- Client operations. -/
inductive Op where
  | newline (offset : Int)
  | query (offset : Int)
  | resize (size : Nat)
deriving DecidableEq, Repr

/-- Run a history, collecting the answers of the queries. -/
def Table.run (t : Table) : List Op → Option (Table × List (Int × Int))
  | [] => some (t, [])
  | .newline o :: os => (t.newline o).bind fun t => t.run os
  | .resize n :: os => (t.resize n).bind fun t => t.run os
  | .query q :: os => (t.positionAt q).bind fun (t, a) => (t.run os).map fun (t, as) => (t, a :: as)

end Verif.LocTable
