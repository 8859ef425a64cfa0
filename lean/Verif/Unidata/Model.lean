import Verif.LexSyn.Build

/-!
# Model of the loader of the Unicode tables

Source: `/repo/src/kdev-pg-unicode-loader.cpp`.

A file is a list of bytes.  The tables are compiled into the program as resources, so that opening them does not fail (line 87 is not modelled).  Names are texts as in `Verif/LexSyn`:
the bytes of a name, `QString::fromUtf8` of which is the key of `regexpById`.
-/

namespace Verif.Unidata

open Verif.Auto Verif.LexSyn

variable {C : Type} [CharSetLike C]

/-! ### Byte arrays -/

/-- `indexOf(c, from)`; `none` is `-1`. -/
def indexOf (c : Nat) (l : List Nat) (start : Nat) : Option Nat := ((l.drop start).findIdx? (· == c)).map (· + start)

/-- `indexOf("..")`. -/
def indexOfDots : List Nat → Option Nat
  | 46 :: 46 :: _ => some 0
  | _ :: l => (indexOfDots l).map (· + 1)
  | [] => none

/-- Characters `trimmed()` removes: space and 9 to 13. -/
def isSpace (c : Nat) : Bool := c == 32 || (9 ≤ c && c ≤ 13)

/-- `trimmed()` -/
def trimmed (l : List Nat) : List Nat := ((l.dropWhile isSpace).reverse.dropWhile isSpace).reverse

/-- `toLower()`, for ASCII; Qt 5 also maps letters of Latin-1, which do not occur in the tables. -/
def toLower (l : List Nat) : List Nat := l.map fun c => if 65 ≤ c ∧ c ≤ 90 then c + 32 else c

/-- `replace(a, b)` for single bytes. -/
def replace (a b : Nat) (l : List Nat) : List Nat := l.map fun c => if c = a then b else c

/-- `SET_CHAR(line, i, x)` (lines 17-34): the value and the new `i`. -/
def setCharAt (l : List Nat) (i : Nat) : Nat × Nat :=
  ((Text.setChar (l.drop i)).1, i + ((l.drop i).length - (Text.setChar (l.drop i)).2.length))

/-- `mid(start, (uint)(indexOf('#', start)) - start)`.  Without `#` the length is negative (or, with 64 bit, huge), so that `mid` takes all up to the end. -/
def upToHash (l : List Nat) (start : Nat) : List Nat :=
  match indexOf 35 l start with
  | some j => (l.drop start).take (j - start)
  | none => l.drop start

/-- The name (lines 60-62, 76-78), which starts behind the semicolon. -/
def nameAt (l : List Nat) (semicolon : Option Nat) : Text :=
  replace 45 95 (replace 32 95 (toLower (trimmed (upToHash l (match semicolon with
    | some k => k + 1
    | none => 0)))))

/-! ### Tables -/

/-- One line (lines 43-84): the bounds and the name; `stuck` for a failed assertion. -/
def scanLine (l : List Nat) : Out (Option (Nat × Nat × Text)) :=
  match l with
  | [] => .ok none
  | c :: _ =>
    if c = 35 then .ok none
    else match indexOfDots l with
      | some dots =>
        let (b, i) := setCharAt l 0
        if i ≤ dots then
          let (e, i) := setCharAt l (i + 2)
          match indexOf 59 l (dots + 2) with
          | none => .stuck
          | some k => if i ≤ k then .ok (some (b, e, nameAt l (some k))) else .stuck
        else .stuck
      | none =>
        let (c, i) := setCharAt l 0
        .ok (some (c, c, nameAt l (indexOf 59 l i)))

/-- `regexpById[name]` is created or extended (lines 63-68, 79-84), with `range = GNFA::range`; `GNFA::character(c)` is `range(c, c + 1)`. -/
def addEntry (range : Nat → Nat → Option (NFA C)) (st : Store C) : Nat × Nat × Text → Out (Store C)
  | (b, e, name) => (lift (range b ((e + 1) % 2 ^ 32))).bind fun n =>
    match st name with
    | none => .ok (st.set name ⟨n, false⟩)
    | some d => (lift (d.nfa.alt n)).bind fun m => .ok (st.set name ⟨m, d.ready⟩)

/-- `readLine()` until `atEnd()`. -/
def lines : List Nat → List (List Nat)
  | [] => []
  | c :: s => if c = 10 then [c] :: lines s else match lines s with
    | [] => [[c]]
    | l :: ls => (c :: l) :: ls

def addLine (range : Nat → Nat → Option (NFA C)) (st : Store C) (l : List Nat) : Out (Store C) :=
  (scanLine l).bind fun r => match r with
    | none => .ok st
    | some x => addEntry range st x

def addLines (range : Nat → Nat → Option (NFA C)) : Store C → List (List Nat) → Out (Store C)
  | st, [] => .ok st
  | st, l :: ls => (addLine range st l).bind fun st => addLines range st ls

/-- `standardFormat(fileName)` (lines 36-88), with the contents of the file. -/
def standardFormat (range : Nat → Nat → Option (NFA C)) (st : Store C) (file : List Nat) : Out (Store C) := addLines range st (lines file)

def addFiles (range : Nat → Nat → Option (NFA C)) : Store C → List (List Nat) → Out (Store C)
  | st, [] => .ok st
  | st, f :: fs => (standardFormat range st f).bind fun st => addFiles range st fs

/-- `regexpById["num"] = new GNFA(*regexpById["numeric"])`; a null pointer if there is no such name. -/
def startNum (st : Store C) : Out (Store C) :=
  match st (txt "numeric") with
  | none => .stuck
  | some d => .ok (st.set (txt "num") ⟨d.nfa, false⟩)

/-- `*regexpById["num"] |= *regexpById[name]`; a null pointer if there is no such name. -/
def extendNum (name : Text) (st : Store C) : Out (Store C) :=
  match st (txt "num"), st name with
  | some d, some e => (lift (d.nfa.alt e.nfa)).bind fun m => .ok (st.set (txt "num") ⟨m, d.ready⟩)
  | _, _ => .stuck

/-- `regexpById[name] = new GNFA(GNFA::range(0, e))` -/
def addRange (range : Nat → Nat → Option (NFA C)) (name : Text) (e : Nat) (st : Store C) : Out (Store C) :=
  (lift (range 0 e)).bind fun n => .ok (st.set name ⟨n, false⟩)

/-- `loadUnicodeData()` (lines 92-113) when called for the first time; `files` are the contents of the six files. -/
def loadUnicodeData (range : Nat → Nat → Option (NFA C)) (files : List (List Nat)) (st : Store C) : Out (Store C) :=
  (addFiles range st files).bind fun st =>
    (startNum st).bind fun st =>
    (extendNum (txt "digit") st).bind fun st =>
    (extendNum (txt "decimal") st).bind fun st =>
    (addRange range (txt "ascii-range") 0x80 st).bind fun st =>
    addRange range (txt "latin1-range") 0x100 st

end Verif.Unidata
