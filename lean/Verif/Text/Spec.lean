import Verif.Utf.Spec

/-!
# Specification: the language of escape sequences, and the meaning of the directives
-/

namespace Verif.Text.Spec

open Verif.Utf.Spec

/-- Number systems of the numeric escapes. -/
inductive Sys | hex | dec | oct | bin
  deriving DecidableEq

def Sys.base : Sys → Nat
  | .hex => 16 | .dec => 10 | .oct => 8 | .bin => 2

/-- The letters selecting a system. -/
def Sys.letters : Sys → List Char
  | .hex => ['x', 'X', 'u', 'U'] | .dec => ['d', 'D'] | .oct => ['o', 'O'] | .bin => ['y', 'Y']

/-- `c` is the digit with value `v`: the digits of the system, letters in either case. -/
def IsDigit (y : Sys) (c v : Nat) : Prop :=
  v < y.base ∧ (v < 10 ∧ c = '0'.toNat + v ∨ 10 ≤ v ∧ (c = 'a'.toNat + (v - 10) ∨ c = 'A'.toNat + (v - 10)))

/-- The value of a sequence of digit values. -/
def value (base : Nat) : List Nat → Nat → Nat
  | [], acc => acc
  | v :: vs, acc => value base vs (acc * base + v)

/-- The named escapes. -/
def namedTable : List (Char × Nat) :=
  [('n', 10), ('t', 9), ('f', 12), ('v', 11), ('r', 13), ('0', 0), ('b', 8), ('a', 7)]

/-- A piece of text: a character, or an escape. -/
inductive Piece
  | plain (c : Nat)
  | named (l : Char) (v : Nat)
  /-- letter, digits with their values -/
  | num (y : Sys) (l : Char) (ds : List (Nat × Nat))
  /-- any other character after a backslash -/
  | quoted (c : Nat)

/-- The source form. -/
def Piece.text : Piece → List Nat
  | .plain c => [c]
  | .named l _ => ['\\'.toNat, l.toNat]
  | .num _ l ds => '\\'.toNat :: l.toNat :: ds.map (·.1)
  | .quoted c => ['\\'.toNat, c]

/-- The characters denoted (UTF-16). -/
def Piece.units : Piece → List Nat
  | .plain c => [c]
  | .named _ v => [v]
  | .num y _ ds => utf16 (value y.base (ds.map (·.2)) 0)
  | .quoted c => [c]

/-- Well-formed pieces. -/
def Piece.Shape : Piece → Prop
  | .plain c => c ≠ '\\'.toNat
  | .named l v => (l, v) ∈ namedTable
  | .num y l ds => l ∈ y.letters ∧ (∀ d ∈ ds, IsDigit y d.1 d.2)
  | .quoted c => (∀ p ∈ namedTable, c ≠ p.1.toNat) ∧ ∀ y : Sys, ∀ l ∈ y.letters, c ≠ l.toNat

/-- … whose numbers denote code points. -/
def Piece.Ok (p : Piece) : Prop :=
  p.Shape ∧ ∀ y l ds, p = .num y l ds → value y.base (ds.map (·.2)) 0 < 0x110000

/-- A number ends where no digit follows. -/
def Separated : List Piece → Prop
  | [] => True
  | .num y _ _ :: rest => (∀ c v, (rest.flatMap Piece.text).head? = some c → ¬ IsDigit y c v) ∧ Separated rest
  | _ :: rest => Separated rest

/-! ### Directives -/

inductive Codec | ascii | latin1 | utf8 | ucs2 | utf16 | ucs4
  deriving DecidableEq

/-- The names, in lower case and without hyphens. -/
def codecNames : List (String × Codec) :=
  [("ascii", .ascii), ("latin1", .latin1), ("utf8", .utf8), ("ucs2", .ucs2), ("utf16", .utf16), ("ucs4", .ucs4), ("utf32", .ucs4)]

/-- What the user has chosen: an encoding, and table or sequence. -/
structure Choice where
  codec : Codec
  table : Bool
  deriving DecidableEq

/-- The position of a choice in the enumeration `AutomatonType`.  There is no table variant for UCS-4. -/
def Choice.number : Choice → Nat
  | ⟨.ascii, false⟩ => 0 | ⟨.latin1, false⟩ => 1 | ⟨.utf8, false⟩ => 2 | ⟨.ucs2, false⟩ => 3 | ⟨.utf16, false⟩ => 4
  | ⟨.ucs4, _⟩ => 5
  | ⟨.ascii, true⟩ => 6 | ⟨.latin1, true⟩ => 7 | ⟨.utf8, true⟩ => 8 | ⟨.ucs2, true⟩ => 9 | ⟨.utf16, true⟩ => 10

end Verif.Text.Spec
