import Verif.Literal.Model

/-!
# String literals of C++

`QStringLiteral` makes a literal with prefix `u` of its argument.
-/

namespace Verif.Literal.Spec

open Verif.Top (Text txt)
open Verif.Literal (Name)

/-- Simple escape sequences. -/
def simples : List (Nat × Nat) := [(39, 39), (34, 34), (63, 63), (92, 92), (97, 7), (98, 8), (102, 12), (110, 10), (114, 13), (116, 9), (118, 11)]

def octal (c : Nat) : Bool := 48 ≤ c && c ≤ 55

def hex (c : Nat) : Bool := (48 ≤ c && c ≤ 57) || (65 ≤ c && c ≤ 70) || (97 ≤ c && c ≤ 102)

def digit (c : Nat) : Nat := if c ≤ 57 then c - 48 else if c ≤ 70 then c - 55 else c - 87

def value (base : Nat) (ds : Text) : Nat := ds.foldl (fun n c => base * n + digit c) 0

/-- A code point. -/
def scalar (n : Nat) : Prop := n < 55296 ∨ 57344 ≤ n ∧ n < 1114112

def utf16 (n : Nat) : Text := if n < 65536 then [n] else [55296 + (n - 65536) / 1024, 56320 + (n - 65536) % 1024]

/-- `Lit s v r`: behind the opening quote there is `s`; the literal denotes `v`, and `r` follows the closing quote.  Escape sequences that the standard leaves to the implementation are not covered. -/
inductive Lit : Text → Text → Text → Prop
  | close {r} : Lit (34 :: r) [] r
  | plain {c s v r} : c ≠ 34 → c ≠ 92 → c ≠ 10 → c ≠ 13 → Lit s v r → Lit (c :: s) (c :: v) r
  | simple {e x s v r} : (e, x) ∈ simples → Lit s v r → Lit (92 :: e :: s) (x :: v) r
  | octal {t ds s v r} : t = ds ++ s → ds ≠ [] → ds.length ≤ 3 → (∀ d ∈ ds, octal d = true) → ds.length = 3 ∨ (∀ c, s.head? = some c → octal c = false) → Lit s v r → Lit (92 :: t) (value 8 ds :: v) r
  | hex {t ds s v r} : t = ds ++ s → ds ≠ [] → (∀ d ∈ ds, hex d = true) → (∀ c, s.head? = some c → hex c = false) → value 16 ds < 65536 → Lit s v r → Lit (92 :: 120 :: t) (value 16 ds :: v) r
  | short {t ds s v r} : t = ds ++ s → ds.length = 4 → (∀ d ∈ ds, hex d = true) → scalar (value 16 ds) → Lit s v r → Lit (92 :: 117 :: t) (utf16 (value 16 ds) ++ v) r
  | long {t ds s v r} : t = ds ++ s → ds.length = 8 → (∀ d ∈ ds, hex d = true) → scalar (value 16 ds) → Lit s v r → Lit (92 :: 85 :: t) (utf16 (value 16 ds) ++ v) r

/-- Between quotes there is a literal that denotes `v`, and only `v`, whatever follows. -/
def Denotes (s v : Text) : Prop := ∀ r, Lit (s ++ 34 :: r) v r ∧ ∀ v' r', Lit (s ++ 34 :: r) v' r' → v' = v ∧ r' = r

/-- The description of a token: the first one given for it. -/
def Describes (decls : List (Name × Text)) (n : Name) (d : Text) : Prop := ∃ a b, decls = a ++ (n, d) :: b ∧ ∀ p ∈ a, p.1 ≠ n

/-- One line. -/
def OneLine (t : Text) : Prop := ∀ c ∈ t, c ≠ 10 ∧ c ≠ 13

end Verif.Literal.Spec
