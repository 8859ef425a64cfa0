import Verif.LexSyn.Meaning
import Verif.Text.Spec

/-!
# Specification: the format of the Unicode tables, and the classes of characters they define

The format is the one described at the head of the files (`/repo/src/unidata/Blocks.txt` and others): each line is a comment, blank, or lists one character or the characters of a range,
then a semicolon, a name, and possibly a comment.
-/

namespace Verif.Unidata.Spec

open Verif.Auto Verif.LexSyn

def str (s : String) : Text := s.toList.map Char.toNat

def Blank (c : Nat) : Prop := c ∈ [9, 10, 11, 12, 13, 32]

/-- Names differ neither in case nor in the use of spaces, hyphens and underscores. -/
def fold (c : Nat) : Nat := if c = ' '.toNat ∨ c = '-'.toNat then '_'.toNat else if 'A'.toNat ≤ c ∧ c ≤ 'Z'.toNat then c + 32 else c

/-- `n` is the name written as `s`, perhaps between blanks. -/
def IsName (s : List Nat) (n : Text) : Prop :=
  ∃ a t b, s = a ++ t ++ b ∧ (∀ c ∈ a, Blank c) ∧ (∀ c ∈ b, Blank c) ∧ (∀ c ∈ t.head?, ¬ Blank c) ∧ (∀ c ∈ t.getLast?, ¬ Blank c) ∧ n = t.map fold

/-- A hexadecimal number of at most seven digits, leading zeros apart. -/
def Number (s : List Nat) (v : Nat) : Prop :=
  ∃ ds : List (Nat × Nat), ds ≠ [] ∧ s = ds.map (·.1) ∧ (∀ d ∈ ds, Text.Spec.IsDigit .hex d.1 d.2) ∧ v = Text.Spec.value 16 (ds.map (·.2)) 0 ∧ v < 2 ^ 28

/-- What follows the name: nothing or a comment. -/
def Comment (s : List Nat) : Prop := s = [] ∨ ∃ t, s = '#'.toNat :: t

/-- Two dots in a row. -/
def Dots (s : List Nat) : Prop := ∃ a b, s = a ++ str ".." ++ b

/-- The lines, and what they list: first and last character, and the name.  A line for one character has no two dots in a row, not even in its comment. -/
inductive Line : List Nat → Option (Nat × Nat × Text) → Prop
  | comment {s} : Line ('#'.toNat :: s) none
  | blank {s} : (∀ c ∈ s, Blank c) → Line s none
  | single {ds v gap name n rest} : Number ds v → (∀ c ∈ gap, c = ' '.toNat) → '#'.toNat ∉ name → IsName name n → n ≠ [] → Comment rest →
      ¬ Dots (name ++ rest) → Line (ds ++ gap ++ ';'.toNat :: name ++ rest) (some (v, v, n))
  | range {ds v es w gap name n rest} : Number ds v → Number es w → (∀ c ∈ gap, c = ' '.toNat) → '#'.toNat ∉ name → IsName name n → n ≠ [] → Comment rest →
      Line (ds ++ str ".." ++ es ++ gap ++ ';'.toNat :: name ++ rest) (some (v, w, n))

/-- A file: lines that end with a line feed, except perhaps the last one. -/
inductive Table : List Nat → List (Nat × Nat × Text) → Prop
  | nil : Table [] []
  | last {l e} : 10 ∉ l → Line l e → Table l e.toList
  | line {l e t es} : 10 ∉ l → Line (l ++ [10]) e → Table t es → Table (l ++ 10 :: t) (e.toList ++ es)

/-- The ranges that make up a class: those listed under its name in one of the tables; there are three more classes. -/
def Part (es : List (Nat × Nat × Text)) (n : Text) (b e : Nat) : Prop :=
  if n = str "num" then (b, e, str "numeric") ∈ es ∨ (b, e, str "digit") ∈ es ∨ (b, e, str "decimal") ∈ es
  else if n = str "ascii-range" then b = 0 ∧ e = 127
  else if n = str "latin1-range" then b = 0 ∧ e = 255
  else (b, e, n) ∈ es

/-- The characters of a class. -/
def Class (es : List (Nat × Nat × Text)) (n : Text) (c : Nat) : Prop := ∃ b e, Part es n b e ∧ b ≤ c ∧ c ≤ e

/-- The names of classes. -/
def Known (es : List (Nat × Nat × Text)) (n : Text) : Prop :=
  n = str "num" ∨ n = str "ascii-range" ∨ n = str "latin1-range" ∨ ∃ b e, (b, e, n) ∈ es

/-- The tables list characters of Unicode. -/
def Unicode (es : List (Nat × Nat × Text)) : Prop := ∀ x ∈ es, x.1 ≤ x.2.1 ∧ x.2.1 < 0x110000

/-- The tables know numbers. -/
def Numeric (es : List (Nat × Nat × Text)) : Prop := ∀ n ∈ [str "numeric", str "digit", str "decimal"], ∃ b e, (b, e, n) ∈ es

/-- The words for a class: the encodings of its characters. -/
def classLang (K : LexSyn.Spec.Reading) (es : List (Nat × Nat × Text)) (n : Text) : Lang := fun w => ∃ c, Class es n c ∧ K.char c ∧ w = K.enc c

end Verif.Unidata.Spec
