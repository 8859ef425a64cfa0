import Verif.Utf.Model

/-!
# Model of the functions that read text in lexer rules

`unescaped` (`/repo/src/kdev-pg.cpp` lines 187-292), the decoding of `T_RANGE` (`/repo/src/kdev-pg-parser.yy` lines 404-428),
`SET_CHAR` (`/repo/src/kdev-pg-unicode-loader.cpp` lines 17-34) and the directives choosing the automaton type
(`kdev-pg-parser.yy` lines 102-156).

Bytes are numbers below 256 and `QChar`s numbers below 65536.
-/

namespace Verif.Text

/-- `QChar::fromUcs4` appended to a `QString`: `requiresSurrogates`, `highSurrogate`, `lowSurrogate` of Qt, whose
arithmetic is that of `char32_t` cut to `char16_t`. -/
def fromUcs4 (x : Nat) : List Nat :=
  if 0x10000 ≤ x then [((x >>> 10) + 0xd7c0) % 65536, (x % 0x400 + 0xdc00) % 65536] else [x]

/-- The value of a hexadecimal digit, as tested in lines 223-228. -/
def hexDigit (c : Nat) : Option Nat :=
  if 97 ≤ c ∧ c ≤ 102 then some (c - 97 + 10)
  else if 65 ≤ c ∧ c ≤ 70 then some (c - 65 + 10)
  else if 48 ≤ c ∧ c ≤ 57 then some (c - 48)
  else none

def decDigit (c : Nat) : Option Nat := if 48 ≤ c ∧ c ≤ 57 then some (c - 48) else none
def octDigit (c : Nat) : Option Nat := if 48 ≤ c ∧ c ≤ 55 then some (c - 48) else none
def binDigit (c : Nat) : Option Nat := if 48 ≤ c ∧ c ≤ 49 then some (c - 48) else none

/-- The loop `for(++i; ; ++i) { x *= base; … x += digit … else break; }` in 32 bits (lines 218-231 and alike): the final `x` and the
rest of the text. -/
def digitLoop (base : Nat) (digit : Nat → Option Nat) (x : Nat) : List Nat → Nat × List Nat
  | [] => (x * base % 2 ^ 32, [])
  | c :: s =>
    match digit c with
    | some d => digitLoop base digit ((x * base % 2 ^ 32 + d) % 2 ^ 32) s
    | none => (x * base % 2 ^ 32, c :: s)

theorem digitLoop_len (base : Nat) (digit : Nat → Option Nat) (x : Nat) (s : List Nat) : (digitLoop base digit x s).2.length ≤ s.length := by
  induction s generalizing x with
  | nil => simp [digitLoop]
  | cons c s ih =>
    simp only [digitLoop]
    split
    · have := ih ((x * base % 2 ^ 32 + ‹Nat›) % 2 ^ 32)
      simp only [List.length_cons]; omega
    · simp

/-- A numeric escape after its letter: the characters appended and the rest of the text. -/
def numeric (base : Nat) (digit : Nat → Option Nat) (s : List Nat) : List Nat × List Nat :=
  (fromUcs4 ((digitLoop base digit 0 s).1 / base), (digitLoop base digit 0 s).2)

/-- The character denoted by a letter of the first group (lines 199-214). -/
def named (c : Nat) : Option Nat :=
  if c = 110 then some 10        -- n
  else if c = 116 then some 9    -- t
  else if c = 102 then some 12   -- f
  else if c = 118 then some 11   -- v
  else if c = 114 then some 13   -- r
  else if c = 48 then some 0     -- 0
  else if c = 98 then some 8     -- b
  else if c = 97 then some 7     -- a
  else none

/-- The base and digits selected by a letter of the second group (lines 215, 236, 253, 270): `xXuU`, `dD`, `oO`, `yY`. -/
def numBase (c : Nat) : Option (Nat × (Nat → Option Nat)) :=
  if c = 120 ∨ c = 88 ∨ c = 117 ∨ c = 85 then some (16, hexDigit)
  else if c = 100 ∨ c = 68 then some (10, decDigit)
  else if c = 111 ∨ c = 79 then some (8, octDigit)
  else if c = 121 ∨ c = 89 then some (2, binDigit)
  else none

/-- `unescaped(str)` (lines 187-292).  A backslash at the end makes `*++i` read the terminating zero of the `QByteArray`. -/
def unescaped : List Nat → List Nat
  | [] => []
  | 92 :: [] => [0]
  | 92 :: c :: s =>
    match named c with
    | some v => v :: unescaped s
    | none =>
      match numBase c with
      | some (b, dg) =>
        have := digitLoop_len b dg 0 s
        (numeric b dg s).1 ++ unescaped (numeric b dg s).2
      | none => c :: unescaped s
  | c :: s => c :: unescaped s
termination_by s => s.length
decreasing_by all_goals simp_wf; (try simp only [numeric]); (try omega)

/-- `QChar::surrogateToUcs4(high, low)`. -/
def surrogateToUcs4 (h l : Nat) : Nat := ((h <<< 10) + l + 0x100000000 - 0x35fdc00) % 2 ^ 32

/-- The bounds of a `T_RANGE` (parser.yy lines 404-427), `none` if an assertion fails. -/
def rangeBounds : List Nat → Option (Nat × Nat)
  | [a, b, c] => if b = 45 then some (a, c) else none
  | [a, b, c, d] => if b = 45 then some (a, surrogateToUcs4 c d) else if c = 45 then some (surrogateToUcs4 a b, d) else none
  | [a, b, c, d, e] =>
    if b = 45 then some (a, surrogateToUcs4 c d) else if c = 45 then some (surrogateToUcs4 a b, surrogateToUcs4 d e) else none
  | _ => none

/-- `SET_CHAR(str, i, x)` (unicode-loader.cpp lines 17-34) from position `i` on.  The access after the last character of the line
yields the terminating zero. -/
def setChar (s : List Nat) : Nat × List Nat := ((digitLoop 16 hexDigit 0 s).1 / 16, (digitLoop 16 hexDigit 0 s).2)

/-! ### Directives -/

inductive Directive
  | table
  | sequence
  /-- The argument of `%input_encoding`. -/
  | encoding (name : List Char)

/-- `str.toLower()` (for ASCII letters) and `str.remove('-')`. -/
def normal (name : List Char) : List Char := (name.map Char.toLower).filter (· ≠ '-')

/-- The number added to `base` (parser.yy lines 137-155), `none` for the error exit. -/
def codec (name : List Char) : Option Nat :=
  let s := normal name
  if s = "ascii".toList then some 0
  else if s = "latin1".toList then some 1
  else if s = "utf8".toList then some 2
  else if s = "ucs2".toList then some 3
  else if s = "utf16".toList then some 4
  else if s = "ucs4".toList ∨ s = "utf32".toList then some 5
  else none

/-- The effect of a directive on `GDFA::type`, the value of the enumeration `AutomatonType` (regexp.h line 33: `SAscii` = 0 to
`SUcs4` = 5, `TAscii` = 6 to `TUtf16` = 10), before any lexer rule (parser.yy lines 102-156). -/
def step (type : Nat) : Directive → Option Nat
  | .table => some (if type ≤ 4 then type + 6 else type)
  | .sequence => some (if 6 ≤ type ∧ type ≤ 10 then type - 6 else type)
  | .encoding name => (codec name).map ((type / 4) * 4 + ·)

/-- All directives, from the initial `SUcs2` (regexp.cpp line 1502). -/
def runDirectives (ds : List Directive) : Option Nat := ds.foldlM step 3

end Verif.Text
