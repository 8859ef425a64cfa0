import Verif.Top.Model
import Verif.LexSyn.Build
import Verif.Enc.Sets

/-!
# Model: the files that are read, and the automata that their types select

Sources: `/repo/src/kdev-pg-regexp.cpp` lines 912-924 (`EACH_TYPE`), 1169-1227, 1315-1500, `/repo/src/kdev-pg-regexp.h` line 33.
-/

namespace Verif.Top

open Verif.Enc Verif.Auto Verif.CharSet
open Verif.LexSyn (Chars chars)

/-- The bytes are scanned to their end, and the tokens are a file. -/
def Reads (E : GLex.Env) (s : List Nat) (F : File) : Prop := ∃ f toks st, GLex.scan E f {} s = some (toks, .eof st) ∧ System toks F

/-- `EACH_TYPE`: the sets of characters, and the functions `word`, `collection`, `range` and `anyChar` for each value of `GDFA::type`.  Other values (11 and more can be reached, see C30) end the program. -/
inductive Alphabet (order : List Bits → List Bits) (fuel : Nat) : Nat → (C : Type) → [CharSetLike C] → Chars C → Prop
  | sAscii : Alphabet order fuel 0 (SeqCS 128) (chars asciiNext rangeFixed (some anyFixed))
  | sLatin1 : Alphabet order fuel 1 (SeqCS 256) (chars Enc.unit rangeFixed (some anyFixed))
  | sUtf8 : Alphabet order fuel 2 (SeqCS 256) (chars Enc.unit rangeUtf8 anyUtf8)
  | sUcs2 : Alphabet order fuel 3 (SeqCS 65536) (chars ucs2Next rangeFixed (some anyFixed))
  | sUtf16 : Alphabet order fuel 4 (SeqCS 65536) (chars ucs2Next rangeUtf16 (anyUtf16 order fuel))
  | sUcs4 : Alphabet order fuel 5 (SeqCS 0x110000) (chars ucs4Next rangeUcs4 (some anyFixed))
  | tAscii : Alphabet order fuel 6 (Table 128) (chars asciiNext rangeFixed (some anyFixed))
  | tLatin1 : Alphabet order fuel 7 (Table 256) (chars Enc.unit rangeFixed (some anyFixed))
  | tUtf8 : Alphabet order fuel 8 (Table 256) (chars Enc.unit rangeUtf8 anyUtf8)
  | tUcs2 : Alphabet order fuel 9 (Table 65536) (chars ucs2Next rangeFixed (some anyFixed))
  | tUtf16 : Alphabet order fuel 10 (Table 65536) (chars ucs2Next rangeUtf16 (anyUtf16 order fuel))

theorem Alphabet.size {order : List Bits → List Bits} {fuel t : Nat} {C : Type} [i : CharSetLike C] {A : Chars C} (h : Alphabet order fuel t C A) : 0 < CharSetLike.size C := by
  cases h <;> (show 0 < _) <;> decide

end Verif.Top
