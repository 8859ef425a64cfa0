import Verif.Enc.Sets
import Verif.Auto.DfaOps
import Verif.Utf.Model

/-!
# Model of `GNFA::range`, `character`, `collection`, `word`, `anyChar`

Sources: `/repo/src/kdev-pg-regexp.cpp` lines 1155-1490 and `/repo/src/generated-kdev-utf8-tuples.h`.

The encoding `GDFA::type` selects one of the functions below and a set type: `SeqCS N` for the types `S…`, `Table N` for
`T…`, with `N` the size of the code space.  All functions are generic in the set type, as the templates are.  Bounds
are `quint32`; arithmetic on them does not overflow except for `codepoint + 1`.
-/

namespace Verif.Enc

open Verif.Auto

variable {C : Type} [RangeSet C]

/-- `NFA<CharSet>(CharSet::range(b, e))`. -/
def rangeNfa (b e : Nat) : Option (NFA C) := (RangeSet.range b e : Option C).map .ofSet

/-- `NFA<CharSet>(CharSet(c))`. -/
def chrNfa (c : Nat) : Option (NFA C) := (RangeSet.chr c : Option C).map .ofSet

/-- `range` for `SAscii`, `SLatin1`, `SUcs2`, `TAscii`, `TLatin1`, `TUcs2` (lines 1322-1323, 1328-1330, 1468-1469,
1474-1476); the limit is the size of the code space. -/
def rangeFixed (b e : Nat) : Option (NFA C) :=
  if CharSetLike.size C ≤ b then some (.ofSet CharSetLike.emptySet) else rangeNfa b (min (CharSetLike.size C) e)

/-- `range` for `SUcs4` (line 1467): not cut. -/
def rangeUcs4 (b e : Nat) : Option (NFA C) := rangeNfa b e

/-- `getUtf8Tuples(from0, to0, from1, to1, ..)` (generated-kdev-utf8-tuples.h), for any number of bytes. -/
def tuples (f0 t0 : Nat) : List (Nat × Nat) → Option (NFA C)
  | [] => rangeNfa f0 t0
  | (f1, t1) :: rest =>
    if f0 = t0 then do (← chrNfa f0).concat (← tuples f1 t1 rest)
    else do
      let first ← (← chrNfa f0).concat (← tuples f1 0xc0 rest)
      let res ← NFA.empty.alt first
      let mid ← (← rangeNfa (f0 + 1) t0).concat (← tuples 0x80 0xc0 rest)
      let res ← res.alt mid
      let last ← (← chrNfa t0).concat (← tuples 0x80 t1 rest)
      res.alt last

/-- The four-byte part of `addUtf8Range` (lines 1303-1311). -/
def addUtf8_4 (res : NFA C) (b e : Nat) : Option (NFA C) := do
  res.alt (← tuples ((b >>> 18) + 0xf0) ((e >>> 18) + 0xf0)
    [(((b >>> 12) &&& 0x3f) + 0x80, ((e >>> 12) &&& 0x3f) + 0x80), (((b >>> 6) &&& 0x3f) + 0x80, ((e >>> 6) &&& 0x3f) + 0x80),
     ((b &&& 0x3f) + 0x80, (e &&& 0x3f) + 0x80)])

/-- From the three-byte part on (lines 1282-1302). -/
def addUtf8_3 (res : NFA C) (b e : Nat) : Option (NFA C) :=
  if b < 0x10000 then do
    let f2 := (b &&& 0x3f) + 0x80
    let f1 := ((b >>> 6) &&& 0x3f) + 0x80
    let f0 := (b >>> 12) + 0xe0
    if e ≤ 0x10000 then
      res.alt (← tuples f0 ((e >>> 12) + 0xe0) [(f1, ((e >>> 6) &&& 0x3f) + 0x80), (f2, (e &&& 0x3f) + 0x80)])
    else
      addUtf8_4 (← res.alt (← tuples f0 (0xe0 + 16) [(f1, 0x80 + 64), (f2, 0x80 + 64)])) 0x10000 e
  else addUtf8_4 res b e

/-- From the two-byte part on (lines 1262-1281). -/
def addUtf8_2 (res : NFA C) (b e : Nat) : Option (NFA C) :=
  if b < 0x800 then do
    let f1 := (b &&& 0x3f) + 0x80
    let f0 := (b >>> 6) + 0xc0
    if e ≤ 0x800 then res.alt (← tuples f0 ((e >>> 6) + 0xc0) [(f1, (e &&& 0x3f) + 0x80)])
    else addUtf8_3 (← res.alt (← tuples f0 (0xc0 + 32) [(f1, 0x80 + 64)])) 0x800 e
  else addUtf8_3 res b e

/-- `addUtf8Range(res, begin, end)` (lines 1247-1312). -/
def addUtf8 (res : NFA C) (b e : Nat) : Option (NFA C) :=
  if b < 0x80 then do
    if e ≤ 0x80 then res.alt (← tuples b e [])
    else addUtf8_2 (← res.alt (← tuples b 0x80 [])) 0x80 e
  else addUtf8_2 res b e

/-- `range` for `SUtf8`, `TUtf8` (lines 1324-1327, 1470-1473). -/
def rangeUtf8 (b e : Nat) : Option (NFA C) := addUtf8 .empty b e

/-- `NFA(range(h, h'))` followed by `<<= NFA(range(l, l'))`. -/
def pairNfa (h h' l l' : Nat) : Option (NFA C) := do (← rangeNfa h h').concat (← rangeNfa l l')

/-- `CS::range(b, e).getUnion(CS::range(b', e'))`. -/
def range2Nfa (b e b' e' : Nat) : Option (NFA C) := do
  return .ofSet (CharSetLike.unite (← (RangeSet.range b e : Option C)) (← RangeSet.range b' e'))

/-- `(((c - 0x10000) & 0xffc00) >> 10) + 0xd800` and `((c - 0x10000) & 0x3ff) + 0xdc00` (lines 1375-1378). -/
def hi (c : Nat) : Nat := (((c - 0x10000) &&& 0xffc00) >>> 10) + 0xd800
def lo (c : Nat) : Nat := ((c - 0x10000) &&& 0x3ff) + 0xdc00

/-- `end < 0x10000` (lines 1339-1365). -/
def utf16Bmp (b e : Nat) : Option (NFA C) :=
  if b ≤ 0xd800 then
    if e ≤ b then some .empty
    else if 0xe000 < e then range2Nfa b 0xd800 0xe000 e
    else rangeNfa b (min e 0xd800)
  else if e ≤ max b 0xe000 then some .empty
  else rangeNfa (max b 0xe000) e

/-- `0x10000 <= begin` (lines 1369-1423). -/
def utf16High (b e : Nat) : Option (NFA C) :=
  if e ≤ b then some .empty
  else if lo e = 0xdc00 then
    if lo b = 0xdc00 then pairNfa (hi b) (hi e) 0xdc00 0xe000
    else do
      let first ← pairNfa (hi b) (hi b + 1) (lo b) 0xe000
      if hi b < hi e then first.alt (← pairNfa (hi b + 1) (hi e + 1) 0xdc00 0xe000) else return first
  else if lo b = 0xdc00 then rangeNfa (hi b) (hi e)
  else do
    let res ← pairNfa (hi b) (hi b + 1) (lo b) (if hi b = hi e then lo e else 0xe000)
    if hi b ≠ hi e then
      let res ← if hi b + 1 ≠ hi e then res.alt (← pairNfa (hi b + 1) (hi e) (lo b) 0xe000) else some res
      res.alt (← pairNfa (hi e) (hi e + 1) (lo b) (lo e))
    else return res

/-- The part in the BMP of the next case (lines 1433-1440). -/
def mixedStart (b : Nat) : Option (NFA C) :=
  if b < 0xd800 then range2Nfa b 0xd800 0xe000 0x10000 else rangeNfa (max b 0xe000) 0x10000

/-- `begin < 0x10000 <= end` (lines 1427-1463). -/
def utf16Mixed (b e : Nat) : Option (NFA C) :=
  if e ≤ b then some .empty
  else do
    let res ← mixedStart b
    if lo e = 0xdc00 then res.alt (← pairNfa 0xd800 (hi e) 0xdc00 0xe000)
    else
      let res ← if 0xd800 < hi e then res.alt (← pairNfa 0xd800 (hi e) 0xdc00 0xe000) else some res
      res.alt (← pairNfa (hi e) (hi e + 1) 0xdc00 (lo e))

/-- `range` for `SUtf16`, `TUtf16`: `UTF16_IMPL` (lines 1331-1466, 1477-1480). -/
def rangeUtf16 (b e : Nat) : Option (NFA C) :=
  if 0x110000 ≤ e ∨ 0x110000 ≤ b then some .empty
  else if e < 0x10000 then utf16Bmp b e
  else if 0x10000 ≤ b then utf16High b e
  else utf16Mixed b e

/-- `character(codepoint)` (lines 1487-1490), for the selected `range`. -/
def character (range : Nat → Nat → Option (NFA C)) (c : Nat) : Option (NFA C) := range c ((c + 1) % 2 ^ 32)

/-- The loop of `collection` (lines 1174-1178). -/
def collectLoop (range : Nat → Nat → Option (NFA C)) : Nat → NFA C → List Nat → Option (NFA C)
  | _, res, [] => some res
  | 0, _, _ :: _ => none
  | fuel + 1, res, s => do
    let (c, s') ← Utf.utf16ToUcs4Next s
    collectLoop range fuel (← res.alt (← range c ((c + 1) % 2 ^ 32))) s'

/-- `collection(str)` (lines 1170-1180). -/
def collection (range : Nat → Nat → Option (NFA C)) (s : List Nat) : Option (NFA C) := collectLoop range s.length .empty s

/-- The loop of `word` (lines 1161-1164), with the iterator `Codec2FromUtf8Iterator<T::codec>::Result`. -/
def wordLoop (next : List Nat → Option (Nat × List Nat)) : Nat → NFA C → List Nat → Option (NFA C)
  | _, res, [] => some res
  | 0, _, _ :: _ => none
  | fuel + 1, res, s => do
    let (c, s') ← next s
    wordLoop next fuel (← res.concat (← chrNfa c)) s'

/-- `word(str)` (lines 1155-1168) from `str.toUtf8()` on.  The iterators (kdev-pg-char-sets.h lines 612-640): `asciiNext` for
ASCII, `unit` for Latin-1 and UTF-8, `ucs2Next` for UCS-2 and (as `T::codec` is `Ucs2` there, too) for UTF-16, `ucs4Next` for
UCS-4. -/
def word (next : List Nat → Option (Nat × List Nat)) (bytes : List Nat) : Option (NFA C) :=
  wordLoop next bytes.length .emptyWord bytes

/-- `ByteStringIterator::next` (kdev-pg-char-sets.h lines 244-247). -/
def unit : List Nat → Option (Nat × List Nat)
  | [] => none
  | c :: s => some (c, s)

/-- `anyChar()` for ASCII, Latin-1, UCS-2, UCS-4 (lines 1184-1187). -/
def anyFixed : NFA C := .ofSet CharSetLike.full

/-- `anyChar()` for UTF-16 (lines 1189-1207); the automaton `surrpairs` is built but not used. -/
def anyUtf16 (order : List Bits → List Bits) (fuel : Nat) : Option (NFA C) := do
  NFA.but order fuel (.ofSet CharSetLike.full) (← rangeNfa 0xd800 0xe000)

/-- `anyChar()` for UTF-8 (lines 1209-1226); the assignment operators associate to the right. -/
def anyUtf8 : Option (NFA C) := do
  let lower ← rangeNfa 0x80 0xc0
  let ascii ← rangeNfa 0 0x7f
  let top2 ← (← rangeNfa 0xc0 0xe0).concat lower
  let top3 ← (← (← rangeNfa 0xe0 0xf0).concat lower).concat lower
  let top4 ← (← (← (← rangeNfa 0xf0 0x100).concat lower).concat lower).concat lower
  ascii.alt (← top2.alt (← top3.alt top4))

end Verif.Enc
