/-!
# Model of the Unicode input iterators

Source: `/repo/src/include/kdev-pg-char-sets.h`.

An iterator is the list of input units from its current position to the end; `hasNext` is "the list is
not empty".  Dereferencing at or beyond the end is `none` ("reads past the end").  Units are natural
numbers; `uchar` values are below 256, `quint16` below 65536.
-/

namespace Verif.Utf

/-- Outcome of decoding one UTF-8 unit group. -/
inductive Dec where
  /-- `chr < 128`: returned at once -/
  | direct (c : Nat)
  /-- a multi-byte group was decoded to `ret` -/
  | ret (r : Nat)
  /-- no lead byte: `goto retry` -/
  | retry
deriving DecidableEq, Repr

/-- The common loop body of the UTF-8 iterators (lines 352-380, 422-450, 496-524), up to `++ptr`. -/
def group : List Nat → Option (Dec × List Nat)
  | [] => none
  | c :: s =>
    if c < 128 then some (.direct c, s)
    else if c &&& 0xe0 = 0xc0 then
      match s with
      | d :: s => some (.ret (((c &&& 0x1f) <<< 6) ||| (d &&& 0x3f)), s)
      | _ => none
    else if c &&& 0xf0 = 0xe0 then
      match s with
      | d :: e :: s =>
        let r := ((c &&& 0x0f) <<< 6) ||| (d &&& 0x3f)
        some (.ret ((r <<< 6) ||| (e &&& 0x3f)), s)
      | _ => none
    else if c &&& 0xf8 = 0xf0 then
      match s with
      | d :: e :: f :: s =>
        let r := ((c &&& 0x0f) <<< 6) ||| (d &&& 0x3f)
        let r := (r <<< 6) ||| (e &&& 0x3f)
        some (.ret ((r <<< 6) ||| (f &&& 0x3f)), s)
      | _ => none
    else some (.retry, s)

theorem group_length {s s' : List Nat} {d : Dec} (h : group s = some (d, s')) : s'.length < s.length := by
  unfold group at h
  repeat' split at h
  all_goals first
    | (simp at h; done)
    | (simp only [Option.some.injEq, Prod.mk.injEq] at h; obtain ⟨_, rfl⟩ := h; simp; omega)
    | (simp only [Option.some.injEq, Prod.mk.injEq] at h; obtain ⟨_, rfl⟩ := h; simp)

/-- `ret - 0xfdd0U` in `quint32` arithmetic. -/
def sub32 (a b : Nat) : Nat := (a + 2 ^ 32 - b) % 2 ^ 32

/-- `(ret & 0xfffe) != 0xfffe && (ret - 0xfdd0U) > 15` (lines 381, 451, 527). -/
def valid (r : Nat) : Bool := (r &&& 0xfffe) != 0xfffe && decide (15 < sub32 r 0xfdd0)

/-- `Utf8ToUcs4Iterator::next` (lines 327-385). -/
def ucs4Next (s : List Nat) : Option (Nat × List Nat) :=
  match _h : group s with
  | none => none
  | some (.direct c, s') => some (c, s')
  | some (.ret r, s') => if valid r then some (r, s') else ucs4Next s'
  | some (.retry, s') => ucs4Next s'
termination_by s.length
decreasing_by all_goals exact group_length _h

/-- `QUtf8ToUcs2Iterator::next` (lines 418-455); the result is narrowed to 16 bits. -/
def ucs2Next (s : List Nat) : Option (Nat × List Nat) :=
  match _h : group s with
  | none => none
  | some (.direct c, s') => some (c, s')
  | some (.ret r, s') => if r ≤ 0xffff ∧ valid r then some (r, s') else ucs2Next s'
  | some (.retry, s') => ucs2Next s'
termination_by s.length
decreasing_by all_goals exact group_length _h

/-- `QChar::highSurrogate(char32_t)`, `QChar::lowSurrogate(char32_t)` of Qt. -/
def highSurrogate (c : Nat) : Nat := ((c >>> 10) + 0xd7c0) % 65536
def lowSurrogate (c : Nat) : Nat := (c % 0x400 + 0xdc00) % 65536

/-- The loop of `QUtf8ToUtf16Iterator::next` (lines 494-536): the unit returned, the pending low
surrogate (0 if none), the rest. -/
def utf16Loop (s : List Nat) : Option (Nat × Nat × List Nat) :=
  match _h : group s with
  | none => none
  | some (.direct c, s') => some (c, 0, s')
  | some (.ret r, s') =>
    if r ≤ 0xffff then (if valid r then some (r, 0, s') else utf16Loop s')
    else some (highSurrogate r, lowSurrogate r, s')
  | some (.retry, s') => utf16Loop s'
termination_by s.length
decreasing_by all_goals exact group_length _h

/-- `QUtf8ToUtf16Iterator::next` (lines 486-537) on (position, `surrogate`). -/
def utf16Next (s : List Nat) (surrogate : Nat) : Option (Nat × Nat × List Nat) :=
  if surrogate ≠ 0 then some (surrogate, 0, s) else utf16Loop s

/-- Body of the loop of `QUtf8ToAsciiIterator::next` for a non-ASCII lead byte (lines 577-593): the three
`if`s are not chained, but at most one applies. -/
def asciiNext (s : List Nat) : Option (Nat × List Nat) :=
  match _h : group s with
  | none => none
  | some (.direct c, s') => some (c, s')
  | some (_, s') => asciiNext s'
termination_by s.length
decreasing_by exact group_length _h

/-- `QChar::isHighSurrogate`, `QChar::surrogateToUcs4` of Qt (32-bit arithmetic). -/
def isHighSurrogate (u : Nat) : Bool := u &&& 0xfffffc00 == 0xd800
def surrogateToUcs4 (h l : Nat) : Nat := sub32 ((h <<< 10) + l) 0x35fdc00

/-- `QUtf16ToUcs4Iterator::next` (lines 283-290). -/
def utf16ToUcs4Next : List Nat → Option (Nat × List Nat)
  | [] => none
  | h :: s =>
    if isHighSurrogate h then
      match s with
      | [] => none
      | l :: s => some (surrogateToUcs4 h l, s)
    else some (h, s)

/-- `while(hasNext()) out << next();` for an iterator without extra state, at most `fuel` steps. -/
def readAll (next : List Nat → Option (Nat × List Nat)) : Nat → List Nat → Option (List Nat)
  | _, [] => some []
  | 0, _ => none
  | fuel + 1, s => (next s).bind fun (c, s') => (readAll next fuel s').map (c :: ·)

/-- The same for `QUtf8ToUtf16Iterator`, whose `hasNext` (lines 538-541) looks at the position only. -/
def readAll16 : Nat → List Nat → Nat → Option (List Nat)
  | _, [], _ => some []
  | 0, _, _ => none
  | fuel + 1, s, sur => (utf16Next s sur).bind fun (c, sur', s') => (readAll16 fuel s' sur').map (c :: ·)

end Verif.Utf
