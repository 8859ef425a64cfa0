/-!
# Model of `BitArray`

Source: `/repo/src/kdev-pg-bit-array.h`.

`size_t` has 64 bits and words are little endian (x86-64).  `none` is undefined behaviour: access outside
the allocated bytes, or a shift by the full word width.  `malloc`/`realloc` do not fail; fresh memory from
`realloc` is always overwritten by `memset` (or unused), so it is modelled by zero bytes.
-/

namespace Verif.BitArr

/-- Members `mSize`, and the bytes at `mByte`. -/
structure BA where
  size : Nat
  mem : List (BitVec 8)
deriving DecidableEq, Repr

/-- `words(n)` (lines 25-28). -/
def words (n : Nat) : Nat := (n + 64 - 1) / 64

/-- `bytes(n)` (lines 33-36). -/
def bytes (n : Nat) : Nat := words n * 8

/-- Value of a little-endian word. -/
def wordVal : List (BitVec 8) → Nat
  | [] => 0
  | b :: bs => b.toNat + 256 * wordVal bs

/-- The first `k` words of the array. -/
def wordList : Nat → List (BitVec 8) → List Nat
  | 0, _ => []
  | k + 1, m => wordVal (m.take 8) :: wordList k (m.drop 8)

/-- `setZerosAtEnd` (lines 41-44), called only on zeroed memory: it has no effect there, but is
undefined for size 0 (word index wraps around) and for multiples of 64 (shift by 64). -/
def setZerosAtEnd (a : BA) : Option BA :=
  if a.size % 64 = 0 then none else some a

/-- `BitArray(size)` (lines 69-73). -/
def BA.new (size : Nat) : Option BA := setZerosAtEnd ⟨size, List.replicate (bytes size) 0⟩

/-- `BitArray()` (lines 74-76). -/
def BA.empty : BA := ⟨0, []⟩

/-- `operator[] const` (lines 127-132). -/
def BA.get (a : BA) (x : Nat) : Option Bool :=
  (a.mem[x / 8]?).map fun b => (b &&& (1#8 <<< (x % 8))) == (1#8 <<< (x % 8))

/-- `operator[]` followed by `BitRef::operator=` (lines 56-63, 133-138). -/
def BA.set (a : BA) (x : Nat) (v : Bool) : Option BA :=
  (a.mem[x / 8]?).map fun b =>
    { a with mem := a.mem.set (x / 8) (if v then b ||| (1#8 <<< (x % 8)) else b &&& ~~~ (1#8 <<< (x % 8))) }

/-- `resize` (lines 139-147). -/
def BA.resize (a : BA) (size : Nat) : BA :=
  ⟨size, a.mem.take (bytes size) ++ List.replicate (bytes size - a.mem.length) 0⟩

/-- The loops of `operator==` and `operator<` over the words. -/
def eqWords : List Nat → List Nat → Bool
  | x :: xs, y :: ys => if x ≠ y then false else eqWords xs ys
  | _, _ => true

def ltWords : List Nat → List Nat → Bool
  | x :: xs, y :: ys => if x < y then true else if y < x then false else ltWords xs ys
  | _, _ => false

/-- `operator==` (lines 104-117). -/
def BA.eq (a b : BA) : Bool :=
  if b.size ≠ a.size then false
  else if a.size = 0 then true
  else eqWords (wordList (words a.size) a.mem) (wordList (words a.size) b.mem)

/-- `operator<` (lines 82-99). -/
def BA.lt (a b : BA) : Bool :=
  if a.size < b.size then true
  else if b.size < a.size then false
  else if a.size = 0 then false
  else ltWords (wordList (words a.size) a.mem) (wordList (words a.size) b.mem)

/-- `hash<BitArray>` (lines 158-167). -/
def BA.hash (a : BA) : BitVec 64 :=
  (wordList (words a.size) a.mem).foldl
    (fun ret w => let r := ret ^^^ BitVec.ofNat 64 w
                  (r >>> (64 - 17)) ||| (r <<< 17)) 0

/-- Client operations. -/
inductive Op where
  | write (i : Nat) (v : Bool)
  | resize (n : Nat)
deriving DecidableEq, Repr

def BA.step (a : BA) : Op → Option BA
  | .write i v => a.set i v
  | .resize n => some (a.resize n)

def BA.run (a : BA) : List Op → Option BA
  | [] => some a
  | o :: os => (a.step o).bind fun a => a.run os

end Verif.BitArr
