/-!
# Model of `KDevPG::MemoryPool`

Source: `/repo/src/include/kdev-pg-memory-pool.h`.

A block is addressed by its position in the chain, a byte by (block, offset): distinct blocks come
from distinct `malloc` calls and are disjoint by the contract of `malloc` (failure of `malloc` is not
modelled, nor is pointer overflow in `ptr + size` for requests near 2^64).
`none` is undefined behaviour, or (for `allocFrom`) exhausted fuel.
-/

namespace Verif.MemPool

/-- Conversion of a `qint64` argument to the `int` parameter of `init0` (line 37). -/
def toInt32 (x : Int) : Int := (x + 2 ^ 31) % 2 ^ 32 - 2 ^ 31

/-- `BlockType` (lines 19-26): `blockSize`, the bytes at `data`, `ptr - data`.
`chain` is the next block of the list of blocks. -/
structure Block where
  blockSize : Int
  mem : List UInt8
  used : Nat
deriving DecidableEq, Repr

/-- `init0(block_size)` (lines 28-41): allocate and zero.  A negative size makes `malloc` fail. -/
def init0 (blockSize : Int) : Option Block :=
  if 0 ≤ blockSize then some ⟨blockSize, List.replicate blockSize.toNat 0, 0⟩ else none

/-- `BlockType::allocate` (lines 53-73) started at block `i` of the chain.
Returns the chain and the block and offset handed out (`*right_most` becomes that block). -/
def allocFrom (size : Nat) : Nat → List Block → Nat → Option (List Block × Nat × Nat)
  | 0, _, _ => none
  | fuel + 1, bs, i => do
    let b ← bs[i]?
    if b.blockSize < (b.used + size : Nat) then
      if i + 1 < bs.length then
        allocFrom size fuel bs (i + 1)
      else do
        let nb ← init0 (toInt32 (b.blockSize * 4))
        allocFrom size fuel (bs ++ [nb]) (i + 1)
    else
      return (bs.set i { b with used := b.used + size }, i, b.used)

/-- A region handed out to the client: block, offset, size. -/
structure Region where
  block : Nat
  off : Nat
  size : Nat
deriving DecidableEq, Repr

/-- `MemoryPool` (lines 77-88) together with the regions handed out so far, newest last. -/
structure Pool where
  blocks : List Block
  rightMost : Nat
  given : List Region
deriving DecidableEq, Repr

/-- `MemoryPool()` (line 83): one zeroed block of 256 bytes. -/
def Pool.init : Option Pool := do
  let b ← init0 256
  return ⟨[b], 0, []⟩

/-- `MemoryPool::allocate` (lines 86-87). -/
def Pool.alloc (fuel : Nat) (p : Pool) (size : Nat) : Option Pool := do
  let (bs, i, off) ← allocFrom size fuel p.blocks p.rightMost
  return ⟨bs, i, p.given ++ [⟨i, off, size⟩]⟩

/-- A client writes byte `v` at offset `o` of the `k`-th region it got
(writing outside a region would be the client's fault: `none`). -/
def Pool.write (p : Pool) (k o : Nat) (v : UInt8) : Option Pool := do
  let r ← p.given[k]?
  if o < r.size then
    let b ← p.blocks[r.block]?
    if r.off + o < b.mem.length then
      return { p with blocks := p.blocks.set r.block { b with mem := b.mem.set (r.off + o) v } }
    else none
  else none

/-- Read byte `o` of the `k`-th region. -/
def Pool.read (p : Pool) (k o : Nat) : Option UInt8 := do
  let r ← p.given[k]?
  if o < r.size then
    let b ← p.blocks[r.block]?
    b.mem[r.off + o]?
  else none

/-- Client operations. -/
inductive Op where
  | alloc (size : Nat)
  | write (k o : Nat) (v : UInt8)
deriving DecidableEq, Repr

def Pool.step (fuel : Nat) (p : Pool) : Op → Option Pool
  | .alloc n => p.alloc fuel n
  | .write k o v => p.write k o v

def Pool.run (fuel : Nat) (p : Pool) : List Op → Option Pool
  | [] => some p
  | o :: os => (p.step fuel o).bind fun p' => p'.run fuel os

end Verif.MemPool
