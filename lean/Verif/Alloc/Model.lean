/-!
# Model of `KDevPG::Allocator<T>`

Source: `/repo/src/include/kdev-pg-allocator.h`.

Addresses are natural numbers; `env k` is the address returned by the `k`-th `new char[sBlockSize]`
(line 81).  `sizeType` arithmetic wraps at 2^64.  Memory contents are not modelled.  `none` is undefined
behaviour.
-/

namespace Verif.Alloc

/-- `sBlockSize` (line 133). -/
def blockSize : Nat := 65536

/-- `sizeType` is 64 bits wide. -/
def word : Nat := 2 ^ 64

/-- Members (lines 122-128).  `sStorage` is the list of blocks, `none` stands for the null pointer;
`sCurrentBlock` is null or the block at `sBlockIndex`. -/
structure State where
  sBlockIndex : Nat
  sCurrentIndex : Nat
  sStorage : Option (List Nat)
  sCurrentBlock : Option Nat
deriving DecidableEq, Repr

/-- Constructor (lines 33-39). -/
def State.init : State := ⟨word - 1, 0, none, none⟩

/-- Lines 75-84: a new block (`realloc` keeps the old entries). -/
def State.newBlock (env : Nat → Nat) (s : State) : State :=
  let i := (s.sBlockIndex + 1) % word
  let old := match s.sStorage with
    | none => []
    | some l => l
  let storage := old.take i ++ [env i]
  ⟨i, 0, some storage, some (env i)⟩

/-- Lines 87-92. -/
def State.take (s : State) (bytes : Nat) : Option (State × Nat) :=
  match s.sCurrentBlock with
  | none => none
  | some b => some ({ s with sCurrentIndex := (s.sCurrentIndex + bytes) % word }, b + s.sCurrentIndex)

/-- `allocate` (lines 68-93) for `sizeof(T) = sz`: the new state and the pointer returned. -/
def State.allocate (env : Nat → Nat) (sz : Nat) (s : State) (n : Nat) : Option (State × Nat) :=
  let bytes := n * sz % word
  if s.sCurrentBlock = none ∨ blockSize < (s.sCurrentIndex + bytes) % word then
    (s.newBlock env).take bytes
  else
    s.take bytes

/-- Loop of `contains` (lines 53-55) from index `i` on, `k` iterations left. -/
def containsFrom (l : List Nat) (p : Nat) : Nat → Nat → Option Bool
  | 0, _ => some false
  | k + 1, i =>
    match l[i]? with
    | none => none
    | some b => if b ≤ p ∧ p < b + blockSize then some true else containsFrom l p k (i + 1)

/-- `contains` (lines 51-57).  With `sStorage` null the first iteration dereferences null. -/
def State.contains (s : State) (p : Nat) : Option Bool :=
  match s.sStorage with
  | none => none
  | some l => containsFrom l p (s.sBlockIndex + 1) 0

/-- A client allocates objects; the pointers returned, with the sizes in bytes. -/
def State.run (env : Nat → Nat) (sz : Nat) (s : State) : List Nat → Option (State × List (Nat × Nat))
  | [] => some (s, [])
  | n :: ns => (s.allocate env sz n).bind fun (s, p) =>
      (s.run env sz ns).map fun (s, ps) => (s, (p, n * sz) :: ps)

end Verif.Alloc
