/-!
# Model of `KDevPG::TokenStreamBase<KDevPG::Token>`

Source: `/repo/src/include/kdev-pg-token-stream.h`.  The location table pointer is not modelled here
(see `Verif.LocTable`).  `none` is undefined behaviour (a violated `Q_ASSERT`, or indexing past the end).
References returned by `push`, `read`, `at`, `curr`, `back` are modelled by their value, and writing
through such a reference by `Op.set`.
-/

namespace Verif.TokStream

/-- `class Token` (lines 41-46). -/
structure Tok where
  kind : Int
  begin : Int
  stop : Int
deriving DecidableEq, Repr

/-- Members `mTokenBuffer`, `mIndex`. -/
structure Stream where
  buf : List Tok
  idx : Nat
deriving DecidableEq, Repr

/-- Constructor (lines 59-64). -/
def Stream.init : Stream := ⟨[], 0⟩

/-- `reset` (lines 78-81). -/
def Stream.reset (s : Stream) : Stream := { s with idx := 0 }

/-- `clear` (lines 88-92). -/
def Stream.clear (_ : Stream) : Stream := ⟨[], 0⟩

/-- `size` (lines 97-100). -/
def Stream.size (s : Stream) : Nat := s.buf.length

/-- `rewind` (lines 114-118). -/
def Stream.rewind (s : Stream) (i : Int) : Option Stream :=
  if 0 ≤ i ∧ i ≤ s.size then some { s with idx := i.toNat } else none

/-- `at` (lines 123-136). -/
def Stream.at (s : Stream) (i : Nat) : Option Tok := s.buf[i]?

/-- `push(t)` (lines 152-156). -/
def Stream.push (s : Stream) (t : Tok) : Stream := { s with buf := s.buf ++ [t] }

/-- `read` (lines 161-168): at the end a value-initialised token gets kind 1000 and is pushed. -/
def Stream.read (s : Stream) : Option (Stream × Tok) :=
  let s' := if s.idx = s.size then s.push ⟨1000, 0, 0⟩ else s
  (s'.buf[s'.idx]?).map fun t => ({ s' with idx := s'.idx + 1 }, t)

/-- `curr` (lines 173-177). -/
def Stream.curr (s : Stream) : Option Tok := s.buf[s.idx]?

/-- `back` (lines 182-186). -/
def Stream.back (s : Stream) : Option Tok := s.buf.getLast?

/-- Client operations; `set` writes through a reference to the `i`-th token. -/
inductive Op where
  | push (t : Tok)
  | read
  | rewind (i : Int)
  | reset
  | clear
  | set (i : Nat) (t : Tok)
deriving DecidableEq, Repr

/-- One operation, with the token it returns (`push`, `read`). -/
def Stream.step (s : Stream) : Op → Option (Stream × List Tok)
  | .push t => some (s.push t, [t])
  | .read => s.read.map fun (s, t) => (s, [t])
  | .rewind i => (s.rewind i).map fun s => (s, [])
  | .reset => some (s.reset, [])
  | .clear => some (s.clear, [])
  | .set i t => if i < s.size then some ({ s with buf := s.buf.set i t }, []) else none

def Stream.run (s : Stream) : List Op → Option (Stream × List Tok)
  | [] => some (s, [])
  | o :: os => (s.step o).bind fun (s, ts) => (s.run os).map fun (s, ts') => (s, ts ++ ts')

end Verif.TokStream
