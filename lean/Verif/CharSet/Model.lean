/-!
# Model of the character sets of the lexer generator

Source: `/repo/src/kdev-pg-regexp-helper.h` (`SeqCharSet`, `TableCharSet`).

The code space of the encoding is `0 .. S-1` with `S = Codec2Size<codec>::value`.  `Codec2Int` is wide
enough for `S`, so `Int` is modelled by `Nat`.  A `std::vector` with positions `tpos`, `opos` is modelled
by the list of its remaining elements, and `ret.data.push_back(p)` by putting `p` in front of what is
pushed later.
-/

namespace Verif.CharSet

/-- `data` of a `SeqCharSet`: half-open ranges (line 73). -/
abbrev Ranges := List (Nat × Nat)

/-- `SeqCharSet` (lines 73-74). -/
structure Seq where
  data : Ranges
  eps : Bool
deriving DecidableEq, Repr

/-- Constructors (lines 93-122). -/
def Seq.epsilonSet : Seq := ⟨[], true⟩
def Seq.emptySet : Seq := ⟨[], false⟩
def Seq.single (c : Nat) : Seq := ⟨[(c, c + 1)], false⟩
def Seq.fullSet (S : Nat) : Seq := ⟨[(0, S)], false⟩
def Seq.range (b e : Nat) : Seq := ⟨if b < e then [(b, e)] else [], false⟩

/-- `SeqCharSet(const QString&)` (lines 79-92) on the sorted code units; `last = -1` is no code unit. -/
def ofSorted : List Nat → Ranges → Option Nat → Ranges
  | [], data, _ => data
  | x :: xs, data, last =>
    if some x = last then
      match data.getLast? with
      | none => data
      | some p => ofSorted xs (data.dropLast ++ [(p.1, p.2 + 1)]) (some (p.2 + 1))
    else ofSorted xs (data ++ [(x, x + 1)]) (some (x + 1))

def Seq.ofString (units : List Nat) : Seq := ⟨ofSorted (units.mergeSort (· ≤ ·)) [] none, false⟩

/-- `empty()` (lines 133-136). -/
def Seq.empty (s : Seq) : Bool := s.data.isEmpty

/-- The binary search of `accepts` (lines 137-153).  `m` is in range whenever `r ≤ data.size()`, which
holds initially and is kept by the loop, so the `none` case below is never reached from `accepts`. -/
def acceptsLoop (data : Ranges) (x l r : Nat) : Bool :=
  if _h : l < r then
    match data[(l + r) / 2]? with
    | none => false
    | some (a, b) =>
      if a ≤ x then
        if x < b then true else acceptsLoop data x ((l + r) / 2 + 1) r
      else acceptsLoop data x l ((l + r) / 2)
  else false
termination_by r - l
decreasing_by all_goals omega

def Seq.accepts (s : Seq) (x : Nat) : Bool := acceptsLoop s.data x 0 s.data.length

/-- `intersection` (lines 154-176). -/
def interLoop : Ranges → Ranges → Ranges
  | [], _ => []
  | _, [] => []
  | (a, b) :: t, (c, d) :: o =>
    if d ≤ a then interLoop ((a, b) :: t) o
    else if b ≤ c then interLoop t ((c, d) :: o)
    else (max c a, min d b) ::
      (if d < b then interLoop ((a, b) :: t) o else interLoop t ((c, d) :: o))
termination_by t o => t.length + o.length

def Seq.intersection (s o : Seq) : Seq := ⟨interLoop s.data o.data, false⟩

/-- Shifted ranges of `negate` when the first range starts at 0 (lines 192-203). -/
def negateZero (S : Nat) : Ranges → Ranges
  | [] => []
  | [(_, b)] => if b = S then [] else [(b, S)]
  | (_, b) :: (c, d) :: l => (b, c) :: negateZero S ((c, d) :: l)

/-- The loop of `negate` otherwise (lines 207-214): the list and the final `tmpfirst`. -/
def negateLoop : Nat → Ranges → Ranges × Nat
  | tmp, [] => ([], tmp)
  | tmp, (a, b) :: l => let (r, t) := negateLoop b l; ((tmp, a) :: r, t)

/-- `negate` (lines 182-220). -/
def Seq.negate (S : Nat) (s : Seq) : Seq :=
  if s.eps then s
  else
    match s.data with
    | [] => ⟨[(0, S)], false⟩
    | (a, b) :: l =>
      if a = 0 then ⟨negateZero S ((a, b) :: l), false⟩
      else
        let (r, tmpfirst) := negateLoop 0 ((a, b) :: l)
        match r.getLast? with
        | none => ⟨r, false⟩
        | some p => ⟨if p.2 ≠ S then r ++ [(tmpfirst, S)] else r, false⟩

/-- `difference` (lines 221-297); `start` is `size_t(-1)` at first, never used then. -/
def diffLoop : Ranges → Ranges → Bool → Bool → Nat → Ranges
  | [], _, _, _, _ => []
  | (a, b) :: t, [], inT, _, start => if inT then (start, b) :: t else (a, b) :: t
  | (a, b) :: t, (c, d) :: o, true, true, start =>
    if b ≤ d then diffLoop t ((c, d) :: o) false true start
    else diffLoop ((a, b) :: t) o true false d
  | (a, b) :: t, (c, d) :: o, true, false, start =>
    if b ≤ c then
      (if start ≠ b then [(start, b)] else []) ++ diffLoop t ((c, d) :: o) false false start
    else
      (if start < c then [(start, c)] else []) ++ diffLoop ((a, b) :: t) ((c, d) :: o) true true start
  | (a, b) :: t, (c, d) :: o, false, true, start =>
    if d ≤ a then diffLoop ((a, b) :: t) o false false start
    else diffLoop ((a, b) :: t) ((c, d) :: o) true true d
  | (a, b) :: t, (c, d) :: o, false, false, start =>
    if a < c then diffLoop ((a, b) :: t) ((c, d) :: o) true false a
    else diffLoop ((a, b) :: t) ((c, d) :: o) false true start
termination_by t o inT inO _ => 2 * (t.length + o.length) + 2 - inT.toNat - inO.toNat

def Seq.difference (s o : Seq) : Seq := ⟨diffLoop s.data o.data false false 0, false⟩

/-- After the loop of `getUnion` (lines 368-375). -/
def unionEnd (inT inO : Bool) (start : Nat) (t o : Ranges) : Ranges :=
  (match t with
    | [] => []
    | (a, b) :: t => if inT then (start, b) :: t else (a, b) :: t) ++
  (match o with
    | [] => []
    | (c, d) :: o => if inO then (start, d) :: o else (c, d) :: o)

/-- `getUnion` (lines 298-377). -/
def unionLoop : Ranges → Ranges → Bool → Bool → Nat → Ranges
  | [], o, inT, inO, start => unionEnd inT inO start [] o
  | t, [], inT, inO, start => unionEnd inT inO start t []
  | (a, b) :: t, (c, d) :: o, true, true, start =>
    if b ≤ d then unionLoop t ((c, d) :: o) false true start
    else unionLoop ((a, b) :: t) o true false start
  | (a, b) :: t, (c, d) :: o, true, false, start =>
    if b < c then
      (if start ≠ b then [(start, b)] else []) ++ unionLoop t ((c, d) :: o) false false start
    else unionLoop ((a, b) :: t) ((c, d) :: o) true true start
  | (a, b) :: t, (c, d) :: o, false, true, start =>
    if d < a then
      (if start ≠ d then [(start, d)] else []) ++ unionLoop ((a, b) :: t) o false false start
    else unionLoop ((a, b) :: t) ((c, d) :: o) true true start
  | (a, b) :: t, (c, d) :: o, false, false, _ =>
    if a < c then unionLoop ((a, b) :: t) ((c, d) :: o) true false a
    else unionLoop ((a, b) :: t) ((c, d) :: o) false true c
termination_by t o inT inO _ => 2 * (t.length + o.length) + 2 - inT.toNat - inO.toNat

def Seq.getUnion (s o : Seq) : Seq := ⟨unionLoop s.data o.data false false 0, false⟩

/-- `unite` (lines 378-382) keeps the epsilon flag. -/
def Seq.unite (s o : Seq) : Seq := { s with data := (s.getUnion o).data }

/-- `operator==` (lines 383-386). -/
def Seq.eq (s o : Seq) : Bool := s.eps == o.eps && s.data == o.data

/-! ### `TableCharSet`

A `std::bitset<S>` is a function on `Fin S`. -/

/-- `TableCharSet` (lines 430-431). -/
structure Table (S : Nat) where
  data : Fin S → Bool
  eps : Bool

variable {S : Nat}

def Table.emptySet : Table S := ⟨fun _ => false, false⟩
def Table.fullSet : Table S := ⟨fun _ => true, false⟩

/-- `data[i] = true`; an index outside the bitset is undefined behaviour. -/
def setBit (d : Fin S → Bool) (i : Nat) : Option (Fin S → Bool) :=
  if h : i < S then some fun j => if j = ⟨i, h⟩ then true else d j else none

/-- The loop of `range` (lines 469-471). -/
def setRange (d : Fin S → Bool) (i : Nat) : Nat → Option (Fin S → Bool)
  | 0 => some d
  | n + 1 => (setBit d i).bind fun d => setRange d (i + 1) n

def Table.range (b e : Nat) : Option (Table S) :=
  (if b < e then setRange (fun _ => false) b (e - b) else some fun _ => false).map fun d => ⟨d, false⟩

/-- `TableCharSet(Int)` (lines 447-450). -/
def Table.single (c : Nat) : Option (Table S) := (setBit (fun _ => false) c).map fun d => ⟨d, false⟩

/-- `TableCharSet(const QString&)` (lines 437-446) on the code units. -/
def setUnits (d : Fin S → Bool) : List Nat → Option (Fin S → Bool)
  | [] => some d
  | u :: us => (setBit d u).bind fun d => setUnits d us

def Table.ofString (us : List Nat) : Option (Table S) :=
  (setUnits (fun _ => false) us).map fun d => ⟨d, false⟩

/-- `accepts` (lines 480-483). -/
def Table.accepts (t : Table S) (x : Nat) : Option Bool := if h : x < S then some (t.data ⟨x, h⟩) else none

/-- `negate` (475-479), `intersection` (497-502), `difference` (503-509), `getUnion` (510-515). -/
def Table.negate (t : Table S) : Table S := { t with data := fun i => !t.data i }
def Table.intersection (t o : Table S) : Table S := { t with data := fun i => t.data i && o.data i }
def Table.difference (t o : Table S) : Table S := { o with data := fun i => !o.data i && t.data i }
def Table.getUnion (t o : Table S) : Table S := { t with data := fun i => t.data i || o.data i }

/-- `empty` (lines 484-487): comparison with the all-zero bitset. -/
def Table.empty (t : Table S) : Bool := (List.finRange S).all fun i => t.data i == false

/-- `operator==` (lines 521-524). -/
def Table.eq (t o : Table S) : Bool := t.eps == o.eps && (List.finRange S).all fun i => t.data i == o.data i

end Verif.CharSet
