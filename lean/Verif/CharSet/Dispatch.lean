import Verif.CharSet.Lemmas

/-!
# Model of the generated character dispatch

Source: `/repo/src/kdev-pg-regexp-helper.h` lines 547-637 (`CharSetCondition`).

The printed C++ text is modelled by a small abstract syntax with its meaning; `Int` conversions to
`quint64` when printing are value preserving.
-/

namespace Verif.CharSet

/-- The conditions the generator prints. -/
inductive Cond where
  | eq (n : Nat)
  | lt (n : Nat)
  | ge (n : Nat)
  | eq2 (n m : Nat)
  | between (n m : Nat)
deriving DecidableEq, Repr

def Cond.holds (chr : Nat) : Cond → Bool
  | .eq n => chr == n
  | .lt n => chr < n
  | .ge n => n ≤ chr
  | .eq2 n m => chr == n || chr == m
  | .between n m => n ≤ chr && chr < m

/-- The printed code: `goto _state_k`, `goto _end`, `if(..) .. else ..`. -/
inductive Code where
  | goto (k : Nat)
  | fin
  | ite (c : Cond) (t e : Code)
deriving DecidableEq, Repr

/-- Where the code jumps to: `some k` for `_state_k`, `none` for `_end`. -/
def Code.exec (chr : Nat) : Code → Option Nat
  | .goto k => some k
  | .fin => none
  | .ite c t e => if c.holds chr then t.exec chr else e.exec chr

/-- The leaf case `r == l + 1` of `codegen` (lines 579-611). -/
def leaf (a b k tmin tmax : Nat) : Code :=
  if a = tmin then
    if b = tmax then .goto k
    else .ite (if b = a + 1 then .eq a else .lt b) (.goto k) .fin
  else if b = tmax then .ite (if b = a + 1 then .eq a else .ge a) (.goto k) .fin
  else .ite (if a + 1 = b then .eq a else if a + 2 = b then .eq2 a (a + 1) else .between a b) (.goto k) .fin

/-- `codegen(data, l, r, tmin, tmax)` (lines 575-621).  The argument is the slice `data[l..r)`; `mid - l` is half
its length. -/
def codegen (seg : List ((Nat × Nat) × Nat)) (tmin tmax : Nat) : Code :=
  match seg with
  | [] => .fin
  | [((a, b), k)] => leaf a b k tmin tmax
  | p :: q :: l =>
    let seg := p :: q :: l
    match seg[seg.length / 2]? with
    | none => .fin
    | some m => .ite (.lt m.1.1) (codegen (seg.take (seg.length / 2)) tmin m.1.1)
        (codegen (seg.drop (seg.length / 2)) m.1.1 tmax)
termination_by seg.length
decreasing_by
  all_goals simp only [List.length_take, List.length_drop, List.length_cons]; omega

/-- The lexicographic order of `std::pair<std::pair<Int, Int>, size_t>`. -/
def pairLe (x y : (Nat × Nat) × Nat) : Bool :=
  x.1.1 < y.1.1 || (x.1.1 == y.1.1 && (x.1.2 < y.1.2 || (x.1.2 == y.1.2 && x.2 ≤ y.2)))

/-- `operator()` of the sequence version (lines 627-637). -/
def seqDispatch (S : Nat) (tr : List (Seq × Nat)) : Code :=
  codegen ((tr.flatMap fun p => p.1.data.map fun r => (r, p.2)).mergeSort pairLe) 0 S

/-- The table version (lines 547-569): groups of case labels with their target. -/
def tableDispatch {S : Nat} (tr : List (Table S × Nat)) : List (List Nat × Nat) :=
  (tr.filter fun p => !p.1.empty).map fun p =>
    (((List.finRange S).filter fun i => p.1.data i).map Fin.val, p.2)

/-- The meaning of the `switch`. -/
def switchExec (chr : Nat) (sw : List (List Nat × Nat)) : Option Nat :=
  (sw.find? fun g => g.1.contains chr).map (·.2)

/-- C++ rejects a switch with a repeated case label. -/
def switchValid (sw : List (List Nat × Nat)) : Prop := (sw.flatMap (·.1)).Nodup

end Verif.CharSet
