import Verif.Auto.Det

set_option linter.unusedSectionVars false

/-!
# Model of the checks on `NFA<CharSet>`: `acceptsEpsilon`, `isEmpty`, `minLength`, `isUnbounded`, `maxLength`

Source: `/repo/src/kdev-pg-regexp.cpp` lines 683-838.  `int` is unbounded.
-/

namespace Verif.Auto

variable {C : Type} [CharSetLike C]

/-- The common loop of `acceptsEpsilon` (lines 689-704) and `isEmpty` (lines 712-727): is an accepting state found
following the transitions satisfying `p`? -/
def searchLoop (p : C → Bool) (rs : Rules C) (accept : Nat) (s : Bits) : List Nat → Option Bool
  | [] => some false
  | x :: todo =>
    if accept ≤ x then some true
    else
      match rs[x]? with
      | none => none
      | some es =>
        match _h : scan p es s todo with
        | none => none
        | some (s', todo') => searchLoop p rs accept s' todo'
termination_by todo => 2 * s.count false + todo.length
decreasing_by
  have := scan_measure _h
  simp only [List.length_cons]
  omega

/-- `acceptsEpsilon()` (lines 683-705). -/
def NFA.acceptsEpsilon (n : NFA C) : Option Bool := do
  searchLoop CharSetLike.isEps n.rules n.accept (← single n.nstates 0) [0]

/-- `isEmpty()` (lines 706-728). -/
def NFA.isEmpty (n : NFA C) : Option Bool := do
  return !(← searchLoop (fun _ => true) n.rules n.accept (← single n.nstates 0) [0])

/-! ### `minLength` -/

/-- The loop over the rules of one state (lines 744-754): the visited states and the two queues. -/
def scan2 : List (C × Nat) → Bits → List Nat → List Nat → Option (Bits × List Nat × List Nat)
  | [], s, t0, t1 => some (s, t0, t1)
  | (c, j) :: es, s, t0, t1 =>
    match s[j]? with
    | none => none
    | some true => scan2 es s t0 t1
    | some false =>
      if CharSetLike.isEps c then scan2 es (s.set j true) (t0 ++ [j]) t1
      else scan2 es (s.set j true) t0 (t1 ++ [j])

theorem scan2_measure {es : List (C × Nat)} {s s' : Bits} {t0 t1 t0' t1' : List Nat} (h : scan2 es s t0 t1 = some (s', t0', t1')) :
    s'.count false + t0'.length + t1'.length = s.count false + t0.length + t1.length := by
  induction es generalizing s t0 t1 with
  | nil => simp [scan2] at h; obtain ⟨rfl, rfl, rfl⟩ := h; rfl
  | cons e es ih =>
    obtain ⟨c, j⟩ := e
    simp only [scan2] at h
    split at h
    · cases h
    · exact ih h
    · rename_i hj
      have hlt := (List.getElem?_eq_some_iff.mp hj).1
      have hv := (List.getElem?_eq_some_iff.mp hj).2
      have hc : 0 < s.count false := List.count_pos_iff.mpr (hv ▸ List.getElem_mem hlt)
      split at h
      all_goals
        have := ih h
        rw [List.count_set hlt] at this
        simp [hv] at this
        omega

/-- The loop of `minLength` (lines 737-759); the result -1 is `none`. -/
def minLenLoop (rs : Rules C) (accept : Nat) (s : Bits) (len : Nat) (t0 t1 : List Nat) : Option (Option Nat) :=
  match t0 with
  | [] => some none
  | x :: t0 =>
    if accept ≤ x then some (some len)
    else
      match rs[x]? with
      | none => none
      | some es =>
        match _h : scan2 es s t0 t1 with
        | none => none
        -- `if(todo0->empty()) { ++length; swap(todo0, todo1); }`
        | some (s', [], t1') => minLenLoop rs accept s' (len + 1) t1' []
        | some (s', y :: t0', t1') => minLenLoop rs accept s' len (y :: t0') t1'
termination_by s.count false + t0.length + t1.length
decreasing_by
  all_goals
    have := scan2_measure _h
    simp only [List.length_cons, List.length_nil] at this ⊢
    omega

/-- `minLength()` (lines 729-761); `some none` is -1. -/
def NFA.minLength (n : NFA C) : Option (Option Nat) := do
  minLenLoop n.rules n.accept (← single n.nstates 0) 0 [0] []

/-! ### `maxLength` -/

mutual
/-- `unboundedCheck(x, vis)` (lines 763-776).  `vis` is unchanged after a call that returns `false`, and not looked at
after one that returns `true`.  The fuel bounds the depth of the recursion. -/
def unbCheck (rs : Rules C) : Nat → Bits → Nat → Option Bool
  | 0, _, _ => none
  | fuel + 1, vis, x =>
    if x < vis.length then
      match rs[x]? with
      | none => none
      | some es => unbEdges rs fuel (vis.set x true) es
    else none
termination_by fuel => (fuel, 0)

/-- The loop over the rules (lines 766-773). -/
def unbEdges (rs : Rules C) : Nat → Bits → List (C × Nat) → Option Bool
  | _, _, [] => some false
  | fuel, vis, (_, j) :: es =>
    match vis[j]? with
    | none => none
    | some true => some true
    | some false =>
      match unbCheck rs fuel vis j with
      | none => none
      | some true => some true
      | some false => unbEdges rs fuel vis es
termination_by fuel _ es => (fuel, es.length + 1)
end

/-- `isUnbounded()` (lines 778-782). -/
def NFA.isUnbounded (n : NFA C) (fuel : Nat) : Option Bool := unbCheck n.rules fuel (List.replicate n.nstates false) 0

/-- `brules`: the reversed transitions (lines 793-801). -/
def backRules (N : Nat) (rs : Rules C) (x : Nat) : List (C × Nat) :=
  ((List.range N).zip (rs.take N)).flatMap fun e => (e.2.filter fun r => r.2 == x).map fun r => (r.1, e.1)

/-- The loop over the reversed rules of one state (lines 812-829): distances and queues. -/
def backScan (len : Nat) : List (C × Nat) → List Int → List Nat → List Nat → Option (List Int × List Nat × List Nat)
  | [], dist, t0, t1 => some (dist, t0, t1)
  | (c, y) :: es, dist, t0, t1 =>
    match dist[y]? with
    | none => none
    | some d =>
      if CharSetLike.isEps c then
        if d < len then backScan len es (dist.set y len) (t0 ++ [y]) t1 else backScan len es dist t0 t1
      else if d ≤ len then backScan len es (dist.set y (len + 1)) t0 (t1 ++ [y]) else backScan len es dist t0 t1

/-- The loop of `maxLength` (lines 808-835). -/
def maxLenLoop (N : Nat) (rs : Rules C) : Nat → Nat → List Int → List Nat → List Nat → Option (List Int)
  | _, _, dist, [], _ => some dist
  | 0, _, _, _ :: _, _ => none
  | fuel + 1, len, dist, x :: t0, t1 =>
    match backScan len (backRules N rs x) dist t0 t1 with
    | none => none
    | some (dist', [], t1') => maxLenLoop N rs fuel (len + 1) dist' t1' []
    | some (dist', y :: t0', t1') => maxLenLoop N rs fuel len dist' (y :: t0') t1'

/-- `maxLength()` (lines 783-838). -/
def NFA.maxLength (n : NFA C) (fuel : Nat) : Option Int := do
  if ← n.isUnbounded (n.nstates + 1) then return -2
  if ← n.isEmpty then return -1
  let acc := (List.range (n.nstates - n.accept)).map (n.accept + ·)
  let dist := (List.range n.nstates).map fun i => if n.accept ≤ i then 0 else -1
  (← maxLenLoop n.nstates n.rules fuel 0 dist acc [])[0]?

end Verif.Auto
