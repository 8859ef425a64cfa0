import Verif.Auto.Refine

/-!
# Model of `DFA<CharSet>`: removing states, conversion back, complement

Source: `/repo/src/kdev-pg-regexp.cpp` lines 217-297 and 839-910.
-/

namespace Verif.Auto

variable {C : Type} [CharSetLike C]

/-- State of the compaction loop of `filterStates`. -/
structure Compact (C : Type) where
  curr : Nat
  rules : Rules C
  accept : List Nat
  mapping : List Nat

/-- The compaction loop (lines 222-231), in place, over the given indices. -/
def compactLoop (active : Bits) : List Nat → Compact C → Option (Compact C)
  | [], k => some k
  | i :: is, k =>
    match active[i]? with
    | none => none
    | some false => compactLoop active is k
    | some true => do
      let r ← k.rules[i]?
      let a ← k.accept[i]?
      if k.curr < k.rules.length ∧ k.curr < k.accept.length ∧ i < k.mapping.length then
        compactLoop active is ⟨k.curr + 1, k.rules.set k.curr r, k.accept.set k.curr a, k.mapping.set i k.curr⟩
      else none

/-- The transitions kept, renumbered (lines 235-244). -/
def keepRules (active : Bits) (mapping : List Nat) : List (C × Nat) → Option (List (C × Nat))
  | [] => some []
  | (c, j) :: es =>
    match active[j]? with
    | none => none
    | some false => keepRules active mapping es
    | some true => do
      let m ← mapping[j]?
      return (c, m) :: (← keepRules active mapping es)

/-- `filterStates(active)` (lines 217-246). -/
def DFA.filterStates (d : DFA C) (active : Bits) : Option (DFA C) := do
  let k ← compactLoop active (List.range d.nstates) ⟨0, d.rules, d.accept, List.replicate d.nstates 0⟩
  -- `resize(curr)`: `curr` is at most the old size
  let rules ← (k.rules.take k.curr).mapM (keepRules active k.mapping)
  return ⟨k.curr, rules, d.numActions, k.accept.take k.curr⟩

/-- `eliminateUnarrivableStates()` (lines 248-268). -/
def DFA.eliminateUnarrivable (d : DFA C) : Option (DFA C) := do
  let s ← single d.nstates 0
  let arrivable ← closureLoop (fun _ => true) d.rules s [0]
  d.filterStates arrivable

/-- Is a target of the rules active? (lines 284-292); `none`: out of bounds. -/
def anyActive (active : Bits) : List (C × Nat) → Option Bool
  | [] => some false
  | (_, j) :: es =>
    match active[j]? with
    | none => none
    | some true => some true
    | some false => anyActive active es

/-- One sweep (lines 280-294); the second component is `changed`. -/
def sweep (rs : Rules C) : List Nat → Bits → Bool → Option (Bits × Bool)
  | [], act, ch => some (act, ch)
  | i :: is, act, ch =>
    match act[i]? with
    | none => none
    | some true => sweep rs is act ch
    | some false =>
      match rs[i]? with
      | none => none
      | some es =>
        match anyActive act es with
        | none => none
        | some true => sweep rs is (act.set i true) true
        | some false => sweep rs is act ch

omit [CharSetLike C] in
theorem sweep_measure {rs : Rules C} {is : List Nat} {act act' : Bits} {ch ch' : Bool} (h : sweep rs is act ch = some (act', ch')) :
    act'.count false ≤ act.count false ∧ (ch = false → ch' = true → act'.count false < act.count false) := by
  induction is generalizing act ch with
  | nil => simp [sweep] at h; obtain ⟨rfl, rfl⟩ := h; exact ⟨Nat.le_refl _, fun h h' => by simp [h] at h'⟩
  | cons i is ih =>
    simp only [sweep] at h
    split at h
    · cases h
    · exact ih h
    · rename_i hi
      split at h
      · cases h
      · split at h
        · cases h
        · have hlt := (List.getElem?_eq_some_iff.mp hi).1
          have hv := (List.getElem?_eq_some_iff.mp hi).2
          have := (ih h).1
          rw [List.count_set hlt] at this
          have hc : 0 < act.count false := List.count_pos_iff.mpr (hv ▸ List.getElem_mem hlt)
          simp [hv] at this
          exact ⟨by omega, fun _ _ => by omega⟩
        · exact ih h

/-- The loop of `eliminateInactiveStates` (lines 277-295). -/
def activeLoop (rs : Rules C) (N : Nat) (act : Bits) : Option Bits :=
  match _h : sweep rs (List.range N) act false with
  | none => none
  | some (act', true) => activeLoop rs N act'
  | some (act', false) => some act'
termination_by act.count false
decreasing_by exact (sweep_measure _h).2 rfl rfl

/-- `eliminateInactiveStates()` (lines 270-297). -/
def DFA.eliminateInactive (d : DFA C) : Option (DFA C) := do
  if d.accept.length < d.nstates then none
  let act ← activeLoop d.rules d.nstates ((d.accept.take d.nstates).map (· != 0))
  d.filterStates act

/-- The loop of `nfa()` (lines 894-903): number of states and rules. -/
def nfaLoop (N : Nat) : List (Nat × Nat) → Nat → Rules C → Option (Nat × Rules C)
  | [], ns, rs => some (ns, rs)
  | (i, a) :: l, ns, rs =>
    let ns' := if ns < N + a then N + a else ns
    let rs' := if ns < N + a then resize rs (N + a) else rs
    if a = 0 then nfaLoop N l ns' rs'
    else do nfaLoop N l ns' (← pushAt rs' i (CharSetLike.eps, N + a - 1))

/-- `DFA::nfa()` (lines 885-910). -/
def DFA.nfa (d : DFA C) : Option (NFA C) :=
  if d.nstates = 0 then some .empty
  else if d.accept.length < d.nstates then none
  else do
    let (ns, rs) ← nfaLoop d.nstates ((List.range d.nstates).zip d.accept) d.nstates d.rules
    if ns = d.nstates then return ⟨ns + 1, rs ++ [[]], d.nstates⟩
    else return ⟨ns, rs, d.nstates⟩

/-- The set of characters without transition (lines 855-861). -/
def restSet (es : List (C × Nat)) : C := es.foldl (fun s e => CharSetLike.interNeg s e.1) CharSetLike.full

/-- `negate()` up to the removal of states (lines 841-864). -/
def DFA.complete (d : DFA C) : DFA C :=
  let rules := d.rules ++ [[(CharSetLike.full, d.nstates)]]
  ⟨d.nstates + 1,
   rules.map fun es => if CharSetLike.empty (restSet es) then es else es ++ [(restSet es, d.nstates)],
   d.numActions,
   d.accept.map (fun a => if a = 0 then 1 else 0) ++ [1]⟩

/-- `negate()` (lines 839-868). -/
def NFA.negate (order : List Bits → List Bits) (fuel : Nat) (n : NFA C) : Option (NFA C) := do
  let d ← n.dfa order fuel
  let d ← d.complete.eliminateUnarrivable
  let d ← d.eliminateInactive
  d.nfa

/-- `operator&=` (lines 869-877). -/
def NFA.and (order : List Bits → List Bits) (fuel : Nat) (n o : NFA C) : Option (NFA C) := do
  let o' ← o.negate order fuel
  let n' ← n.negate order fuel
  (← n'.alt o').negate order fuel

/-- `operator^=` (lines 878-882). -/
def NFA.but (order : List Bits → List Bits) (fuel : Nat) (n o : NFA C) : Option (NFA C) := do
  let n' ← n.negate order fuel
  (← n'.alt o).negate order fuel

/-- The first rule accepting a character (lines 172-180, 199-207). -/
def stepRules : List (C × Nat) → Nat → Option Nat
  | [], _ => none
  | (c, j) :: es, x => if CharSetLike.accepts c x then some j else stepRules es x

end Verif.Auto
