import Verif.Auto.Det

set_option linter.unusedSectionVars false

/-!
# Model of the refinement loop of `follow`, and of `dfa`

Source: `/repo/src/kdev-pg-regexp.cpp` lines 567-682.  The lemmas up to `refine` are needed to see that the loop
terminates: every splitting shrinks the total number of characters of the sets.
-/

namespace Verif.Auto

variable {C : Type} [CharSetLike C]

/-- Number of characters of a set. -/
def card (c : C) : Nat := (List.range (CharSetLike.size C)).countP (CharSetLike.accepts c)

/-- Total number of characters of the labels. -/
def weight (pr : Pairs C) : Nat := (pr.map fun e => card e.1).sum

theorem weight_perm {a b : Pairs C} (h : a.Perm b) : weight a = weight b := (h.map _).sum_nat

theorem card_pos {c : C} (h : CharSetLike.empty c = false) : 0 < card c := by
  rw [card, List.countP_pos_iff]
  have : ¬ ∀ x, CharSetLike.accepts c x = false := by
    rw [← CharSetLike.empty_iff]; simp [h]
  have : ∃ x, CharSetLike.accepts c x = true := by
    refine Classical.byContradiction fun hn => this fun x => ?_
    cases hx : CharSetLike.accepts c x
    · rfl
    · exact absurd ⟨x, hx⟩ hn
  obtain ⟨x, hx⟩ := this
  exact ⟨x, by simpa using CharSetLike.accepts_lt c x hx, hx⟩

theorem countP_split {α : Type} (p q : α → Bool) (l : List α) :
    l.countP p = l.countP (fun x => p x && q x) + l.countP (fun x => p x && !q x) := by
  induction l with
  | nil => rfl
  | cons a l ih =>
    simp only [List.countP_cons]
    cases p a <;> cases q a <;> simp <;> omega

theorem card_split (a b : C) : card a = card (CharSetLike.inter a b) + card (CharSetLike.diff a (CharSetLike.inter a b)) := by
  simp only [card]
  rw [countP_split (CharSetLike.accepts a) (CharSetLike.accepts (CharSetLike.inter a b)) (List.range _)]
  congr 1
  · refine List.countP_congr fun x _ => ?_
    rw [CharSetLike.accepts_inter]
    cases CharSetLike.accepts a x <;> cases CharSetLike.accepts b x <;> simp
  · refine List.countP_congr fun x _ => ?_
    rw [CharSetLike.accepts_diff]

theorem card_inter_comm (a b : C) : card (CharSetLike.inter a b) = card (CharSetLike.inter b a) := by
  simp only [card]
  refine List.countP_congr fun x _ => ?_
  rw [CharSetLike.accepts_inter, CharSetLike.accepts_inter, Bool.and_comm]

theorem card_inter_diff (a b : C) : card (CharSetLike.diff b (CharSetLike.inter a b)) = card (CharSetLike.diff b (CharSetLike.inter b a)) := by
  simp only [card]
  refine List.countP_congr fun x _ => ?_
  rw [CharSetLike.accepts_diff, CharSetLike.accepts_diff, CharSetLike.accepts_inter, CharSetLike.accepts_inter,
    Bool.and_comm (CharSetLike.accepts a x)]

/-! ### What one splitting does, up to order -/

theorem decompose {α : Type} {l : List α} {i j : Nat} {a b : α} (hij : j < i) (ha : l[i]? = some a) (hb : l[j]? = some b) :
    ∃ A B D, l = A ++ b :: (B ++ a :: D) ∧ A.length = j ∧ j + 1 + B.length = i := by
  obtain ⟨hi, rfl⟩ := List.getElem?_eq_some_iff.mp ha
  obtain ⟨hj, rfl⟩ := List.getElem?_eq_some_iff.mp hb
  refine ⟨l.take j, (l.drop (j + 1)).take (i - j - 1), l.drop (i + 1), ?_, by simp; omega, by simp; omega⟩
  conv => lhs; rw [← List.take_append_drop j l, List.drop_eq_getElem_cons hj]
  congr 2
  conv => lhs; rw [← List.take_append_drop (i - j - 1) (l.drop (j + 1))]
  congr 1
  rw [List.drop_drop, show j + 1 + (i - j - 1) = i by omega, List.drop_eq_getElem_cons hi]

/-- The new pairs of a splitting. -/
def newPairs (a b : C × Bits) (v : Bits) : Pairs C :=
  let inter := CharSetLike.inter a.1 b.1
  (inter, v) ::
    ((if CharSetLike.empty (CharSetLike.diff a.1 inter) then [] else [(CharSetLike.diff a.1 inter, a.2)]) ++
     (if CharSetLike.empty (CharSetLike.diff b.1 inter) then [] else [(CharSetLike.diff b.1 inter, b.2)]))

theorem set_mid1 {α : Type} (A B D : List α) (b a e : α) {i : Nat} (h : A.length + 1 + B.length = i) :
    (A ++ b :: (B ++ a :: D)).set i e = A ++ b :: (B ++ e :: D) := by
  rw [List.set_append_right i e (by omega), show i - A.length = (B.length) + 1 by omega, List.set_cons_succ,
    List.set_append_right _ e (by omega), Nat.sub_self, List.set_cons_zero]

theorem set_mid2 {α : Type} (A B : List α) (b e : α) {j : Nat} (h : A.length = j) :
    (A ++ b :: B).set j e = A ++ e :: B := by
  rw [List.set_append_right j e (by omega), show j - A.length = 0 by omega, List.set_cons_zero]

theorem perm2 {α : Type} (A B D : List α) (a b : α) : (A ++ b :: (B ++ a :: D)).Perm (a :: b :: (A ++ B ++ D)) := by
  refine List.perm_middle.trans ?_
  refine List.Perm.trans (List.Perm.cons b ?_) (List.Perm.swap a b _)
  rw [← List.append_assoc]
  exact List.perm_middle

theorem splitPair_perm {pr : Pairs C} {i j : Nat} {a b : C × Bits} {v : Bits} (hij : j < i) (ha : pr[i]? = some a)
    (hb : pr[j]? = some b) (hv : vecUnion a.2 b.2 = some v) :
    ∃ pr' rest, splitPair pr i j = some pr' ∧ pr.Perm (a :: b :: rest) ∧ pr'.Perm (newPairs a b v ++ rest) := by
  obtain ⟨A, B, D, rfl, hA, hB⟩ := decompose hij ha hb
  have s1 : ∀ e, (A ++ b :: (B ++ a :: D)).set i e = A ++ b :: (B ++ e :: D) := fun e => set_mid1 A B D b a e (by omega)
  have s2 : ∀ e f, (A ++ b :: (B ++ e :: D)).set j f = A ++ f :: (B ++ e :: D) := fun e f => set_mid2 A _ b f hA
  simp only [splitPair, ha, hb, hv, Option.bind_eq_bind, Option.bind_some, Option.pure_def, s1, s2, newPairs]
  by_cases h1 : CharSetLike.empty (CharSetLike.diff a.1 (CharSetLike.inter a.1 b.1)) = true
  · by_cases h2 : CharSetLike.empty (CharSetLike.diff b.1 (CharSetLike.inter a.1 b.1)) = true
    · simp only [h1, h2, if_true, List.append_nil]
      rcases List.eq_nil_or_concat D with rfl | ⟨D', z, hD⟩
      · refine ⟨A ++ (CharSetLike.inter a.1 b.1, v) :: B, A ++ B, ?_, ?_, ?_⟩
        · have : (A ++ b :: (B ++ [(CharSetLike.inter a.1 b.1, v)])).getLast? = some (CharSetLike.inter a.1 b.1, v) := by
            rw [List.getLast?_append]; simp [List.getLast?_cons]
          simp only [this, Option.bind_some]
          rw [show A ++ (CharSetLike.inter a.1 b.1, v) :: (B ++ [(CharSetLike.inter a.1 b.1, v)]) =
            (A ++ (CharSetLike.inter a.1 b.1, v) :: B) ++ [(CharSetLike.inter a.1 b.1, v)] by simp, List.dropLast_concat]
        · have := perm2 A B [] a b; simpa using this
        · exact List.perm_middle
      · rw [List.concat_eq_append] at hD
        subst hD
        refine ⟨A ++ z :: (B ++ (CharSetLike.inter a.1 b.1, v) :: D'), A ++ B ++ (D' ++ [z]), ?_, perm2 A B _ a b, ?_⟩
        · have : (A ++ b :: (B ++ (CharSetLike.inter a.1 b.1, v) :: (D' ++ [z]))).getLast? = some z := by
            rw [show A ++ b :: (B ++ (CharSetLike.inter a.1 b.1, v) :: (D' ++ [z])) =
              (A ++ b :: (B ++ (CharSetLike.inter a.1 b.1, v) :: D')) ++ [z] by simp, List.getLast?_concat]
          simp only [this, Option.bind_some]
          rw [show A ++ z :: (B ++ (CharSetLike.inter a.1 b.1, v) :: (D' ++ [z])) =
              (A ++ z :: (B ++ (CharSetLike.inter a.1 b.1, v) :: D')) ++ [z] by simp, List.dropLast_concat]
        · refine (perm2 A B D' _ z).trans (List.Perm.cons _ ?_)
          rw [← List.append_assoc]
          exact List.perm_append_comm (l₁ := [z])
    · simp only [Bool.not_eq_true] at h2
      simp only [h1, h2, if_true, if_false, Bool.false_eq_true, List.nil_append]
      exact ⟨_, A ++ B ++ D, rfl, perm2 A B D a b, perm2 A B D _ _⟩
  · simp only [Bool.not_eq_true] at h1
    by_cases h2 : CharSetLike.empty (CharSetLike.diff b.1 (CharSetLike.inter a.1 b.1)) = true
    · simp only [h1, h2, if_true, if_false, Bool.false_eq_true, List.append_nil]
      exact ⟨_, A ++ B ++ D, rfl, perm2 A B D a b, perm2 A B D _ _⟩
    · simp only [Bool.not_eq_true] at h2
      simp only [h1, h2, if_false, Bool.false_eq_true]
      refine ⟨_, A ++ B ++ D, rfl, perm2 A B D a b, ?_⟩
      refine ((perm2 A B D _ _).append_right _).trans ?_
      refine List.Perm.cons _ (List.Perm.cons _ ?_)
      exact List.perm_append_comm

theorem overlap_iff {pr : Pairs C} {i j : Nat} : overlap pr i j = true ↔
    ∃ a b, pr[i]? = some a ∧ pr[j]? = some b ∧ CharSetLike.isEps a.1 = false ∧ CharSetLike.isEps b.1 = false ∧
      CharSetLike.empty (CharSetLike.inter a.1 b.1) = false := by
  unfold overlap
  split
  · rename_i a b h1 h2
    simp [h1, h2, and_assoc]
  · rename_i h
    simp only [Bool.false_eq_true, false_iff]
    rintro ⟨a, b, h1, h2, _⟩
    exact h a b h1 h2

theorem findPair_some {pr : Pairs C} {i j : Nat} (h : findPair pr = some (i, j)) : j < i ∧ overlap pr i j = true := by
  obtain ⟨k, hk, h⟩ := List.exists_of_findSome?_eq_some h
  simp only [Option.map_eq_some_iff, Prod.mk.injEq] at h
  obtain ⟨l, hl, rfl, rfl⟩ := h
  exact ⟨by simpa using List.mem_of_find?_eq_some hl, by simpa using List.find?_some hl⟩

theorem findPair_none {pr : Pairs C} (h : findPair pr = none) {i j : Nat} (hij : j < i) : overlap pr i j = false := by
  rw [findPair, List.findSome?_eq_none_iff] at h
  by_cases hi : i < pr.length
  · have := h i (by simpa using hi)
    simp only [Option.map_eq_none_iff, List.find?_eq_none, List.mem_range, Bool.not_eq_true] at this
    exact this j hij
  · cases ho : overlap pr i j
    · rfl
    · rw [overlap_iff] at ho
      obtain ⟨a, b, h1, _⟩ := ho
      rw [List.getElem?_eq_none (by omega)] at h1; cases h1

theorem splitPair_weight {pr pr' : Pairs C} {i j : Nat} (h : findPair pr = some (i, j)) (h' : splitPair pr i j = some pr') :
    weight pr' < weight pr := by
  obtain ⟨hij, ho⟩ := findPair_some h
  obtain ⟨a, b, ha, hb, _, _, he⟩ := overlap_iff.mp ho
  cases hv : vecUnion a.2 b.2 with
  | none => simp [splitPair, ha, hb, hv] at h'
  | some v =>
    obtain ⟨pr'', rest, e1, p1, p2⟩ := splitPair_perm hij ha hb hv
    rw [h'] at e1; cases e1
    rw [weight_perm p1, weight_perm p2]
    have c0 := card_pos he
    have ca := card_split a.1 b.1
    have cb := card_split b.1 a.1
    rw [card_inter_comm b.1 a.1, ← card_inter_diff a.1 b.1] at cb
    simp only [newPairs, weight, List.map_append, List.map_cons, List.sum_append, List.sum_cons]
    split <;> split <;> simp only [List.map_nil, List.map_cons, List.sum_nil, List.sum_cons] <;> omega

/-- The loop of `follow` (lines 567-615). -/
def refine (pr : Pairs C) : Option (Pairs C) :=
  match _h : findPair pr with
  | none => some pr
  | some (i, j) =>
    match _h' : splitPair pr i j with
    | none => none
    | some pr' => refine pr'
termination_by weight pr
decreasing_by exact splitPair_weight _h _h'

/-- `follow(states)` (lines 551-617). -/
def NFA.follow (n : NFA C) (s : Bits) : Option (Pairs C) := do refine (← initPairs n s)

/-- The transitions computed for one set of states (lines 633-643). -/
def NFA.succs (n : NFA C) (x : Bits) : Option (Pairs C) := do
  ((← n.follow x).filter fun e => !CharSetLike.isEps e.1).mapM fun e => do return (e.1, ← n.closure e.2)

/-- What the main loop has done so far: the processed sets in order, each with its transitions.  `states` is the
set of its keys, `rules[x]` the concatenation of the entries with key `x`. -/
abbrev Log (C : Type) := List (Bits × Pairs C)

/-- The main loop (lines 627-644).  The fuel bounds the number of iterations, which is not obvious in
advance; that enough fuel exists is part of C16. -/
def NFA.dfaLoop (n : NFA C) : Nat → Log C → List Bits → Option (Log C)
  | _, log, [] => some log
  | 0, _, _ :: _ => none
  | fuel + 1, log, x :: todo => do
    let t ← n.succs x
    let log := log ++ [(x, t)]
    let new := (t.map (·.2)).filter fun y => !(log.map (·.1)).contains y
    n.dfaLoop fuel log (new.reverse ++ todo)

/-- `DFA<CharSet>` (lines 82-86), without the texts of the actions. -/
structure DFA (C : Type) where
  nstates : Nat
  rules : Rules C
  numActions : Nat
  accept : List Nat

/-- Assignment to an `unordered_map` entry. -/
def upd (st : Bits → Option Nat) (k : Bits) (v : Nat) : Bits → Option Nat := fun x => if x = k then some v else st x

/-- The numbering loop (lines 650-662); `order` is the order in which `states` is traversed. -/
def numberLoop (start first : Bits) : List Bits → Nat → (Bits → Option Nat) → (Bits → Option Nat)
  | [], _, st => st
  | i :: is, cnt, st =>
    numberLoop start first is (cnt + 1) (if i = start ∧ cnt ≠ 0 then upd (upd st first cnt) i 0 else upd st i cnt)

/-- The action of a set (lines 666-673): the first accepting state in it. -/
def NFA.actionOf (n : NFA C) (x : Bits) : Nat :=
  match (List.range (n.nstates - n.accept)).find? fun k => x[n.accept + k]? == some true with
  | some k => k + 1
  | none => 0

/-- `dfa()` (lines 618-682).  The order of the hash set `states` is the parameter `order`, a function of the set (any
enumeration).  The loops of lines 663-680 write each index once, hence are modelled by the lists they
produce; `st` missing a key would be a wrong transition to 0 there and is `none` here. -/
def NFA.dfa (n : NFA C) (order : List Bits → List Bits) (fuel : Nat) : Option (DFA C) := do
  let start ← n.closure (← single n.nstates 0)
  let log ← n.dfaLoop fuel [] [start]
  let ord := order (log.map (·.1))
  let first ← ord.head?
  let st := numberLoop start first ord 0 (fun _ => none)
  let key := fun k => ord.find? fun x => st x == some k
  let rules ← (List.range ord.length).mapM fun k => do
    let x ← key k
    ((log.filter fun e => e.1 == x).map (·.2)).flatten.mapM fun e => do return (e.1, ← st e.2)
  let accept ← (List.range ord.length).mapM fun k => do return n.actionOf (← key k)
  return ⟨ord.length, rules, n.nstates - n.accept, accept⟩

end Verif.Auto
