import Verif.OpRule.Lemmas

/-!
# C110, C111, C112: priorities and associativities, conditions, base classes of operator rules
-/

namespace Verif.OpRule

open Verif.Syntax (Name Operator Prio Assoc OpDecl)
open Verif.Top (Text txt)

/-! ### C110 -/

theorem assocText_eq {a : Assoc} (h : NoZero (.bin ⟨[], [], []⟩ .zero a)) : assocText a = some (leftText a) := by
  cases a with
  | left => rfl
  | right => rfl
  | isLeft c => exact choice_eq h (by decide) (by decide)
  | isRight c => exact choice_eq h (by decide) (by decide)

/-- The operators of one kind, as they are written. -/
def binOf : OpDecl → Option (Operator × Text × Text)
  | .bin o p a => some (o, leftText a, strengthText p)
  | _ => none

def ternOf : OpDecl → Option (Operator × Operator × Text × Text)
  | .tern o o' p a => some (o, o', leftText a, strengthText p)
  | _ => none

/-- Postfix operators are right-associative if nothing is said. -/
def postOf : OpDecl → Option (Operator × Text × Text)
  | .post o p a => some (o, leftText (a.getD .right), strengthText p)
  | _ => none

def preOf : OpDecl → Option (Operator × Text)
  | .pre o p => some (o, strengthText p)
  | _ => none

def parenOf : OpDecl → Option (Operator × Operator)
  | .paren o o' => some (o, o')
  | _ => none

/-- The declaration gives the literal `"0"` to `free`. -/
def FreesLiteral (d : OpDecl) : Prop := ∃ o, d = .post o .zero none

theorem prioText_eq : ∀ p, prioText p = strengthText p
  | .zero => rfl
  | .number _ => rfl
  | .code _ => rfl

theorem push_eq {r : Rec} {d : OpDecl} (hz : NoZero d) (hf : ¬ FreesLiteral d) :
    r.push d = some ⟨r.paren ++ (parenOf d).toList, r.tern ++ (ternOf d).toList, r.bin ++ (binOf d).toList, r.post ++ (postOf d).toList, r.pre ++ (preOf d).toList⟩ := by
  cases d with
  | bin o p a => simp [Rec.push, prioText_eq, assocText_eq (a := a) (by cases a <;> exact hz), parenOf, ternOf, binOf, postOf, preOf]
  | tern o o' p a => simp [Rec.push, prioText_eq, assocText_eq (a := a) (by cases a <;> exact hz), parenOf, ternOf, binOf, postOf, preOf]
  | pre o p => simp [Rec.push, prioText_eq, parenOf, ternOf, binOf, postOf, preOf]
  | paren o o' => simp [Rec.push, prioText_eq, parenOf, ternOf, binOf, postOf, preOf]
  | post o p a =>
    cases a with
    | none =>
      cases p with
      | zero => exact absurd ⟨o, rfl⟩ hf
      | number n => simp [Rec.push, prioText_eq, parenOf, ternOf, binOf, postOf, preOf, leftText]
      | code c => simp [Rec.push, prioText_eq, parenOf, ternOf, binOf, postOf, preOf, leftText]
    | some a =>
      have e := assocText_eq (a := a) (by cases a <;> exact hz)
      cases p <;> simp [Rec.push, prioText_eq, e, parenOf, ternOf, binOf, postOf, preOf]

theorem foldlM_eq : ∀ (ds : List OpDecl) (r : Rec), (∀ d ∈ ds, NoZero d) → (∀ d ∈ ds, ¬ FreesLiteral d) →
    ds.foldlM Rec.push r = some ⟨r.paren ++ ds.filterMap parenOf, r.tern ++ ds.filterMap ternOf, r.bin ++ ds.filterMap binOf, r.post ++ ds.filterMap postOf, r.pre ++ ds.filterMap preOf⟩
  | [], r, _, _ => by simp
  | d :: ds, r, hz, hf => by
    rw [List.foldlM_cons, push_eq (hz d (.head _)) (hf d (.head _))]
    show ds.foldlM Rec.push _ = _
    rw [foldlM_eq ds _ (fun d h => hz d (.tail _ h)) fun d h => hf d (.tail _ h)]
    have key : ∀ {α : Type} (g : OpDecl → Option α) (l : List α), l ++ (g d).toList ++ ds.filterMap g = l ++ (d :: ds).filterMap g := fun g l => by
      rw [List.filterMap_cons]
      cases g d <;> simp
    simp only [key]

theorem foldlM_none : ∀ (ds : List OpDecl) (r : Rec), (∃ d ∈ ds, FreesLiteral d) → ds.foldlM Rec.push r = none
  | [], _, ⟨_, h, _⟩ => by simp at h
  | d :: ds, r, ⟨e, h, he⟩ => by
    rw [List.foldlM_cons]
    rcases List.mem_cons.1 h with rfl | h
    · obtain ⟨o, rfl⟩ := he
      rfl
    · cases r.push d with
      | none => rfl
      | some r => exact foldlM_none ds r ⟨e, h, he⟩

/-- C110: the actions record the operators of each kind in the order in which they are written, with the texts for priority and associativity; the memory for the texts of `%isLeft` and `%isRight` is exactly
large enough.  They do so unless a postfix operator has the priority `0` and no associativity. -/
theorem C110_record (ds : List OpDecl) (hz : ∀ d ∈ ds, NoZero d) (r : Rec) : record ds = some r ↔ (∀ o, .post o .zero none ∉ ds) ∧
    r = { paren := ds.filterMap parenOf, tern := ds.filterMap ternOf, bin := ds.filterMap binOf, post := ds.filterMap postOf, pre := ds.filterMap preOf } := by
  by_cases h : ∃ d ∈ ds, FreesLiteral d
  · rw [record, foldlM_none ds {} h]
    obtain ⟨d, hd, o, rfl⟩ := h
    exact ⟨fun h => by simp at h, fun h => absurd hd (h.1 o)⟩
  · rw [record, foldlM_eq ds {} hz fun d hd hf => h ⟨d, hd, hf⟩]
    constructor
    · intro e
      exact ⟨fun o ho => h ⟨_, ho, o, rfl⟩, by rw [← Option.some.inj e]; simp⟩
    · rintro ⟨_, rfl⟩
      simp

/-- C110: what C99 says of the nodes agrees with it. -/
theorem C110_runs (ds : List OpDecl) (hz : ∀ d ∈ ds, NoZero d) : (∃ r, record ds = some r) ↔ ∀ o, .post o .zero none ∉ ds :=
  ⟨fun ⟨r, h⟩ => ((C110_record ds hz r).1 h).1, fun h => ⟨_, (C110_record ds hz _).2 ⟨h, rfl⟩⟩⟩

/-- C110, in part: a priority written without leading zeros and below 2^32 is the priority in the generated parser.  Missing: other numbers (see below). -/
theorem C110_priority_partial {n : Text} (hd : Digits n) (h0 : n.head? ≠ some 48 ∨ n = [48]) (hs : value 10 n < 2 ^ 32) (v : Nat) : PriorityIs n v ↔ v = value 10 n := by
  cases n with
  | nil => exact absurd rfl hd.1
  | cons c n =>
    constructor
    · rintro ⟨w, hw, rfl⟩
      cases hw with
      | dec => exact Nat.mod_eq_of_lt hs
      | oct =>
        rcases h0 with h0 | h0
        · simp at h0
        · cases h0
          rfl
    · rintro rfl
      rcases h0 with h0 | h0
      · exact ⟨_, .dec (by simpa using h0) hd (Nat.lt_trans hs (by decide)), (Nat.mod_eq_of_lt hs).symm⟩
      · cases h0
        exact ⟨0, .oct (n := []) (by simp [Octal]) (by decide), rfl⟩

/-- C110 fails: with a leading zero the number is octal, so it is smaller than it reads as soon as it has two digits behind the zeros; with a digit 8 or 9 the generated parser is not valid. -/
theorem C110_fails_octal (c : Nat) (n : Text) (hd : Digits (c :: n)) :
    (Octal (c :: n) → value 8 (c :: n) < 2 ^ 32 → (∀ v, PriorityIs (48 :: c :: n) v ↔ v = value 8 (c :: n)) ∧ (48 < c → n ≠ [] → value 8 (c :: n) < value 10 (48 :: c :: n))) ∧
    (¬ Octal (c :: n) → ∀ v, ¬ PriorityIs (48 :: c :: n) v) := by
  refine ⟨fun ho hs => ⟨fun v => ⟨?_, ?_⟩, fun hc hn => ?_⟩, fun ho v => ?_⟩
  · rintro ⟨w, hw, rfl⟩
    cases hw with
    | dec h => exact absurd rfl h
    | oct => exact Nat.mod_eq_of_lt hs
  · rintro rfl
    exact ⟨_, .oct ho (Nat.lt_trans hs (by decide)), (Nat.mod_eq_of_lt hs).symm⟩
  · have e : value 10 (48 :: c :: n) = value 10 (c :: n) := by simp [value]
    rw [e]
    rcases List.eq_nil_or_concat n with h | ⟨m, d, rfl⟩
    · exact absurd h hn
    · rw [List.concat_eq_append, ← List.cons_append, value_snoc, value_snoc]
      have := value_le (c :: m)
      have := value_pos (b := 10) (by decide) hc m
      omega
  · rintro ⟨w, hw, rfl⟩
    cases hw with
    | dec h => exact absurd rfl h
    | oct h => exact ho h

/-- `010` is below `9`. -/
example : PriorityIs (txt "010") 8 ∧ PriorityIs (txt "9") 9 :=
  ⟨(((C110_fails_octal 49 [48] ⟨by simp, by simp⟩).1 (by simp [Octal]) (by decide)).1 8).2 (by decide), (C110_priority_partial (n := txt "9") ⟨by decide, by decide⟩ (by decide) (by decide) 9).2 (by decide)⟩

/-- C110 fails: 2^32 - 1 can be written, and is a priority above that of operands (2^32 - 2): the first such operator behind an operand follows the null pointer. -/
theorem C110_fails_large : PriorityIs (txt "4294967295") 4294967295 ∧
    ∀ (a l m : Nat) (k : Ops.Run) (pos : Int), l ≤ 1 → Ops.parse (.base m (.bin ⟨a, 4294967295, l⟩ k)) pos = none ∧ Ops.parse (.base m (.post ⟨a, 4294967295, l⟩ k)) pos = none := by
  refine ⟨(C110_priority_partial (n := txt "4294967295") ⟨by decide, by decide⟩ (by decide) (by decide) _).2 (by decide), fun a l m k pos hl => ?_⟩
  have h : ¬ 4294967295 < (Ops.operand + l) % 4294967296 := by
    have : (Ops.operand + l) % 4294967296 < 4294967296 := Nat.mod_lt _ (by decide)
    omega
  constructor <;> simp [Ops.parse, Ops.exec, Ops.unary, Ops.operator, Ops.popLoop, h]

/-- C110 fails: 2^32 is taken as 0. -/
theorem C110_fails_wrap : ∀ v, PriorityIs (txt "4294967296") v ↔ v = 0 := fun v => by
  have e : value 10 (txt "4294967296") = 4294967296 := by decide
  constructor
  · rintro ⟨w, hw, rfl⟩
    generalize hn : txt "4294967296" = n at hw e
    cases hw with
    | dec => rw [e]
    | oct => exact absurd hn (by simp [txt])
  · rintro rfl
    exact ⟨_, .dec (c := 52) (n := txt "294967296") (by decide) ⟨by decide, by decide⟩ (by decide), by decide⟩

/-! ### C111 -/

variable {ρ : Nat → Nat}

theorem means_of {ts : List T} {v : Nat} {P : Prop} (h : E ρ .expr ts v) (hP : v ≠ 0 ↔ P) : Means ρ ts P := ⟨⟨v, h⟩, fun w hw => by rw [hw.unique h]; exact hP⟩

/-- C111: the test of a rule or of an alternative, with or without a condition, holds exactly if the next token is one of those of the test and the condition holds, whatever expression it is. -/
theorem C111_rule (as : List Nat) (hne : as ≠ []) : Means ρ (ruleTest as none) (ρ 0 ∈ as) ∧
    ∀ (c : List T) (v : Nat), E ρ .expr c v → Means ρ (ruleTest as (some c)) (ρ 0 ∈ as ∧ v ≠ 0) := by
  obtain ⟨x, hx, hx'⟩ := tests_E ρ as hne
  refine ⟨means_of (.expr1 (.cond1 hx)) hx', fun c v hc => ?_⟩
  have h := E.expr (E.land (.eq1 (.paren (.expr1 (.cond1 hx)))) (.land1 (.eq1 (.paren hc))))
  have e : ruleTest as (some c) = T.lp :: (tests as ++ [T.rp]) ++ T.and :: (T.lp :: (c ++ [T.rp])) := by simp [ruleTest]
  rw [e]
  refine means_of h ?_
  rw [← hx']
  by_cases h1 : x = 0 <;> by_cases h2 : v = 0 <;> simp [h1, h2]

/-- C111, in part: the test of an operator holds exactly if the next token is that of the operator and its condition holds, for conditions which have no `||`, `?` or `,` outside of brackets.  Missing: other
conditions (see below). -/
theorem C111_operator_partial (a : Nat) : Means ρ (opTest a []) (ρ 0 = a) ∧ ∀ (c : List T) (v : Nat), E ρ .land c v → Means ρ (opTest a c) (ρ 0 = a ∧ v ≠ 0) := by
  have ht : E ρ .eq [.atom 0, .eq, .num a] (if ρ 0 = a then 1 else 0) := .eq (ts := [.atom 0]) (us := [.num a]) .atom .num
  refine ⟨means_of (E.expr (.land1 ht)) (by simp), fun c v hc => ?_⟩
  have hn : c.length ≠ 0 := by
    intro h
    cases c with
    | nil =>
      obtain ⟨f, hf⟩ := run_complete hc [] (by simp [Stop])
      have : ∀ f l, run ρ f l [] = none := by
        intro f
        induction f with
        | zero => intro l; rfl
        | succ f ih => intro l; cases l <;> simp [run, ih]
      have := (this f .land).symm.trans (hf f (Nat.le_refl _))
      simp at this
    | cons => simp at h
  rw [opTest, if_pos hn]
  exact means_of (E.expr (E.land ht hc)) (by by_cases h1 : ρ 0 = a <;> by_cases h2 : v = 0 <;> simp [h1, h2])

/-- C111 fails: a condition with `||` is torn apart: the operator is also recognised, whatever the next token is, if what is behind `||` holds. -/
theorem C111_fails_or (a : Nat) {c d : List T} {v w : Nat} (hc : E ρ .land c v) (hd : E ρ .lor d w) : Means ρ (opTest a (c ++ .or :: d)) ((ρ 0 = a ∧ v ≠ 0) ∨ w ≠ 0) := by
  have ht : E ρ .eq [.atom 0, .eq, .num a] (if ρ 0 = a then 1 else 0) := .eq (ts := [.atom 0]) (us := [.num a]) .atom .num
  rw [opTest, if_pos (by simp)]
  have h : E ρ .expr (([.atom 0, .eq, .num a] ++ .and :: c) ++ .or :: d) _ := .expr1 (.cond1 (.lor (.land ht hc) hd))
  rw [show tests [a] ++ .and :: (c ++ .or :: d) = ([.atom 0, .eq, .num a] ++ .and :: c) ++ .or :: d by simp [tests, yytoken]]
  exact means_of h (by by_cases h1 : ρ 0 = a <;> by_cases h2 : v = 0 <;> by_cases h3 : w = 0 <;> simp [h1, h2, h3])

/-- For instance: the operator with token 7 and the condition `x || y`, the next token being 8. -/
example : ∃ ρ : Nat → Nat, ρ 0 ≠ 7 ∧ Means ρ (opTest 7 [.atom 1, .or, .atom 2]) True := by
  refine ⟨fun n => if n = 0 then 8 else n - 1, by decide, ?_⟩
  obtain ⟨h1, h2⟩ := C111_fails_or (ρ := fun n => if n = 0 then 8 else n - 1) 7 (c := [.atom 1]) (d := [.atom 2]) (.land1 (.eq1 .atom)) (.lor1 (.land1 (.eq1 .atom)))
  exact ⟨h1, fun v hv => (h2 v hv).trans (by simp)⟩

/-- And as the condition of a rule it is taken as written. -/
example : ∃ ρ : Nat → Nat, Means ρ (ruleTest [7, 9] (some [.atom 1, .or, .atom 2])) False :=
  ⟨fun n => if n = 0 then 8 else n - 1, by
    obtain ⟨h1, h2⟩ := (C111_rule (ρ := fun n => if n = 0 then 8 else n - 1) [7, 9] (by simp)).2 [.atom 1, .or, .atom 2] _
      (.expr1 (.cond1 (.lor (ts := [.atom 1]) (us := [.atom 2]) (.land1 (.eq1 .atom)) (.lor1 (.land1 (.eq1 .atom))))))
    exact ⟨h1, fun v hv => (h2 v hv).trans (by simp)⟩⟩

/-- C111, in part: `%isLeft` and `%isRight` give 1 or 0, which of them depends on the code, for code which has no `?` or `,` outside of brackets. -/
theorem C111_assoc_partial {c : List T} {v : Nat} (hc : E ρ .lor c v) : Has ρ (choiceTokens c 1 0) (if v ≠ 0 then 1 else 0) ∧ Has ρ (choiceTokens c 0 1) (if v ≠ 0 then 0 else 1) := by
  have key : ∀ a b, Has ρ (choiceTokens c a b) (if v ≠ 0 then a else b) := fun a b => by
    have h := E.paren (.expr1 (.cond hc (us := [.num a]) (.expr1 (.cond1 (.lor1 (.land1 (.eq1 .num))))) (vs := [.num b]) (.cond1 (.lor1 (.land1 (.eq1 .num))))))
    have e : choiceTokens c a b = T.lp :: (c ++ T.quest :: ([T.num a] ++ T.colon :: [T.num b]) ++ [T.rp]) := by simp [choiceTokens]
    rw [e]
    exact ⟨h, fun w hw => hw.unique h⟩
  exact ⟨key 1 0, key 0 1⟩

/-- C111 fails: code with `?` may give any number: `x ? y : z` gives `y` if `x` holds. -/
theorem C111_fails_assoc (x y z : Nat) (hx : ρ x ≠ 0) : Has ρ (choiceTokens [.atom x, .quest, .atom y, .colon, .atom z] 1 0) (ρ y) := by
  have at_ : ∀ n, E ρ .lor [.atom n] (ρ n) := fun n => .lor1 (.land1 (.eq1 .atom))
  have num : ∀ n, E ρ .lor [.num n] n := fun n => .lor1 (.land1 (.eq1 .num))
  have h := E.paren (.expr1 (.cond (at_ x) (us := [.atom y]) (.expr1 (.cond1 (at_ y))) (.cond (at_ z) (us := [.num 1]) (.expr1 (.cond1 (num 1))) (vs := [.num 0]) (.cond1 (num 0)))))
  rw [if_pos hx] at h
  exact ⟨h, fun w hw => hw.unique h⟩

/-! ### C112 -/

theorem lookup_insert (m : List (Text × Text)) (x y s : Text) : lookup (Top.insert x y m) s = if s = x then some y else lookup m s := by
  induction m with
  | nil => simp [Top.insert, lookup, eq_comm]
  | cons p m ih =>
    rw [Top.insert]
    split
    · next h =>
      subst h
      by_cases hs : s = p.1
      · subst hs; simp [lookup]
      · simp [lookup, hs, Ne.symm hs]
    · next h =>
      by_cases hs : p.1 = s
      · subst hs; simp [lookup, h]
      · have e : ∀ (q : Text × Text) (l : List (Text × Text)), q.1 ≠ s → lookup (q :: l) s = lookup l s := fun q l hq => by simp [lookup, hq]
        rw [e _ _ hs, e _ _ hs, ih]

theorem any_lookup (m : List (Text × Text)) (s : Text) : m.any (·.1 = s) = (lookup m s).isSome := by
  rw [lookup, Option.isSome_map]
  induction m with
  | nil => rfl
  | cons p m ih =>
    by_cases h : p.1 = s
    · simp [h]
    · simp only [List.any_cons, h, decide_false, Bool.false_or, List.find?_cons, ih]

theorem lookup_bases : ∀ (rs m : List (Text × Text)) (b : Text), lookup (bases m rs) b = (lookup m b).or ((rs.find? (·.1 = b)).map fun r => className r.2)
  | [], m, b => by simp [bases]
  | r :: rs, m, b => by
    show lookup (bases (addBase m r) rs) b = _
    rw [lookup_bases rs, addBase, any_lookup]
    by_cases h : r.1 = b
    · subst h
      cases e : lookup m r.1 with
      | none => simp [lookup_insert]
      | some c => simp [e]
    · split
      · simp [h]
      · simp [lookup_insert, Ne.symm h, h]

/-- C112: the structure of a symbol is derived from the class given by `%ast_base`; else, if the symbol is the base of operator rules, from the structure of the first of them; else from `AstNode`. -/
theorem C112_base (m rs : List (Text × Text)) (b : Text) :
    (∀ c, lookup m b = some c → baseOf (bases m rs) b = c) ∧
    (lookup m b = none → ∀ xs s ys, rs = xs ++ (b, s) :: ys → (∀ r ∈ xs, r.1 ≠ b) → baseOf (bases m rs) b = className s) ∧
    (lookup m b = none → (∀ r ∈ rs, r.1 ≠ b) → baseOf (bases m rs) b = txt "AstNode") := by
  refine ⟨fun c h => by rw [baseOf, lookup_bases, h]; rfl, fun h xs s ys e hx => ?_, fun h hn => ?_⟩
  · have : rs.find? (·.1 = b) = some (b, s) := by
      rw [e, List.find?_append, List.find?_eq_none.2 (fun r hr => by simpa using hx r hr)]
      simp
    rw [baseOf, lookup_bases, h, this]
    rfl
  · rw [baseOf, lookup_bases, h, List.find?_eq_none.2 (fun r hr => by simpa using hn r hr)]
    rfl

/-- C112, in part: the function for an operator rule puts the node of its operand into a pointer to the structure of the rule; the node is of a derived structure if no `%ast_base` is given for the base, and
no earlier operator rule has the same base. -/
theorem C112_operand_partial {m xs ys : List (Text × Text)} {b s : Text} (hm : lookup m b = none) (hx : ∀ r ∈ xs, r.1 ≠ b) :
    Derived (baseOf (bases m (xs ++ (b, s) :: ys))) (className b) (className s) :=
  .base (by rw [(C112_base m _ b).2.1 hm xs s ys rfl hx]; exact .self)

theorem derived_target {base : Text → Text} {c d : Text} (h : Derived base c d) : d = c ∨ ∃ s, d = base s := by
  induction h with
  | self => exact .inl rfl
  | base _ ih => rcases ih with rfl | ih <;> [exact .inr ⟨_, rfl⟩; exact .inr ih]

/-- C112 fails: if two operator rules have the same base, the operand of the second is not of a derived structure, and the generated parser is not valid, unless another `%ast_base` or operator rule derives
something from the structure of the second. -/
theorem C112_fails_two {m xs ys : List (Text × Text)} {b s : Text} (hc : className s ≠ className b) (ha : className s ≠ txt "AstNode") (hm : ∀ x, lookup m x ≠ some (className s))
    (hf : ∀ x ∈ xs ++ (b, s) :: ys, className x.2 = className s → x.1 = b) (hs : ∃ t ∈ xs, t.1 = b) (hx : ∀ t ∈ xs, t.1 = b → className t.2 ≠ className s) :
    ¬ Derived (baseOf (bases m (xs ++ (b, s) :: ys))) (className b) (className s) := fun h => by
  rcases derived_target h with h | ⟨x, h⟩
  · exact hc h
  · rw [baseOf, lookup_bases] at h
    cases e : lookup m x with
    | some c =>
      rw [e] at h
      exact hm x (by rw [e, h]; rfl)
    | none =>
      rw [e, Option.none_or] at h
      cases e2 : (xs ++ (b, s) :: ys).find? (·.1 = x) with
      | none => rw [e2] at h; exact ha h
      | some r =>
        rw [e2] at h
        have h2 : className r.2 = className s := h.symm
        have h3 := hf r (List.mem_of_find?_eq_some e2) h2
        have h4 := List.find?_some e2
        simp only [decide_eq_true_eq] at h4
        obtain ⟨t, ht, htb⟩ := hs
        rw [List.find?_append] at e2
        cases e3 : xs.find? (·.1 = x) with
        | none => exact List.find?_eq_none.1 e3 t ht (by simp [htb, ← h4, h3])
        | some q =>
          rw [e3] at e2
          cases Option.some.inj e2
          exact hx r (List.mem_of_find?_eq_some e3) h3 h2

/-- The rules `%< base ... %> sum ; %< base ... %> product ;`. -/
example : let rs := [(txt "base", txt "sum"), (txt "base", txt "product")]
    Derived (baseOf (bases [] rs)) (txt "BaseAst") (txt "SumAst") ∧ ¬ Derived (baseOf (bases [] rs)) (txt "BaseAst") (txt "ProductAst") := by
  refine ⟨C112_operand_partial (m := []) (xs := []) (b := txt "base") (s := txt "sum") rfl (by simp), ?_⟩
  exact C112_fails_two (m := []) (xs := [(txt "base", txt "sum")]) (ys := []) (b := txt "base") (s := txt "product") (by decide) (by decide) (by simp [lookup])
    (by simp) ⟨_, .head _, rfl⟩ (by decide)

/-- With a base that is an operator rule itself: `%< number %> product ; %< product %> sum ;`. -/
example : let rs := [(txt "number", txt "product"), (txt "product", txt "sum")]
    Derived (baseOf (bases [] rs)) (txt "ProductAst") (txt "SumAst") ∧ Derived (baseOf (bases [] rs)) (txt "NumberAst") (txt "SumAst") := by
  have h := C112_operand_partial (m := []) (xs := [(txt "number", txt "product")]) (ys := []) (b := txt "product") (s := txt "sum") rfl (by decide)
  refine ⟨h, .base (s := txt "number") ?_⟩
  rw [(C112_base [] [(txt "number", txt "product"), (txt "product", txt "sum")] (txt "number")).2.1 rfl [] (txt "product") [(txt "product", txt "sum")] rfl (by simp)]
  exact h

/-- Records: `%bin PLUS 10 %left`, `%pre MINUS 30`, `%post X 2`, `%bin EQ 5 %isRight [: r :]`. -/
example : record [.bin ⟨[80], [], []⟩ (.number (txt "10")) .left, .pre ⟨[77], [], []⟩ (.number (txt "30")), .post ⟨[88], [], []⟩ (.number (txt "2")) none,
      .bin ⟨[69], [], []⟩ (.number (txt "5")) (.isRight (txt "r"))] =
    some { bin := [(⟨[80], [], []⟩, txt "1", txt "10"), (⟨[69], [], []⟩, txt "(r?0:1)", txt "5")], pre := [(⟨[77], [], []⟩, txt "30")], post := [(⟨[88], [], []⟩, txt "0", txt "2")] } :=
  (C110_record _ (by simp [NoZero]; decide) _).2 ⟨by simp, by decide⟩

end Verif.OpRule
