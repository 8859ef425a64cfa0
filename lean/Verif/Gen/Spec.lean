import Verif.Grammar.Spec
import Verif.Gen.Model

/-! # Specification: what a run consumes, and the grammars considered -/

namespace Verif.Gen

open Verif.Grammar

/-- The tokens from position `p` up to, but not including, position `q`. -/
def consumed (inp : Nat → Nat) (p q : Nat) : List Nat := (List.range' p (q - p)).map inp

/-- Restrictions on the grammar. -/
structure Plain (W : World) : Prop where
  /-- no inlined non-terminals -/
  noInline : ∀ n s, W.node n ≠ some (.inlined s)
  /-- symbols are referred to by non-terminals only -/
  noSym : ∀ n m, Part W n m → W.node m ≠ some .sym
  /-- an operator item is the item of a rule, the only one of its symbol -/
  opRule : ∀ n m o, Part W n m → W.node m = some (.op o) → ∃ s, W.node n = some (.evolve m s)
  opOnly : ∀ r r' n i s o, r ∈ W.rules → r' ∈ W.rules → W.node r = some (.evolve n s) → W.node n = some (.op o) →
    W.node r' = some (.evolve i s) → i = n
  /-- no ternary operators -/
  noTern : ∀ n o, W.node n = some (.op o) → o.tern = []

/-- What the parser and the checks guarantee (`InlineChecker` refuses inlined operator expressions, `World::pushSymbol` takes a symbol that is inlined
out of the start symbols). -/
structure Tame (W : World) : Prop where
  /-- an operator item is the item of a rule -/
  opRule : ∀ n m o, Part W n m → W.node m = some (.op o) → ∃ s, W.node n = some (.evolve m s)
  /-- what is inlined is neither a start symbol nor an operator expression -/
  inlined : ∀ n s r i, W.node n = some (.inlined (some s)) → r ∈ W.rules → W.node r = some (.evolve i s) → s ∉ W.start ∧ ∀ o, W.node i ≠ some (.op o)

theorem Plain.tame {W : World} (h : Plain W) : Tame W := ⟨h.opRule, fun _ _ _ _ hn => absurd hn (h.noInline _ _)⟩

/-! ### Grammars that one token of lookahead decides

Stated with the FIRST and FOLLOW sets `K.F`, `K.S`, like the LL(1) condition. -/

/-- Tokens that may come first, by the FIRST sets. -/
def First (K : Ctx) (n t : Nat) : Prop :=
  if K.W.node n = some .term then t = n else K.W.node t = some .term ∧ (n, t) ∈ K.F

/-- No token in the FIRST set. -/
def Silent (K : Ctx) (n : Nat) : Prop := K.W.node n ≠ some .term ∧ ∀ x, (n, x) ∈ K.F → K.W.node x = some .zero

/-- `Choice W n ms`: item `n` is the choice between the items `ms`, from left to right. -/
inductive Choice (W : World) : Nat → List Nat → Prop
  | leaf {n} : (∀ l r, W.node n ≠ some (.alt l r)) → Choice W n [n]
  | alt {n l r a b} : W.node n = some (.alt l r) → Choice W l a → Choice W r b → Choice W n (a ++ b)

structure LL1 (K : Ctx) : Prop where
  /-- of the alternatives of a choice, all but the last have a token in FIRST; no token is in FIRST of two of them; if a later one
  can be empty, no token of an earlier one may follow the choice -/
  alt : ∀ n l r ms, Occurs K.W n → n < K.W.parsed → K.W.node n = some (.alt l r) → Choice K.W n ms → ms.Pairwise fun m m' =>
    (∃ t, First K m t) ∧ (∀ t, First K m t → ¬ First K m' t) ∧ (Nullable K.W m' → ∀ t, First K m t → (n, t) ∉ K.S)
  /-- an alternative that can be empty has no token in FIRST -/
  altNull : ∀ n l r ms m, Occurs K.W n → n < K.W.parsed → K.W.node n = some (.alt l r) → Choice K.W n ms → m ∈ ms → Nullable K.W m → Silent K m
  /-- repetitions: some token in FIRST, none of FIRST in FOLLOW -/
  star : ∀ n i, Occurs K.W n → K.W.node n = some (.star i) → (∃ t, First K n t) ∧ ∀ t, First K n t → (n, t) ∉ K.S
  plus : ∀ n i, Occurs K.W n → K.W.node n = some (.plus i) → (∃ t, First K n t) ∧ ∀ t, First K n t → (n, t) ∉ K.S
  /-- the rules of a symbol, the last rule of the grammar first -/
  rules : K.W.rules.reverse.Pairwise fun r r' => ∀ i i' s, K.W.node r = some (.evolve i s) → K.W.node r' = some (.evolve i' s) →
    (∃ t, First K r t) ∧ (∀ t, First K r t → ¬ First K r' t) ∧ (Nullable K.W i' → ∀ t, First K r t → (s, t) ∉ K.S) ∧
    (reduces K.W K.F i = some true → ¬ Nullable K.W i' ∧ ∀ t, First K r' t → (s, t) ∉ K.S)
  /-- operators: no token for two operators that may occur at the same place, none that starts an operand, none that may
  follow the expression -/
  opAfter : ∀ n o, K.W.node n = some (.op o) → (o.post ++ o.bin).Nodup ∧ ∀ t ∈ o.post ++ o.bin, (n, t) ∉ K.S ∧ t ∉ o.paren.map (·.2)
  opBefore : ∀ n o s, K.W.node n = some (.op o) → K.W.node o.base = some (.nonterm s) →
    (o.pre ++ o.paren.map (·.1)).Nodup ∧ ∀ t ∈ o.pre ++ o.paren.map (·.1), ¬ First K s t
  /-- an expression with parentheses is not a start symbol -/
  opStart : ∀ n o r s, K.W.node n = some (.op o) → o.paren ≠ [] → r ∈ K.W.rules → K.W.node r = some (.evolve n s) → s ∉ K.W.start
  /-- only the end of the input follows a start symbol -/
  start : ∀ s t, s ∈ K.W.start → K.W.node s = some .sym → (s, t) ∈ K.S → K.W.node t = some .term → t = K.eofTok

/-- The input has the tokens `α` at position `p`. -/
def Reads (inp : Nat → Nat) : Nat → List Nat → Prop
  | _, [] => True
  | p, t :: α => inp p = t ∧ Reads inp (p + 1) α

end Verif.Gen
