import Verif.Grammar.Model

/-!
# Specification: derivations

`Der W n α`: item `n` derives the sentential form `α`, a list of terminals and symbols (nodes).  A symbol may be left as it is
or be replaced by what one of its rules derives.  `+`, `*` and operator expressions have their own rules here; the nodes made by
`BnfVisitor` are alternatives and sequences and derive what those derive.
-/

namespace Verif.Grammar

inductive Der (W : World) : Nat → List Nat → Prop
  | zero {n} : W.node n = some .zero → Der W n []
  | term {n} : W.node n = some .term → Der W n [n]
  | sym {n} : W.node n = some .sym → Der W n [n]
  | expand {n r i α} : W.node n = some .sym → r ∈ W.rules → W.node r = some (.evolve i n) → Der W i α → Der W n α
  | evolve {n i s α} : W.node n = some (.evolve i s) → Der W i α → Der W n α
  | nonterm {n s α} : W.node n = some (.nonterm s) → Der W s α → Der W n α
  | inlined {n s α} : W.node n = some (.inlined (some s)) → Der W s α → Der W n α
  | cons {n l r α β} : W.node n = some (.cons l r) → Der W l α → Der W r β → Der W n (α ++ β)
  | altL {n l r α} : W.node n = some (.alt l r) → Der W l α → Der W n α
  | altR {n l r α} : W.node n = some (.alt l r) → Der W r α → Der W n α
  | action0 {n} : W.node n = some (.action none) → Der W n []
  | action {n i α} : W.node n = some (.action (some i)) → Der W i α → Der W n α
  | cond {n i α} : W.node n = some (.cond i) → Der W i α → Der W n α
  | annot {n i α} : W.node n = some (.annot i) → Der W i α → Der W n α
  | tryL {n l r α} : W.node n = some (.tryc l r) → Der W l α → Der W n α
  | tryR {n l r α} : W.node n = some (.tryc l (some r)) → Der W r α → Der W n α
  | plus1 {n i α} : W.node n = some (.plus i) → Der W i α → Der W n α
  | plusS {n i α β} : W.node n = some (.plus i) → Der W i α → Der W n β → Der W n (α ++ β)
  | star0 {n i} : W.node n = some (.star i) → Der W n []
  | starS {n i α β} : W.node n = some (.star i) → Der W i α → Der W n β → Der W n (α ++ β)
  | opBase {n o α} : W.node n = some (.op o) → Der W o.base α → Der W n α
  | opPre {n o t α} : W.node n = some (.op o) → t ∈ o.pre → Der W n α → Der W n (t :: α)
  | opPost {n o t α} : W.node n = some (.op o) → t ∈ o.post → Der W n α → Der W n (α ++ [t])
  | opBin {n o t α β} : W.node n = some (.op o) → t ∈ o.bin → Der W n α → Der W n β → Der W n (α ++ t :: β)
  | opTern {n o t u α β γ} : W.node n = some (.op o) → (t, u) ∈ o.tern → Der W n α → Der W n β → Der W n γ →
      Der W n (α ++ t :: (β ++ u :: γ))
  | opParen {n o t u α} : W.node n = some (.op o) → (t, u) ∈ o.paren → Der W n α → Der W n (t :: (α ++ [u]))

/-- The item can be absent. -/
def Nullable (W : World) (n : Nat) : Prop := Der W n []

/-- A direct part of an item, as written in the grammar. -/
inductive Part (W : World) : Nat → Nat → Prop
  | evolve {n i s} : W.node n = some (.evolve i s) → Part W n i
  | consL {n l r} : W.node n = some (.cons l r) → Part W n l
  | consR {n l r} : W.node n = some (.cons l r) → Part W n r
  | altL {n l r} : W.node n = some (.alt l r) → Part W n l
  | altR {n l r} : W.node n = some (.alt l r) → Part W n r
  | action {n i} : W.node n = some (.action (some i)) → Part W n i
  | cond {n i} : W.node n = some (.cond i) → Part W n i
  | annot {n i} : W.node n = some (.annot i) → Part W n i
  | tryL {n l r} : W.node n = some (.tryc l r) → Part W n l
  | tryR {n l r} : W.node n = some (.tryc l (some r)) → Part W n r
  | plus {n i} : W.node n = some (.plus i) → Part W n i
  | star {n i} : W.node n = some (.star i) → Part W n i
  | opBase {n o} : W.node n = some (.op o) → Part W n o.base

/-- The item occurs in a rule of the grammar (or is the rule itself). -/
inductive Occurs (W : World) : Nat → Prop
  | rule {r} : r ∈ W.rules → Occurs W r
  | part {n m} : Occurs W n → Part W n m → Occurs W m

/-- What one alternative of the rewritten operator grammar looks like, its nodes being `k`, `k + 1`, ...; `top` stands for the
whole expression. -/
def BodyAt (W : World) (top : Nat) : OpBody → Nat → Prop
  | .pre t, k => W.node k = some (.cons t top)
  | .post t, k => W.node k = some (.cons top t)
  | .bin t, k => W.node k = some (.cons top (k + 1)) ∧ W.node (k + 1) = some (.cons t top)
  | .tern t u, k => W.node k = some (.cons top (k + 1)) ∧ W.node (k + 1) = some (.cons t (k + 2)) ∧
      W.node (k + 2) = some (.cons top (k + 3)) ∧ W.node (k + 3) = some (.cons u top)
  | .paren t u, k => W.node k = some (.cons t (k + 1)) ∧ W.node (k + 1) = some (.cons top u)

/-- The number of these nodes. -/
def OpBody.size : OpBody → Nat
  | .pre _ => 1
  | .post _ => 1
  | .bin _ => 2
  | .tern _ _ => 4
  | .paren _ _ => 2

/-- A chain of alternatives that ends with the base. -/
def ChainAt (W : World) (top base : Nat) : List OpBody → Nat → Prop
  | [], k => k = base
  | b :: bs, k => ∃ r, W.node k = some (.alt (k + 1) r) ∧ BodyAt W top b (k + 1) ∧ (bs ≠ [] → r = k + 1 + b.size) ∧ ChainAt W top base bs r

/-- The nodes kept for `+`, `*` and operator items are those `BnfVisitor` makes. -/
structure BnfOk (W : World) : Prop where
  plus : ∀ n i, W.node n = some (.plus i) → ∃ c a, W.bnf n = some c ∧ W.node c = some (.cons i a) ∧ W.node a = some (.alt W.zero c)
  star : ∀ n i, W.node n = some (.star i) → ∃ c a, W.bnf n = some a ∧ W.node c = some (.cons i a) ∧ W.node a = some (.alt W.zero c)
  op : ∀ n o, W.node n = some (.op o) → ∃ k, W.bnf n = some k ∧ ChainAt W k o.base o.bodies k ∧ (o.bodies ≠ [] → W.parsed ≤ k)

/-- What the parser and `BnfVisitor` guarantee about the nodes. -/
structure Wf (W : World) : Prop where
  bnf : BnfOk W
  /-- there is one zero node -/
  zero : W.node W.zero = some .zero
  oneZero : ∀ n, W.node n = some .zero → n = W.zero
  terminals : ∀ t ∈ W.terminals, W.node t = some .term
  rules : ∀ r ∈ W.rules, r < W.parsed ∧ ∃ i s, W.node r = some (.evolve i s)
  /-- nodes refer to nodes -/
  valid : ∀ n m, Part W n m → ∃ it, W.node m = some it
  /-- a rule is not part of an item -/
  parts : ∀ n m i s, Part W n m → W.node m ≠ some (.evolve i s)
  /-- the parser creates the parts of an item before the item; the operator item is an exception -/
  order : ∀ n m, n < W.parsed → Part W n m → m < n ∨ ∃ o, W.node n = some (.op o)
  /-- the nodes made by `BnfVisitor` are sequences and alternatives -/
  made : ∀ n it, W.parsed ≤ n → W.node n = some it → (∃ l r, it = .cons l r) ∨ ∃ l r, it = .alt l r
  symbols : ∀ n s, (W.node n = some (.nonterm s) ∨ W.node n = some (.inlined (some s)) ∨ ∃ i, W.node n = some (.evolve i s)) →
    W.node s = some .sym
  inlined : ∀ n, W.node n ≠ some (.inlined none)
  opBase : ∀ n o, W.node n = some (.op o) → ∃ s, W.node o.base = some (.nonterm s)
  opToks : ∀ n o, W.node n = some (.op o) → (∀ t ∈ o.pre ++ o.post ++ o.bin, W.node t = some .term) ∧
    ∀ p ∈ o.tern ++ o.paren, W.node p.1 = some .term ∧ W.node p.2 = some .term

/-- All terminals are declared (`UndefinedTokenChecker` reports the others). -/
def Declared (W : World) : Prop := ∀ t, W.node t = some .term → t ∈ W.terminals

/-- No operator item has a base that can be empty (`EmptyOperatorChecker` reports them). -/
def OpsOk (W : World) : Prop := ∀ n o, W.node n = some (.op o) → ¬ Nullable W o.base

/-- `NZ b n`: item `n` derives the empty sequence in such a way that every symbol expanded on the way derives it with at least
one explicitly empty item (`0`, a `*`), not from bare actions `[: .. :]` alone; `b = true` asks the same of `n` itself. -/
inductive NZ (W : World) : Bool → Nat → Prop
  | zero {b n} : W.node n = some .zero → NZ W b n
  | expand {b n r i} : W.node n = some .sym → r ∈ W.rules → W.node r = some (.evolve i n) → NZ W true i → NZ W b n
  | evolve {b n i s} : W.node n = some (.evolve i s) → NZ W b i → NZ W b n
  | nonterm {b n s} : W.node n = some (.nonterm s) → NZ W b s → NZ W b n
  | inlined {b n s} : W.node n = some (.inlined (some s)) → NZ W b s → NZ W b n
  | consL {b n l r} : W.node n = some (.cons l r) → NZ W b l → NZ W false r → NZ W b n
  | consR {b n l r} : W.node n = some (.cons l r) → NZ W false l → NZ W b r → NZ W b n
  | altL {b n l r} : W.node n = some (.alt l r) → NZ W b l → NZ W b n
  | altR {b n l r} : W.node n = some (.alt l r) → NZ W b r → NZ W b n
  | action0 {n} : W.node n = some (.action none) → NZ W false n
  | action {b n i} : W.node n = some (.action (some i)) → NZ W b i → NZ W b n
  | cond {b n i} : W.node n = some (.cond i) → NZ W b i → NZ W b n
  | annot {b n i} : W.node n = some (.annot i) → NZ W b i → NZ W b n
  | tryL {b n l r} : W.node n = some (.tryc l r) → NZ W b l → NZ W b n
  | tryR {b n l r} : W.node n = some (.tryc l (some r)) → NZ W b r → NZ W b n
  | plus {b n i} : W.node n = some (.plus i) → NZ W b i → NZ W b n
  | star {b n i} : W.node n = some (.star i) → NZ W b n

/-- Every symbol that can be empty can be so by an explicitly empty item.  Holds if there are no bare actions; see
`bareOk_of_none`. -/
def BareOk (W : World) : Prop := ∀ s, W.node s = some .sym → Nullable W s → NZ W true s

/-- `n` may start with item `m`, as far as `reducesToEpsilon` looks: it does not look into `*` and operator items. -/
inductive Starts (W : World) : Nat → Nat → Prop
  | refl {n} : Starts W n n
  | consL {n l r m} : W.node n = some (.cons l r) → Starts W l m → Starts W n m
  | consR {n l r m} : W.node n = some (.cons l r) → Nullable W l → Starts W r m → Starts W n m
  | altL {n l r m} : W.node n = some (.alt l r) → Starts W l m → Starts W n m
  | altR {n l r m} : W.node n = some (.alt l r) → Starts W r m → Starts W n m
  | action {n i m} : W.node n = some (.action (some i)) → Starts W i m → Starts W n m
  | cond {n i m} : W.node n = some (.cond i) → Starts W i m → Starts W n m
  | annot {n i m} : W.node n = some (.annot i) → Starts W i m → Starts W n m
  | tryL {n l r m} : W.node n = some (.tryc l r) → Starts W l m → Starts W n m
  | tryR {n l r m} : W.node n = some (.tryc l (some r)) → Starts W r m → Starts W n m
  | plus {n i m} : W.node n = some (.plus i) → Starts W i m → Starts W n m
  | nonterm {n s m} : W.node n = some (.nonterm s) → Starts W s m → Starts W n m
  | inlined {n s m} : W.node n = some (.inlined (some s)) → Starts W s m → Starts W n m

/-- No item that cannot be empty starts both sides of a choice, or both an item that can be empty and what follows it.  This
holds for LL(1) grammars. -/
structure LeadOk (W : World) : Prop where
  alt : ∀ n l r m, n < W.parsed → W.node n = some (.alt l r) → Starts W l m → Starts W r m → Nullable W m
  tryc : ∀ n l r m, n < W.parsed → W.node n = some (.tryc l (some r)) → Starts W l m → Starts W r m → Nullable W m
  cons : ∀ n l r m, n < W.parsed → W.node n = some (.cons l r) → Nullable W l → Starts W l m → Starts W r m → Nullable W m
  /-- no token is used for two operators of one item -/
  op : ∀ n o, W.node n = some (.op o) → (o.pre ++ o.post ++ o.bin ++ o.tern.map (·.1) ++ o.paren.map (·.1)).Nodup

end Verif.Grammar
