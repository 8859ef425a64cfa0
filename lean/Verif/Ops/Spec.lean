import Verif.Ops.Model

/-!
# Specification: expression trees, priorities, spans
-/

namespace Verif.Ops

/-- Expressions. -/
inductive Tree
  | base (n : Nat)
  | paren (t : Tree)
  | pre (o : Op) (t : Tree)
  | post (o : Op) (t : Tree)
  | bin (o : Op) (l r : Tree)
  | tern (o : Op) (l m r : Tree)
deriving DecidableEq, Repr

/-- The expression written down, before `k`. -/
def Tree.write : Tree → Run → Run
  | .base n, k => .base n k
  | .paren t, k => .paren (t.write .stop) k
  | .pre o t, k => .pre o (t.write k)
  | .post o t, k => t.write (.post o k)
  | .bin o l r, k => l.write (.bin o (r.write k))
  | .tern o l m r, k => l.write (.tern o (m.write .stop) (r.write k))

/-- The number of tokens. -/
def Tree.size : Tree → Nat
  | .base n => n
  | .paren t => t.size + 2
  | .pre _ t => t.size + 1
  | .post _ t => t.size + 1
  | .bin _ l r => l.size + r.size + 1
  | .tern _ l m r => l.size + m.size + r.size + 2

/-- Operators whose right operand ends where the expression ends. -/
def Tree.rightEdge : Tree → List Op
  | .pre o t => o :: t.rightEdge
  | .bin o _ r => o :: r.rightEdge
  | .tern o _ _ r => o :: r.rightEdge
  | _ => []

/-- Operators whose left operand starts where the expression starts. -/
def Tree.leftEdge : Tree → List Op
  | .post o t => o :: t.leftEdge
  | .bin o l _ => o :: l.leftEdge
  | .tern o l _ _ => o :: l.leftEdge
  | _ => []

/-- For an expression between `M` and a later `N`: the left operator `M` gets it, as its priority is higher, or equal and `N` is left-associative. -/
def First (M N : Op) : Prop := N.prio < M.prio ∨ (N.prio = M.prio ∧ N.left = 1)

instance (M N : Op) : Decidable (First M N) := by unfold First; infer_instance

/-- Each operand is in accordance with priorities and associativity. -/
def Tree.Ok : Tree → Prop
  | .base _ => True
  | .paren t => t.Ok
  | .pre o t => t.Ok ∧ ∀ N ∈ t.leftEdge, ¬ First o N
  | .post o t => t.Ok ∧ ∀ M ∈ t.rightEdge, First M o
  | .bin o l r => l.Ok ∧ r.Ok ∧ (∀ M ∈ l.rightEdge, First M o) ∧ ∀ N ∈ r.leftEdge, ¬ First o N
  | .tern o l m r => l.Ok ∧ m.Ok ∧ r.Ok ∧ (∀ M ∈ l.rightEdge, First M o) ∧ ∀ N ∈ r.leftEdge, ¬ First o N

/-- Start and end of a node. -/
def Span (h : List Node) (p : Nat) (s e : Int) : Prop := ∃ x, h[p]? = some x ∧ x.start = s ∧ x.stop = e

/-- The nodes from `p` on, `F` being all of them, are the expression `t`, which starts at token `s`; each node but the first covers the tokens of its expression.
Parentheses have no node; their tokens belong to the node of the expression in them. -/
def Body (h : List Node) : Tree → Nat → Int → List Nat → Prop
  | .base _, p, _, F => F = [p] ∧ ∃ x, h[p]? = some x ∧ x.kind = .base
  | .paren t, p, s, F => Body h t p (s + 1) F
  | .pre o t, p, s, F => ∃ c G, F = p :: G ∧ (∃ x, h[p]? = some x ∧ x.kind = .pre ∧ x.op = o ∧ x.first = some c) ∧
      Body h t c (s + 1) G ∧ Span h c (s + 1) (s + 1 + t.size - 1)
  | .post o t, p, s, F => ∃ c G, F = p :: G ∧ (∃ x, h[p]? = some x ∧ x.kind = .post ∧ x.op = o ∧ x.first = some c) ∧
      Body h t c s G ∧ Span h c s (s + t.size - 1)
  | .bin o l r, p, s, F => ∃ c d G G', F = p :: (G ++ G') ∧ (∃ x, h[p]? = some x ∧ x.kind = .bin ∧ x.op = o ∧ x.first = some c ∧ x.second = some d) ∧
      (Body h l c s G ∧ Span h c s (s + l.size - 1)) ∧ Body h r d (s + l.size + 1) G' ∧ Span h d (s + l.size + 1) (s + l.size + 1 + r.size - 1)
  | .tern o l m r, p, s, F => ∃ c d e G G' G'', F = p :: (G ++ G' ++ G'') ∧
      (∃ x, h[p]? = some x ∧ x.kind = .tern ∧ x.op = o ∧ x.first = some c ∧ x.second = some d ∧ x.third = some e) ∧
      (Body h l c s G ∧ Span h c s (s + l.size - 1)) ∧
      (Body h m d (s + l.size + 1) G' ∧ Span h d (s + l.size + 1) (s + l.size + 1 + m.size - 1)) ∧
      Body h r e (s + l.size + 1 + m.size + 1) G'' ∧ Span h e (s + l.size + 1 + m.size + 1) (s + l.size + 1 + m.size + 1 + r.size - 1)

/-- The expression `t` at `p`, with the span of its first node. -/
def Shows (h : List Node) (t : Tree) (p : Nat) (s : Int) (F : List Nat) : Prop := Body h t p s F ∧ Span h p s (s + t.size - 1)

/-- A ternary operator is among those whose left operand starts where the expression starts. -/
def Tree.leftTern : Tree → Bool
  | .post _ t => t.leftTern
  | .bin _ l _ => l.leftTern
  | .tern _ _ _ _ => true
  | _ => false

/-- A postfix operator is among those whose left operand starts where the expression starts. -/
def Tree.leftPost : Tree → Bool
  | .post _ _ => true
  | .bin _ l _ => l.leftPost
  | .tern _ l _ _ => l.leftPost
  | _ => false

/-- No right operand starts with the first operand of a ternary operator, and no third operand starts with the operand of a postfix operator (parentheses
and middle operands apart). -/
def Tree.Plain : Tree → Prop
  | .base _ => True
  | .paren t => t.Plain
  | .pre _ t => t.Plain ∧ t.leftTern = false
  | .post _ t => t.Plain
  | .bin _ l r => l.Plain ∧ r.Plain ∧ r.leftTern = false
  | .tern _ l m r => l.Plain ∧ m.Plain ∧ r.Plain ∧ r.leftTern = false ∧ r.leftPost = false

/-- Without ternary operators. -/
def Run.NoTern : Run → Prop
  | .stop => True
  | .base _ k => k.NoTern
  | .pre _ k => k.NoTern
  | .paren i k => i.NoTern ∧ k.NoTern
  | .post _ k => k.NoTern
  | .bin _ k => k.NoTern
  | .tern _ _ _ => False

/-- Priorities and associativities have values that an `unsigned int` can have beside that of operands. -/
def Run.Small : Run → Prop
  | .stop => True
  | .base _ k => k.Small
  | .pre o k => o.prio < 4294967294 ∧ k.Small
  | .paren i k => i.Small ∧ k.Small
  | .post o k => o.prio < 4294967294 ∧ o.left ≤ 1 ∧ k.Small
  | .bin o k => o.prio < 4294967294 ∧ o.left ≤ 1 ∧ k.Small
  | .tern o i k => o.prio < 4294967294 ∧ o.left ≤ 1 ∧ i.Small ∧ k.Small

/-- The same for expressions. -/
def Tree.Small : Tree → Prop
  | .base _ => True
  | .paren t => t.Small
  | .pre o t => o.prio < 4294967294 ∧ t.Small
  | .post o t => o.prio < 4294967294 ∧ o.left ≤ 1 ∧ t.Small
  | .bin o l r => o.prio < 4294967294 ∧ o.left ≤ 1 ∧ l.Small ∧ r.Small
  | .tern o l m r => o.prio < 4294967294 ∧ o.left ≤ 1 ∧ l.Small ∧ m.Small ∧ r.Small

/-- Operands and operators in turn. -/
def Run.Fits : Run → Bool → Prop
  | .stop, e => e = true
  | .base _ k, e => e = false ∧ k.Fits true
  | .pre _ k, e => e = false ∧ k.Fits false
  | .paren i k, e => e = false ∧ i.Fits false ∧ k.Fits true
  | .post _ k, e => e = true ∧ k.Fits true
  | .bin _ k, e => e = true ∧ k.Fits false
  | .tern _ i k, e => e = true ∧ i.Fits false ∧ k.Fits false

end Verif.Ops
