import Verif.Vars.Model

/-!
# What a syntax tree should be

Written without the functions of the model: a relation between items, stretches of the token stream and the values the annotations meet there, in the order
of the text.
-/

namespace Verif.Vars

/-- What may stand for a stretch of tokens: an item with the values of its annotations, or a node for a symbol. -/
inductive Goal
  | item (i : Item) (ev : List (Decl × Tree))
  | node (s : Nat) (t : Tree)

/-- The values a member collects: all of them for a sequence, the last for a plain one. -/
def collected (ev : List (Decl × Tree)) (n : String) (seq : Bool) : List Tree :=
  let all := (ev.filter fun p => p.1.temp = false ∧ p.1.name = n ∧ p.1.seq = seq).map (·.2)
  if seq then all else all.getLast?.toList

/-- `vars` holds what the members have collected, and nothing else. -/
def Holds (ev : List (Decl × Tree)) (vars : List (String × Bool × List Tree)) : Prop :=
  (∀ n b v, (n, b, v) ∈ vars → v = collected ev n b) ∧ ∀ n b, collected ev n b ≠ [] → ∃ v, (n, b, v) ∈ vars

/-- Tokens `i` up to (not including) `j` are an instance of the goal. -/
inductive Built (G : Grammar) (toks : Nat → Nat) (eof : Nat) : Goal → Nat → Nat → Prop
  | zero {i} : Built G toks eof (.item .zero []) i i
  | tok {i t} : toks i = t → Built G toks eof (.item (.atom (.tok t)) []) i (i + 1)
  | sym {i j s t} : Built G toks eof (.node s t) i j → Built G toks eof (.item (.atom (.sym s)) []) i j
  | annTok {i t d} : toks i = t → Built G toks eof (.item (.ann d (.tok t)) [(d, .tok i)]) i (i + 1)
  | annSym {i j s t d} : Built G toks eof (.node s t) i j → Built G toks eof (.item (.ann d (.sym s)) [(d, t)]) i j
  | inl {i j s r rs ev} : G.rules s = r :: rs → Built G toks eof (.item r.item ev) i j → (G.start s = true → toks j = eof) →
      Built G toks eof (.item (.inl s) ev) i j
  /-- an inlined rule may be passed over (see C47) -/
  | inlSkip {i s} : Built G toks eof (.item (.inl s) []) i i
  | cons {i j k l r ev ev'} : Built G toks eof (.item l ev) i j → Built G toks eof (.item r ev') j k → Built G toks eof (.item (.cons l r) (ev ++ ev')) i k
  | altL {i j l r ev} : Built G toks eof (.item l ev) i j → Built G toks eof (.item (.alt l r) ev) i j
  | altR {i j l r ev} : Built G toks eof (.item r ev) i j → Built G toks eof (.item (.alt l r) ev) i j
  | starNil {i x} : Built G toks eof (.item (.star x) []) i i
  | starCons {i j k x ev ev'} : Built G toks eof (.item x ev) i j → Built G toks eof (.item (.star x) ev') j k →
      Built G toks eof (.item (.star x) (ev ++ ev')) i k
  | plusOne {i j x ev} : Built G toks eof (.item x ev) i j → Built G toks eof (.item (.plus x) ev) i j
  | plusCons {i j k x ev ev'} : Built G toks eof (.item x ev) i j → Built G toks eof (.item (.plus x) ev') j k →
      Built G toks eof (.item (.plus x) (ev ++ ev')) i k
  | act {i j x ev} : Built G toks eof (.item x ev) i j → Built G toks eof (.item (.act x) ev) i j
  | cond {i j x ev} : Built G toks eof (.item x ev) i j → Built G toks eof (.item (.cond x) ev) i j
  | recover {i j x fl ev} : Built G toks eof (.item x ev) i j → Built G toks eof (.item (.recover x fl) ev) i j
  /-- a failed `try/recover` passes over tokens -/
  | recovered {i j x fl} : i ≤ j → (toks j = eof ∨ toks j ∈ fl) → Built G toks eof (.item (.recover x fl) []) i j
  | tried {i j x y ev} : Built G toks eof (.item x ev) i j → Built G toks eof (.item (.rollback x y) ev) i j
  | caught {i j x y ev} : Built G toks eof (.item y ev) i j → Built G toks eof (.item (.rollback x y) ev) i j
  /-- a node: start and end, and the members with their values -/
  | node {i j s r ev vars} : r ∈ G.rules s → Built G toks eof (.item r.item ev) i j → (G.start s = true → toks j = eof) → Holds ev vars →
      Built G toks eof (.node s (.node s i ((j : Int) - 1) vars)) i j

/-- No annotations, and no inlined rules, which might have some. -/
def Plain : Item → Prop
  | .ann _ _ => False
  | .inl _ => False
  | .cons l r => Plain l ∧ Plain r
  | .alt l r => Plain l ∧ Plain r
  | .star x => Plain x
  | .plus x => Plain x
  | .act x => Plain x
  | .cond x => Plain x
  | .recover x _ => Plain x
  | .rollback x y => Plain x ∧ Plain y
  | _ => True

/-- What `try` stands before has no annotations. -/
def TryPlain : Item → Prop
  | .cons l r => TryPlain l ∧ TryPlain r
  | .alt l r => TryPlain l ∧ TryPlain r
  | .star x => TryPlain x
  | .plus x => TryPlain x
  | .act x => TryPlain x
  | .cond x => TryPlain x
  | .recover x _ => Plain x ∧ TryPlain x
  | .rollback x y => Plain x ∧ TryPlain x ∧ TryPlain y
  | _ => True

/-- The token range `[a, b)` of a value. -/
def Spans : Tree → Int → Int → Prop
  | .tok k, a, b => a = k ∧ b = k + 1
  | .node _ s e _, a, b => a = s ∧ b = e + 1

/-- The values follow each other between `a` and `b` without overlap. -/
inductive Ordered : List Tree → Int → Int → Prop
  | nil {a b} : a ≤ b → Ordered [] a b
  | cons {t l a b c d} : a ≤ b → Spans t b c → b ≤ c → Ordered l c d → Ordered (t :: l) a d

end Verif.Vars
