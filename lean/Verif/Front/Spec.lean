import Verif.Syntax.Model

/-!
# Specification: the sentences of written rules
-/

namespace Verif.Front

open Verif.Syntax

/-- `Sen rs i ω`: the names of terminals `ω` are a sentence of the item, given the rules `rs`.  Operators stand before, behind,
between or around expressions, whatever their priorities.  For a symbol it is a sentence of one of its rules.  Code, conditions, labels and arguments do not count; a
part of `try` stands for itself. -/
inductive Sen (rs : List Rule) : Item → List Name → Prop
  | zero : Sen rs .zero []
  | term {s} : Sen rs (.term s) [s]
  | nonterm {s a r ω} : r ∈ rs → r.sym = s → Sen rs r.item ω → Sen rs (.nonterm s a) ω
  | inl {s r ω} : r ∈ rs → r.sym = s → Sen rs r.item ω → Sen rs (.inl s) ω
  | ann {l i ω} : Sen rs i ω → Sen rs (.ann l i) ω
  | code {c} : Sen rs (.code c) []
  | act {i c ω} : Sen rs i ω → Sen rs (.act i c) ω
  | cond {c i ω} : Sen rs i ω → Sen rs (.cond c i) ω
  | left {i j ω} : Sen rs i ω → Sen rs (.alt i j) ω
  | right {i j ω} : Sen rs j ω → Sen rs (.alt i j) ω
  | cons {i j α β} : Sen rs i α → Sen rs j β → Sen rs (.cons i j) (α ++ β)
  | none {i} : Sen rs (.star i) []
  | again {i α β} : Sen rs i α → Sen rs (.star i) β → Sen rs (.star i) (α ++ β)
  | once {i ω} : Sen rs i ω → Sen rs (.plus i) ω
  | more {i α β} : Sen rs i α → Sen rs (.plus i) β → Sen rs (.plus i) (α ++ β)
  | recover {i ω} : Sen rs i ω → Sen rs (.recover i) ω
  | try_ {i j ω} : Sen rs i ω → Sen rs (.rollback i j) ω
  | catch_ {i j ω} : Sen rs j ω → Sen rs (.rollback i j) ω
  | opBase {o s a ω} : o.base = .sym s a → Sen rs (.nonterm s a) ω → Sen rs (.op o) ω
  | opPre {o q p ω} : .pre q p ∈ o.decls → Sen rs (.op o) ω → Sen rs (.op o) (q.tok :: ω)
  | opPost {o q p a ω} : .post q p a ∈ o.decls → Sen rs (.op o) ω → Sen rs (.op o) (ω ++ [q.tok])
  | opBin {o q p a α β} : .bin q p a ∈ o.decls → Sen rs (.op o) α → Sen rs (.op o) β → Sen rs (.op o) (α ++ q.tok :: β)
  | opTern {o q q' p a α β γ} : .tern q q' p a ∈ o.decls → Sen rs (.op o) α → Sen rs (.op o) β → Sen rs (.op o) γ → Sen rs (.op o) (α ++ q.tok :: (β ++ q'.tok :: γ))
  | opParen {o q q' ω} : .paren q q' ∈ o.decls → Sen rs (.op o) ω → Sen rs (.op o) (q.tok :: (ω ++ [q'.tok]))

/-- The sentences of a symbol. -/
def Sentence (rs : List Rule) (s : Name) (ω : List Name) : Prop := ∃ r ∈ rs, r.sym = s ∧ Sen rs r.item ω

/-- The symbol is mentioned in the item. -/
def Mentions (s : Name) : Item → Prop
  | .nonterm s' _ => s' = s
  | .inl s' => s' = s
  | .ann _ i => Mentions s i
  | .plus i => Mentions s i
  | .star i => Mentions s i
  | .act i _ => Mentions s i
  | .alt i j => Mentions s i ∨ Mentions s j
  | .cons i j => Mentions s i ∨ Mentions s j
  | .cond _ i => Mentions s i
  | .recover i => Mentions s i
  | .rollback i j => Mentions s i ∨ Mentions s j
  | .op o => ∃ a, o.base = .sym s a
  | _ => False

/-- The symbol has one rule, and no rule mentions it. -/
def Alone (rs : List Rule) (s : Name) : Prop := (rs.filter fun r => r.sym = s).length = 1 ∧ ∀ r ∈ rs, ¬ Mentions s r.item

/-- The operators of a declaration. -/
def operators : OpDecl → List Operator
  | .bin q _ _ => [q]
  | .tern q q' _ _ => [q, q']
  | .pre q _ => [q]
  | .post q _ _ => [q]
  | .paren q q' => [q, q']

/-- The terminals of an item satisfy `P`. -/
def Terms (P : Name → Prop) : Item → Prop
  | .term s => P s
  | .ann _ i => Terms P i
  | .plus i => Terms P i
  | .star i => Terms P i
  | .act i _ => Terms P i
  | .alt i j => Terms P i ∧ Terms P j
  | .cons i j => Terms P i ∧ Terms P j
  | .cond _ i => Terms P i
  | .recover i => Terms P i
  | .rollback i j => Terms P i ∧ Terms P j
  | .op o => ∀ d ∈ o.decls, ∀ q ∈ operators d, P q.tok
  | _ => True

/-- No bare code stands below `@`, whose copy is an invalid pointer (C51, C89); the base of an operator rule is a symbol, and no postfix operator has the priority `0` without associativity (C110). -/
def Valid : Item → Prop
  | .ann _ i => Valid i
  | .plus i => Valid i
  | .star i => Valid i
  | .act i _ => Valid i
  | .alt i j => Valid i ∧ Valid j
  | .cons i j => Valid i ∧ Valid j
  | .cond _ i => Valid i
  | .recover i => Valid i
  | .rollback i j => Valid i ∧ Valid j
  | .wild => False
  | .op o => (∃ s a, o.base = .sym s a) ∧ ∀ q, .post q .zero none ∉ o.decls
  | _ => True

/-- No inlined symbols and no ternary operators; operator rules have a postfix or a binary operator; bare code and `try` only if `b` allows it. -/
def Simple (b : Prop) : Item → Prop
  | .ann _ i => Simple b i
  | .plus i => Simple b i
  | .star i => Simple b i
  | .act i _ => Simple b i
  | .alt i j => Simple b i ∧ Simple b j
  | .cons i j => Simple b i ∧ Simple b j
  | .cond _ i => Simple b i
  | .zero => True
  | .nonterm _ _ => True
  | .term _ => True
  | .code _ => b
  | .recover i => b ∧ Simple b i
  | .rollback i j => b ∧ Simple b i ∧ Simple b j
  | .op o => (∀ q q' p a, .tern q q' p a ∉ o.decls) ∧ ∃ q p, (∃ a, .post q p a ∈ o.decls) ∨ ∃ a, .bin q p a ∈ o.decls
  | _ => False

/-- An operator rule is the only rule of its symbol, and its base is not a symbol with the empty sentence (`EmptyOperatorChecker` reports these). -/
def OpsFine (rs : List Rule) : Prop := ∀ r ∈ rs, ∀ o, r.item = .op o → (rs.filter fun r' => r'.sym = r.sym).length = 1 ∧ ∀ s a, o.base = .sym s a → ¬ Sentence rs s []

end Verif.Front
