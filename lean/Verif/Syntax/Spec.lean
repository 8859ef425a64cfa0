import Verif.Syntax.Model
import Verif.GLex.Spec

/-!
# Specification: what a rule says, whatever code it contains
-/

namespace Verif.Syntax

/-- What stands in a sentence: terminals, symbols, the labels put before them, and the ends of the parts of `try`. -/
inductive Mark
  | term (s : Name)
  | sym (s : Name)
  | label (l : Label)
  | tryBegin | tryEnd | rollBegin | rollCatch | rollEnd
deriving DecidableEq, Repr

/-- The sentences of an item.  Code, conditions and arguments of calls are disregarded; an inlined symbol is the symbol. -/
inductive W : Item → List Mark → Prop
  | zero : W .zero []
  | nonterm {s a} : W (.nonterm s a) [.sym s]
  | inl {s} : W (.inl s) [.sym s]
  | term {s} : W (.term s) [.term s]
  | ann {l i w} : W i w → W (.ann l i) (.label l :: w)
  | code {c} : W (.code c) []
  | act {i c w} : W i w → W (.act i c) w
  | cond {i c w} : W i w → W (.cond c i) w
  | left {l r w} : W l w → W (.alt l r) w
  | right {l r w} : W r w → W (.alt l r) w
  | cons {l r u v} : W l u → W r v → W (.cons l r) (u ++ v)
  | none {i} : W (.star i) []
  | again {i u v} : W i u → W (.star i) v → W (.star i) (u ++ v)
  | once {i w} : W i w → W (.plus i) w
  | more {i u v} : W i u → W (.plus i) v → W (.plus i) (u ++ v)
  | recover {i w} : W i w → W (.recover i) (.tryBegin :: w ++ [.tryEnd])
  | rollback {i j u v} : W i u → W j v → W (.rollback i j) (.rollBegin :: u ++ .rollCatch :: v ++ [.rollEnd])

/-- The items have the same sentences. -/
def Same (i j : Item) : Prop := ∀ w, W i w ↔ W j w

/-- Nothing but code. -/
def onlyCode : Item → Bool
  | .code _ => true
  | .act i _ => onlyCode i
  | .cond _ i => onlyCode i
  | .cons l r => onlyCode l && onlyCode r
  | _ => false

/-- Names as the scanner reads them (C71). -/
def IsIdent (n : Name) : Prop := ∃ c w, n = c :: w ∧ GLex.Letter c ∧ (∀ d ∈ w, GLex.LetterOrDigit d) ∧ GLex.wordToken n = (.named "T_IDENTIFIER", n)
def IsTerm (n : Name) : Prop := ∃ c w, n = c :: w ∧ GLex.Letter c ∧ (∀ d ∈ w, GLex.LetterOrDigit d) ∧ GLex.wordToken n = (.named "T_TERMINAL", n)

/-- All names are names. -/
def Named : Item → Prop
  | .nonterm s _ => IsIdent s
  | .inl s => IsIdent s
  | .term s => IsTerm s
  | .ann l i => IsIdent l.name ∧ Named i
  | .plus i => Named i
  | .star i => Named i
  | .act i _ => Named i
  | .alt l r => Named l ∧ Named r
  | .cons l r => Named l ∧ Named r
  | .cond _ i => Named i
  | .recover i => Named i
  | .rollback i j => Named i ∧ Named j
  | _ => True

/-- No part which has a place of its own consists of code alone: the alternatives, what is repeated, what is tried.  (Labels belong to terminals and symbols;
there is no operator and no invalid pointer.) -/
def Shown : Item → Prop
  | .ann _ i => (∃ s a, i = .nonterm s a) ∨ ∃ s, i = .term s
  | .plus i => Shown i ∧ onlyCode i = false
  | .star i => Shown i ∧ onlyCode i = false
  | .act i _ => Shown i
  | .alt l r => (Shown l ∧ onlyCode l = false) ∧ Shown r ∧ onlyCode r = false
  | .cons l r => Shown l ∧ Shown r
  | .cond _ i => Shown i
  | .recover i => Shown i ∧ onlyCode i = false
  | .rollback i j => (Shown i ∧ onlyCode i = false) ∧ Shown j ∧ onlyCode j = false
  | .op _ => False
  | .wild => False
  | _ => True

end Verif.Syntax
