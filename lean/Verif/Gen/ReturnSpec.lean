import Verif.Gen.Spec
import Mathlib.Logic.Relation

/-!
# Specification: which items can be passed without a token, and which functions are called first

Both are read off the grammar.  A parser without left recursion and without loops over something that may be empty where the loop is entered should return on every input.
-/

namespace Verif.Gen

open Verif.Grammar

/-- The item can be passed without a token.  A try/recover item can, as it goes on after an error. -/
inductive Idle (W : World) : Nat → Prop
  | zero {n} : W.node n = some .zero → Idle W n
  | sym {n} : W.node n = some .sym → Idle W n
  | call {n s r i} : W.node n = some (.nonterm s) → r ∈ W.rules → W.node r = some (.evolve i s) → Idle W i → Idle W n
  | cons {n l r} : W.node n = some (.cons l r) → Idle W l → Idle W r → Idle W n
  | altL {n l r} : W.node n = some (.alt l r) → Idle W l → Idle W n
  | altR {n l r} : W.node n = some (.alt l r) → Idle W r → Idle W n
  | action0 {n} : W.node n = some (.action none) → Idle W n
  | action {n i} : W.node n = some (.action (some i)) → Idle W i → Idle W n
  | cond {n i} : W.node n = some (.cond i) → Idle W i → Idle W n
  | annot {n i} : W.node n = some (.annot i) → Idle W i → Idle W n
  | tryL {n l r} : W.node n = some (.tryc l (some r)) → Idle W l → Idle W n
  | tryR {n l r} : W.node n = some (.tryc l (some r)) → Idle W r → Idle W n
  | recover {n l} : W.node n = some (.tryc l none) → Idle W n
  | plus {n i} : W.node n = some (.plus i) → Idle W i → Idle W n
  | star {n i} : W.node n = some (.star i) → Idle W n
  | op {n o} : W.node n = some (.op o) → Idle W o.base → Idle W n
  /-- an inlined rule is left out if its condition does not hold -/
  | inlined {n s} : W.node n = some (.inlined s) → Idle W n
  | rule {n i s} : W.node n = some (.evolve i s) → Idle W n

/-- At token `t` the alternative is taken, whatever the user conditions are, unless an alternative before it is taken. -/
inductive Sure (K : Ctx) (t : Nat) : Nat → Prop
  | here {n} : (∀ l r, K.W.node n ≠ some (.alt l r)) → (∀ i, K.W.node n ≠ some (.cond i)) → First K n t → Sure K t n
  | altL {n l r} : K.W.node n = some (.alt l r) → Sure K t l → Sure K t n
  | altR {n l r} : K.W.node n = some (.alt l r) → Sure K t r → Sure K t n

/-- At token `t` rule `r` of symbol `s` is taken, whatever the user conditions are, unless another rule is tried first and taken. -/
def SureRule (K : Ctx) (t s r : Nat) : Prop := ∃ i, K.W.node r = some (.evolve i s) ∧ (∀ j, K.W.node i ≠ some (.cond j)) ∧ First K r t

/-- The item can be passed without a token at token `t`.  After an error a try/recover item has read a token, unless `t` is `EOF`. -/
inductive Stays (K : Ctx) (t : Nat) : Nat → Prop
  | zero {n} : K.W.node n = some .zero → Stays K t n
  | sym {n} : K.W.node n = some .sym → Stays K t n
  /-- the rules of a symbol are tried from the last to the first -/
  | call {n s pre r post i} : K.W.node n = some (.nonterm s) → K.W.rules = pre ++ r :: post → K.W.node r = some (.evolve i s) → (∀ r' ∈ post, ¬ SureRule K t s r') → Stays K t i → Stays K t n
  | cons {n l r} : K.W.node n = some (.cons l r) → Stays K t l → Stays K t r → Stays K t n
  | altL {n l r} : K.W.node n = some (.alt l r) → Stays K t l → Stays K t n
  | altR {n l r} : K.W.node n = some (.alt l r) → ¬ Sure K t l → Stays K t r → Stays K t n
  | action0 {n} : K.W.node n = some (.action none) → Stays K t n
  | action {n i} : K.W.node n = some (.action (some i)) → Stays K t i → Stays K t n
  | cond {n i} : K.W.node n = some (.cond i) → Stays K t i → Stays K t n
  | annot {n i} : K.W.node n = some (.annot i) → Stays K t i → Stays K t n
  | tryL {n l r} : K.W.node n = some (.tryc l r) → Stays K t l → Stays K t n
  | tryR {n l r} : K.W.node n = some (.tryc l (some r)) → Stays K t r → Stays K t n
  | recover {n l} : K.W.node n = some (.tryc l none) → t = K.eofTok → Stays K t n
  | plus {n i} : K.W.node n = some (.plus i) → Stays K t i → Stays K t n
  | star {n i} : K.W.node n = some (.star i) → ¬ First K n t → Stays K t n
  | op {n o} : K.W.node n = some (.op o) → Stays K t o.base → Stays K t n
  | inlined0 {n} : K.W.node n = some (.inlined none) → Stays K t n
  | inlined1 {n s} : K.W.node n = some (.inlined (some s)) → K.W.searchRule s = none → Stays K t n
  | inlined {n s r} : K.W.node n = some (.inlined (some s)) → K.W.searchRule s = some r → Stays K t r → Stays K t n
  | rule {n i s} : K.W.node n = some (.evolve i s) → Stays K t i → Stays K t n
  /-- an inlined rule is left out if its condition does not hold -/
  | without {n i s} : K.W.node n = some (.evolve i s) → ¬ SureRule K t s n → Stays K t n

/-- `Lead W n s`: symbol `s` may be the first thing in item `n`. -/
inductive Lead (W : World) : Nat → Nat → Prop
  | call {n s} : W.node n = some (.nonterm s) → Lead W n s
  | consL {n l r s} : W.node n = some (.cons l r) → Lead W l s → Lead W n s
  | consR {n l r s} : W.node n = some (.cons l r) → Idle W l → Lead W r s → Lead W n s
  | altL {n l r s} : W.node n = some (.alt l r) → Lead W l s → Lead W n s
  | altR {n l r s} : W.node n = some (.alt l r) → Lead W r s → Lead W n s
  | action {n i s} : W.node n = some (.action (some i)) → Lead W i s → Lead W n s
  | cond {n i s} : W.node n = some (.cond i) → Lead W i s → Lead W n s
  | annot {n i s} : W.node n = some (.annot i) → Lead W i s → Lead W n s
  | tryL {n l r s} : W.node n = some (.tryc l r) → Lead W l s → Lead W n s
  | tryR {n l r s} : W.node n = some (.tryc l (some r)) → Lead W r s → Lead W n s
  | plus {n i s} : W.node n = some (.plus i) → Lead W i s → Lead W n s
  | star {n i s} : W.node n = some (.star i) → Lead W i s → Lead W n s
  | op {n o s} : W.node n = some (.op o) → Lead W o.base s → Lead W n s
  | inlined {n t r s} : W.node n = some (.inlined (some t)) → W.searchRule t = some r → Lead W r s → Lead W n s
  | rule {n i t s} : W.node n = some (.evolve i t) → Lead W i s → Lead W n s

/-- A rule of `s` may begin with `t`. -/
def Left (W : World) (s t : Nat) : Prop := ∃ r ∈ W.rules, ∃ i, W.node r = some (.evolve i s) ∧ Lead W i t

/-- Wherever the condition of loop `n` holds, its body `i` reads a token: the loop begins with some token, and at none of these tokens the body can be passed without a token. -/
def Guarded (K : Ctx) (n i : Nat) : Prop := (∃ t, First K n t) ∧ ∀ t, First K n t → ¬ Stays K t i

/-- The grammars whose parsers return. -/
structure Returns (K : Ctx) : Prop where
  /-- no left recursion -/
  left : ∀ s, ¬ Relation.TransGen (Left K.W) s s
  /-- no loop over something that may be empty under the condition of the loop -/
  star : ∀ n i, Occurs K.W n → K.W.node n = some (.star i) → ¬ Idle K.W i ∨ Guarded K n i
  plus : ∀ n i, Occurs K.W n → K.W.node n = some (.plus i) → ¬ Idle K.W i ∨ Guarded K n i
  /-- the rules do not have `EOF` as a token -/
  eof : ¬ Occurs K.W K.eofTok
  opEof : ∀ n o, Occurs K.W n → K.W.node n = some (.op o) → K.eofTok ∉ o.pre ++ o.post ++ o.bin ++ o.tern.map (·.1) ++ o.tern.map (·.2) ++ o.paren.map (·.1) ++ o.paren.map (·.2)

end Verif.Gen
