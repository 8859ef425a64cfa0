import Verif.LexSyn.Model

/-!
# Specification: how a regular expression is written

A table of strengths, and a way of writing that puts parentheses (in brackets: brackets) around every operand weaker than its place demands.
-/

namespace Verif.LexSyn.Spec

open Verif.LexSyn

/-- Strength of the outermost operator, outside (`false`) and inside (`true`) brackets: `|` is weakest, then `&`, `^`, the prefixes `~` and `?`, juxtaposition, `@`, the suffixes.  In brackets
juxtaposition does not concatenate: concatenations and words stand in parentheses there. -/
def strength (b : Bool) : E → Nat
  | .alt _ _ => 0
  | .and _ _ => 1
  | .but _ _ => 2
  | .neg _ | .opt _ => 3
  | .cat _ _ => if b then 7 else 4
  | .sepBy _ _ => 5
  | .star _ | .plus _ => 6
  | _ => 7

def paren (p : Bool) (ts : List Tok) : List Tok := if p then .lp :: ts ++ [.rp] else ts

/-- Grouping: parentheses outside brackets and brackets inside, as parentheses inside brackets switch to the way of writing outside. -/
def group (b : Bool) (ts : List Tok) : List Tok := if b then .lb :: ts ++ [.rb] else .lp :: ts ++ [.rp]

/-- The text of an operand `x` where at least strength `k` is demanded. -/
def operand (b : Bool) (k : Nat) (x : E) (ts : List Tok) : List Tok := if strength b x < k then group b ts else ts

/-- The text of an expression, outside (`false`) or inside (`true`) brackets.  `|`, `&`, juxtaposition and `@` group to the left, `^` to the right. -/
def text (b : Bool) : E → List Tok
  | .eps => [.lp, .rp]
  | .dot => [.dot]
  | .str s => [.str s]
  | .word s => paren b [.unq s]
  | .coll s => if b then [.unq s] else [.lb, .unq s, .rb]
  | .range s => if b then [.range s] else [.lb, .range s, .rb]
  | .named s => [.named s]
  | .alt x y => operand b 0 x (text b x) ++ .bar :: operand b 1 y (text b y)
  | .and x y => operand b 1 x (text b x) ++ .amp :: operand b 2 y (text b y)
  | .but x y => operand b 3 x (text b x) ++ .hat :: operand b 2 y (text b y)
  | .neg x => .tilde :: operand b 3 x (text b x)
  | .opt x => .opt :: operand b 3 x (text b x)
  | .cat x y => paren b (operand false 4 x (text false x) ++ operand false 5 y (text false y))
  | .sepBy x y => operand b 5 x (text b x) ++ .at_ :: operand b 6 y (text b y)
  | .star x => operand b 6 x (text b x) ++ [.star]
  | .plus x => operand b 6 x (text b x) ++ [.plus]

/-- A token that may stand directly in front of a prefix operator. -/
def Before (t : Tok) : Prop := t = .bar ∨ t = .amp ∨ t = .hat ∨ t = .tilde ∨ t = .opt ∨ t = .lp ∨ t = .lb

/-- Tokens that are expressions by themselves, with the expressions they stand for outside and inside brackets. -/
inductive Single (b : Bool) : Tok → E → Prop
  | dot : Single b .dot .dot
  | str {s} : Single b (.str s) (.str s)
  | unq {s} : Single b (.unq s) (if b then .coll s else .word s)
  | range {s} : b = true → Single b (.range s) (.range s)
  | named {s} : Single b (.named s) (.named s)

end Verif.LexSyn.Spec
