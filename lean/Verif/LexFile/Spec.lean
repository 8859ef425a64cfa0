import Verif.LexSyn.Meaning
import Verif.Read.Spec

/-!
# Specification: what the lexer of a file does with an input
-/

namespace Verif.LexFile.Spec

open Verif.LexSyn Verif.Auto Verif.Read

/-- Rules: the words a rule matches, and what becomes of a match. -/
abbrev Rules := List (Lang × Rule)

/-- On the rest `w` of the input, the rule `u` takes the first `k` units: this is the longest piece any rule matches, and of the rules that match it the first. -/
def Picks (es : Rules) (w : List Nat) (u : Rule) (k : Nat) : Prop :=
  k ≤ w.length ∧ (∃ (i : Nat) (L : Lang), es[i]? = some (L, u) ∧ L (w.take k) ∧ ∀ j < i, ∀ e, es[j]? = some e → ¬ e.1 (w.take k)) ∧
    ∀ k', k < k' → k' ≤ w.length → ∀ e ∈ es, ¬ e.1 (w.take k')

/-- The lexer with rules `es r` in rule set `r`, on the input `buf`. -/
structure Describes (es : Nat → Rules) (buf : List Nat) (D : Read.Spec) : Prop where
  n : D.n = buf.length
  found : ∀ r p u q, p < buf.length → D.found r p = some (u, q) → p ≤ q ∧ Picks (es r) (buf.drop p) u (q - p)
  none : ∀ r p, p < buf.length → D.found r p = none → ∀ k ≤ (buf.drop p).length, ∀ e ∈ es r, ¬ e.1 ((buf.drop p).take k)

/-- Blanks, newlines and semicolons. -/
def Quiet (c : Text) : Prop := ∀ x ∈ c, x = 10 ∨ x = 32 ∨ x = 59

/-- What becomes of a match. -/
def term (tok : Text → Nat) : Act → Term
  | .terminal s => .tok (tok s)
  | .continue_ => .more
  | .skip => .skip

/-- What a rule with code `c` and action `a` does: the code is empty, or changes the rule set. -/
inductive Does (tok num : Text → Nat) : Text → Act → Rule → Prop
  | stay {c a} : Quiet c → Does tok num c a { term := term tok a }
  | change {c s c' a} : Quiet c → Quiet c' → 41 ∉ s → Does tok num (c ++ LexSyn.Spec.bytes "lxSET_RULE_SET(" ++ s ++ LexSyn.Spec.bytes ")" ++ c') a { next := some (num s), term := term tok a }

/-- Names of tokens have no parenthesis in them. -/
def Named : Act → Prop
  | .terminal s => 41 ∉ s
  | _ => True

/-- A word of `B` occurs in `w`. -/
def Contains (B : Lang) (w : List Nat) : Prop := ∃ x y z, w = x ++ y ++ z ∧ B y

/-- A word of `B` ends in `w` before the end of `w`. -/
def EndsEarly (B : Lang) (w : List Nat) : Prop := ∃ x y z, w = x ++ y ++ z ∧ B y ∧ z ≠ []

/-- All words of `B` have the length `m`, which is not 0. -/
def Fixed (B : Lang) (m : Nat) : Prop := 0 < m ∧ ∀ v, B v → v.length = m

/-- What a rule of the file stands for.  With a lookahead of fixed length, the rule matches with the lookahead and then steps back; with a barrier of fixed length, the rule matches up to the
first occurrence of the barrier.  Other lookaheads and barriers are ignored (the generator warns of them). -/
inductive Entry (K : LexSyn.Spec.Reading) (size : Nat) (tok num : Text → Nat) (N : Text → Lang) : E → Behind → Text → Act → Rules → Prop
  | plain {x c a u} : Does tok num c a u → Named a → Entry K size tok num N x .nothing c a [(LexSyn.Spec.den K size N x, u)]
  | ahead {x y c a u m} : Does tok num c a u → Named a → Fixed (LexSyn.Spec.den K size N y) m →
      Entry K size tok num N x (.lookahead y) c a [(Cat (LexSyn.Spec.den K size N x) (LexSyn.Spec.den K size N y), { u with ahead := m })]
  | noAhead {x y c a u} : Does tok num c a u → Named a → (¬ ∃ m, Fixed (LexSyn.Spec.den K size N y) m) →
      Entry K size tok num N x (.lookahead y) c a [(LexSyn.Spec.den K size N x, u)]
  | barrier {x y c a u m} : Does tok num c a u → Named a → Fixed (LexSyn.Spec.den K size N y) m →
      Entry K size tok num N x (.barrier y) c a
        [(fun w => LexSyn.Spec.den K size N x w ∧ ¬ Contains (LexSyn.Spec.den K size N y) w, u),
          (fun w => Cat (LexSyn.Spec.den K size N x) (LexSyn.Spec.den K size N y) w ∧ ¬ EndsEarly (LexSyn.Spec.den K size N y) w, { u with ahead := m })]
  | noBarrier {x y c a u} : Does tok num c a u → Named a → (¬ ∃ m, Fixed (LexSyn.Spec.den K size N y) m) →
      Entry K size tok num N x (.barrier y) c a [(LexSyn.Spec.den K size N x, u)]

/-- The rules of a section, for given words of the names. -/
inductive Section (K : LexSyn.Spec.Reading) (size : Nat) (tok num : Text → Nat) : (Text → Lang) → List Decl → Rules → Prop
  | nil {N} : Section K size tok num N [] []
  | define {N s x ds es} : Section K size tok num (LexSyn.Spec.redefine N s (LexSyn.Spec.den K size N x)) ds es → Section K size tok num N (.define s x :: ds) es
  | rule {N x y c a ds es es'} : Entry K size tok num N x y c a es → Section K size tok num N ds es' → Section K size tok num N (.rule x y c a :: ds) (es ++ es')
  | fail {N c ds es} : Section K size tok num N ds es → Section K size tok num N (.fail c :: ds) es
  | enter {N c ds es} : Section K size tok num N ds es → Section K size tok num N (.enter c :: ds) es
  | leave {N c ds es} : Section K size tok num N ds es → Section K size tok num N (.leave c :: ds) es

/-- The rules of rule set `e` in a file. -/
inductive File (K : LexSyn.Spec.Reading) (size : Nat) (tok num : Text → Nat) (e : Text) : (Text → Lang) → List (Option Text × List Decl) → Rules → Prop
  | nil {N} : File K size tok num e N [] []
  | here {N s ds ss es es'} : LexSyn.Spec.target s = e → Section K size tok num N ds es → File K size tok num e (LexSyn.Spec.finalNames K size N ds) ss es' →
      File K size tok num e N ((s, ds) :: ss) (es ++ es')
  | other {N s ds ss es'} : LexSyn.Spec.target s ≠ e → File K size tok num e (LexSyn.Spec.finalNames K size N ds) ss es' → File K size tok num e N ((s, ds) :: ss) es'

/-- What the generator needs of the rules of a rule set: there is one; each is the first to match some word; and some word that no rule matches can be continued to one that a rule matches. -/
structure Usable (es : Rules) : Prop where
  ne : es ≠ []
  use : ∀ (i : Nat) e, es[i]? = some e → ∃ w, e.1 w ∧ ∀ j < i, ∀ e', es[j]? = some e' → ¬ e'.1 w
  rej : ∃ u v, (∀ e ∈ es, ¬ e.1 u) ∧ ∃ e ∈ es, e.1 (u ++ v)

end Verif.LexFile.Spec
