import Verif.Read.Model

/-!
# What reading a lexer should give

A lexer of rules: each rule of a rule set says what becomes of the text it matches.  Written without the functions of the model.
-/

namespace Verif.Read

open Verif.TokStream

/-- What becomes of a match: a token, nothing (the text is passed over), or the lexeme goes on. -/
inductive Term where
  | tok (x : Nat)
  | skip
  | more
deriving DecidableEq, Repr

/-- A rule: how much of the match is lookahead, the rule set to go on with (if it is changed), and what becomes of the match. -/
structure Rule where
  ahead : Nat := 0
  next : Option Nat := none
  term : Term
deriving DecidableEq, Repr

/-- A lexer as a grammar file describes it: in rule set `r` at position `p`, the rule that matches and where the match ends; or no rule matches. -/
structure Spec where
  n : Nat
  found : Nat → Nat → Option (Rule × Nat)

/-- The rule set after a rule. -/
def Rule.after (u : Rule) (r : Nat) : Nat := u.next.getD r

/-- How a lexeme ends. -/
inductive End where
  | tok (x : Nat)
  | skip
  /-- the input ends, or no rule matches -/
  | stop
deriving DecidableEq, Repr

/-- In rule set `r` at `p` there is a lexeme up to (not including) `q`, then the rule set is `r'`: one match, after matches that let the lexeme go on. -/
inductive Lexeme (D : Spec) : Nat → Nat → Nat → Nat → End → Prop
  | tok {r p u q x} : p < D.n → D.found r p = some (u, q) → u.term = .tok x → Lexeme D r p (u.after r) (q - u.ahead) (.tok x)
  | skip {r p u q} : p < D.n → D.found r p = some (u, q) → u.term = .skip → Lexeme D r p (u.after r) (q - u.ahead) .skip
  | more {r p u q r' q' e} : p < D.n → D.found r p = some (u, q) → u.term = .more → Lexeme D (u.after r) (q - u.ahead) r' q' e → Lexeme D r p r' q' e
  | fail {r p} : p < D.n → D.found r p = none → Lexeme D r p r p .stop
  | eof {r p} : D.n ≤ p → Lexeme D r p r p .stop

/-- These are the first tokens from rule set `r` and position `p` on: each lexeme begins where the one before ended.  `end` of a token is its last position. -/
inductive Tokens (D : Spec) : Nat → Nat → List Tok → Prop
  | nil {r p} : Tokens D r p []
  | tok {r p r' q x ts} : Lexeme D r p r' q (.tok x) → Tokens D r' q ts → Tokens D r p (⟨x, p, (q : Int) - 1⟩ :: ts)
  | skip {r p r' q ts} : Lexeme D r p r' q .skip → Tokens D r' q ts → Tokens D r p ts
  /-- the end, or a failure: tokens `EOF` -/
  | stop {r p r' q ts} : Lexeme D r p r' q .stop → Tokens D r' q ts → Tokens D r p (⟨1000, q, q⟩ :: ts)

/-- The lexer `L` is made from the rules `D` as the parser of grammar files makes it (parser.yy lines 195-290, without user code): the step back for a
lookahead, possibly a change of rule sets, and `lxRETURN`, `lxSKIP` or `lxCONTINUE`; the failure action is left through `lxFINISH`. -/
structure Made (D : Spec) (L : Lx) : Prop where
  n : L.n = D.n
  fits : ∀ r p, p < D.n → match D.found r p with
    | none => ∃ a, L.scan r p = some (p, a) ∧ ∀ s, L.code r a s = []
    | some (u, q) => u.ahead ≤ q ∧ ∃ a, L.scan r p = some (q, a) ∧ ∀ s, L.code r a s =
        (if u.ahead = 0 then [] else [.back u.ahead]) ++ (match u.next with | none => [] | some r' => [.ruleSet r']) ++
        [match u.term with | .tok x => .ret x | .skip => .skip | .more => .cont]

/-- No rule takes an empty piece of text (of which the generator warns), nor one past the end. -/
def Spec.Advances (D : Spec) : Prop := ∀ r p u q, p < D.n → D.found r p = some (u, q) → p < q - u.ahead ∧ q ≤ D.n

/-- Histories in contract: `rewind` goes to a token that has been read (0 up to their number `n`); `c` is the current one. -/
def Valid : Nat → Nat → List Op → Prop
  | _, _, [] => True
  | n, c, .read :: os => Valid (max n (c + 1)) (c + 1) os
  | n, _, .rewind i :: os => 0 ≤ i ∧ i ≤ n ∧ Valid n i.toNat os

/-- The calls for rule sets from `r` on: always the current one is left and then another (or the same) entered; `r'` is the last. -/
inductive Paired : Nat → List Call → Nat → Prop
  | nil {r} : Paired r [] r
  | cons {r r' r'' cs} : Paired r' cs r'' → Paired r (.leave r :: .enter r' :: cs) r''

/-- No change of the rule set before an `lxSET_RULE_SET` of the same action, nor before `lxFAIL`. -/
def Tidy : List Stmt → Prop
  | [] => True
  | .ruleSet _ :: t => (∀ r, .ruleSet r ∉ t) ∧ .fail ∉ t
  | .setRuleSet _ :: t => (∀ r, .ruleSet r ∉ t) ∧ .fail ∉ t
  | _ :: t => Tidy t

end Verif.Read
