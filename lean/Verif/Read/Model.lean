import Verif.TokStream.Model
import Verif.Lexer.Lookahead

/-!
# How a generated lexer is read

Source: `/repo/src/kdev-pg-generate.cpp` lines 640-760: the constructor, the macros for actions, the functions for rule sets and `read`;
`/repo/src/kdev-pg-regexp.cpp` lines 108-116: the `switch` with the actions; `/repo/src/kdev-pg-parser.yy` lines 185-290: what rules put into actions.

Simplifications:
* positions are distances from `begin()`, so `plain() - begin()` is the position itself;
* the state machine of a rule set is a function `scan` from positions to the position and the action it ends with (`Verif.Lexer`, C24); `scanOf` makes one
  from the automata of the rule sets;
* an action is the list of macros it comes to, chosen by the state (user code may test what it likes); other effects of user code are left out;
* calls of the code for entering and leaving rule sets are recorded in a list;
* references to tokens are values, as in `Verif.TokStream`.
-/

namespace Verif.Read

open Verif.TokStream

/-- The macros of generate.cpp lines 659-678, the method `setRuleSet` (lines 686-711) and the step back for a lookahead (parser.yy lines 222, 268). -/
inductive Stmt where
  | token (x : Nat)
  | done
  | ret (x : Nat)
  | eof
  | finish
  | skip
  | cont
  | fail
  | ruleSet (r : Nat)
  | setRuleSet (r : Nat)
  | back (k : Nat)
deriving DecidableEq, Repr

/-- A call of user code for rule sets. -/
inductive Call where
  | enter (r : Nat)
  | leave (r : Nat)
deriving DecidableEq, Repr

/-- Members of the lexer: the iterator's position, `spos`, `continueLexeme`, `m_ruleSet`, the token stream, and the calls made. -/
structure St where
  pos : Nat
  spos : Nat
  cont : Bool
  rs : Nat
  str : Stream
  calls : List Call
deriving DecidableEq, Repr

/-- A lexer on an input: the input's length, the state machines of the rule sets, and the actions (0 is the one for failures). -/
structure Lx where
  n : Nat
  scan : Nat → Nat → Option (Nat × Nat)
  code : Nat → Nat → St → List Stmt

/-- The constructor (lines 641-646); `State_start` is rule set 0, which is no loss of generality.  `spos` has no value; it is set before it is used, as
`continueLexeme` is false. -/
def St.init : St := ⟨0, 0, false, 0, Stream.init, []⟩

/-- `lxTOKEN(X)` (lines 665-666): `push`, then the members are set. -/
def St.token (s : St) (x : Nat) : St := { s with str := s.str.push ⟨x, s.spos, (s.pos : Int) - 1⟩ }

/-- `lxEOF` (line 669). -/
def St.eof (s : St) : St := { s with str := s.str.push ⟨1000, s.pos, s.pos⟩ }

/-- `lxDONE` (line 667): `Base::read()`. -/
def St.done (s : St) : Option (St × Tok) := s.str.read.map fun r => ({ s with str := r.1 }, r.2)

/-- `lxSET_RULE_SET(r)` in an action of rule set `cur` (line 678): the code for leaving is that of `CURRENT_RULE_SET`. -/
def St.change (s : St) (cur r : Nat) : St := { s with rs := r, calls := s.calls ++ [.leave cur, .enter r] }

/-- `setRuleSet(r)` (lines 686-711). -/
def St.setRuleSet (s : St) (r : Nat) : St := { s with rs := r, calls := s.calls ++ [.leave s.rs, .enter r] }

mutual
/-- `read()` (lines 722-739): tokens in the stream come first. -/
def read (L : Lx) : Nat → St → Option (St × Tok)
  | 0, _ => none
  | f + 1, s => if s.str.idx < s.str.size then s.done else lexeme L f s

/-- The function of a rule set (`LEXER_CORE_IMPL`, lines 714-720): at the end of the input `lxFINISH`; otherwise `spos` is set unless the lexeme continues,
and the state machine ends in an action. -/
def lexeme (L : Lx) : Nat → St → Option (St × Tok)
  | 0, _ => none
  | f + 1, s =>
    if s.pos < L.n then
      let s := if s.cont then { s with cont := false } else { s with spos := s.pos }
      match L.scan s.rs s.pos with
      | none => none
      | some (p, a) => act L f s.rs { s with pos := p } (L.code s.rs a { s with pos := p })
    else s.eof.done

/-- An action of rule set `cur` (regexp.cpp lines 109-115): behind its code there is `lxFINISH`. -/
def act (L : Lx) : Nat → Nat → St → List Stmt → Option (St × Tok)
  | 0, _, _, _ => none
  | _ + 1, _, s, [] => s.eof.done
  | f + 1, cur, s, .token x :: t => act L f cur (s.token x) t
  | _ + 1, _, s, .done :: _ => s.done
  | _ + 1, _, s, .ret x :: _ => (s.token x).done
  | f + 1, cur, s, .eof :: t => act L f cur s.eof t
  | _ + 1, _, s, .finish :: _ => s.eof.done
  | f + 1, _, s, .skip :: _ => read L f s
  | f + 1, _, s, .cont :: _ => read L f { s with cont := true }
  | f + 1, cur, s, .fail :: _ => act L f cur s (L.code cur 0 s)
  | f + 1, cur, s, .ruleSet r :: t => act L f cur (s.change cur r) t
  | f + 1, cur, s, .setRuleSet r :: t => act L f cur (s.setRuleSet r) t
  | f + 1, cur, s, .back k :: t => if k ≤ s.pos then act L f cur { s with pos := s.pos - k } t else none
end

/-- What a client does with the lexer: reading, and going back to an earlier token (`rewind`, `reset`). -/
inductive Op where
  | read
  | rewind (i : Int)
deriving DecidableEq, Repr

/-- A history of calls; the tokens read, each with its number (`index()` before the call). -/
def run (L : Lx) (f : Nat) : St → List Op → Option (St × List (Nat × Tok))
  | s, [] => some (s, [])
  | s, .read :: os => (read L f s).bind fun r => (run L f r.1 os).map fun q => (q.1, (s.str.idx, r.2) :: q.2)
  | s, .rewind i :: os => (s.str.rewind i).bind fun t => run L f { s with str := t } os

/-- The state machines of the rule sets on an input of code units (`QStringIterator`, `ByteStringIterator`); `d` are the automata. -/
def scanOf {C : Type} [Auto.CharSetLike C] (step : List (C × Nat) → Nat → Option Nat) (d : Nat → Auto.DFA C) (buf : List Nat) (r pos : Nat) : Option (Nat × Nat) :=
  Lexer.lex (Lexer.bufIter Lexer.unitNext buf) step (d r) (buf.length + 1) pos

/-- `lxBEGIN_IDX`, `lxCURR_IDX`, `lxLENGTH` (lines 660-664) in a state. -/
def St.beginIdx (s : St) : Nat := s.spos
def St.currIdx (s : St) : Nat := s.pos
def St.length (s : St) : Nat := s.pos

end Verif.Read
