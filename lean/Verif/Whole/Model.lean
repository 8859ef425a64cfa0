import Verif.Gen.Model
import Verif.Read.Model

/-!
# Model: the generated parser on the generated lexer

Source: `/repo/src/kdev-pg-code-gen.cpp` lines 1082-1092 (`LA`, `yylex`, `rewind`), 1100-1105 (`blockErrors`), 1170-1176 (the constructor), and the lines given for
`Verif.Gen.step`, which emit the statements.

`Verif.Gen` runs the emitted statements on a sequence of tokens with a position.  Here they run on the members of the parser: `yytoken` and the token stream, which is the
lexer of `Verif.Read`.  A token is compared through its number.  Otherwise the simplifications are those of `Verif.Gen` and `Verif.Read`.
-/

namespace Verif.Whole

open Verif.Gen

/-- What the parser is compiled and linked with: the lexer on an input, a bound for the steps of one call of `read`, and the numbers `Token_X` of the terminal items. -/
structure Host where
  L : Read.Lx
  fuel : Nat
  kind : Nat → Int

/-- The numbers of items.  An item that is no terminal has none, and the parser never compares with one; here it is given a number that no token has. -/
def numbers (W : Grammar.World) (num : Nat → Nat) (t : Nat) : Int := if W.node t = some .term then num t else -(t : Int) - 1

/-- The parser for `W` with the token numbers `num` and the lexer `L`; `5 * n + 5` steps for a call of `read` on an input of length `n` are enough (C87). -/
def host (L : Read.Lx) (W : Grammar.World) (num : Nat → Nat) : Host := ⟨L, 5 * L.n + 5, numbers W num⟩

/-- User code: the results of conditions, the effect of actions on the user's state. -/
structure User where
  oracle : Nat → Bool
  act : Nat → Nat → Nat

/-- `try_startToken_i`, `try_startState_i`. -/
structure Mark where
  start : Int
  user : Nat
deriving DecidableEq, Repr

/-- The members of the parser, the local variables of the current function, and counters as in `Gen.State`. -/
structure PState where
  lx : Read.St
  /-- `yytoken` -/
  tok : Int
  asked : Nat := 0
  blocked : Bool := false
  errors : Nat := 0
  user : Nat := 0
  recovered : Nat := 0
  saved : List (Nat × Mark) := []
  blocks : List (Nat × Bool) := []
deriving DecidableEq, Repr

/-- The constructor, and `setTokenStream` with a new lexer. -/
def PState.init : PState := { lx := Read.St.init, tok := 1000 }

/-- `tokenStream->index() - 1` -/
def PState.here (σ : PState) : Int := (σ.lx.str.idx : Int) - 1

/-- `yylex()` -/
def PState.lex (H : Host) (σ : PState) : Option PState := (Read.read H.L H.fuel σ.lx).map fun r => { σ with lx := r.1, tok := r.2.kind }

/-- `rewind(index)` -/
def PState.rewind (H : Host) (σ : PState) (i : Int) : Option PState := (σ.lx.str.rewind i).bind fun t => PState.lex H { σ with lx := { σ.lx with str := t } }

/-- `while(idx >= tokenStream->size()) tokenStream->read();` -/
def fill (H : Host) (idx : Int) : Nat → Read.St → Option Read.St
  | 0, _ => none
  | f + 1, s => if (s.str.size : Int) ≤ idx then (Read.read H.L H.fuel s).bind fun r => fill H idx f r.1 else some s

/-- `LA(k)` (lines 1082-1083): the token, and the members after the call; `none` is undefined behaviour. -/
def PState.la (H : Host) (f : Nat) (σ : PState) (k : Int) : Option (PState × TokStream.Tok) :=
  let idx := σ.here + k - 1
  let old : Int := σ.lx.str.idx
  (σ.lx.str.rewind σ.lx.str.size).bind fun s1 => (fill H idx f { σ.lx with str := s1 }).bind fun l => (l.str.rewind old).bind fun s2 =>
    if 0 ≤ idx then (s2.at idx.toNat).map fun t => ({ σ with lx := { l with str := s2 } }, t) else none

/-- Conditions, with `yytoken`. -/
def eval (H : Host) (U : User) (y : Int) : Test → Nat → Bool × Nat
  | .always, k => (true, k)
  | .toks ts, k => (ts.any fun t => y == H.kind t, k)
  | .or a b, k => match eval H U y a k with
    | (true, k') => (true, k')
    | (false, k') => eval H U y b k'
  | .user a, k => match eval H U y a k with
    | (true, k') => (U.oracle k', k' + 1)
    | (false, k') => (false, k')

def pick (H : Host) (U : User) (y : Int) : List Row → Nat → Option Row × Nat
  | [], k => (none, k)
  | r :: rs, k =>
    if y = H.kind r.tok then
      if r.ask then if U.oracle k then (some r, k + 1) else pick H U y rs (k + 1)
      else (some r, k)
    else pick H U y rs k

def complain (c : Nat) (σ : PState) : Out × PState :=
  (leave c, if c = 0 ∧ ¬ σ.blocked then { σ with errors := σ.errors + 1 } else σ)

def PState.enter (σ : PState) : PState := { σ with saved := [], blocks := [] }
def PState.back (σ : PState) (caller : PState) : PState := { σ with saved := caller.saved, blocks := caller.blocks }

def closes (H : Host) (U : User) (r : Row) (σ : PState) : Bool × PState :=
  if σ.tok = H.kind r.tok2 then if r.ask2 then (U.oracle σ.asked, { σ with asked := σ.asked + 1 }) else (true, σ)
  else (false, σ)

def andThen (r : Option (Out × PState)) (k : PState → Option (Out × PState)) : Option (Out × PState) := match r with
  | some (.ok, σ) => k σ
  | r => r

def returned (c : Nat) (σ : PState) : Out × PState → Out × PState
  | (.ok, σ') => (.ok, σ'.back σ)
  | (_, σ') => complain c (σ'.back σ)

/-- One step of execution, as `Gen.step`. -/
def step (P : Nat → Option Stmt) (eofTok : Nat) (H : Host) (U : User) (go : Stmt → PState → Option (Out × PState)) (s : Stmt) (σ : PState) : Option (Out × PState) := match s with
  | .skip => some (.ok, σ)
  | .seq a b => andThen (go a σ) (go b)
  | .test t c => if σ.tok = H.kind t then some (.ok, σ) else some (complain c σ)
  | .lex => (σ.lex H).map fun σ => (.ok, σ)
  | .call s c => (P s).bind fun b => (go b σ.enter).map (returned c σ)
  | .code n => some (.ok, { σ with user := U.act n σ.user })
  | .ite t a b =>
    let v := eval H U σ.tok t σ.asked
    if v.1 then go a { σ with asked := v.2 } else go b { σ with asked := v.2 }
  | .fail c => some (leave c, σ)
  | .while t b =>
    let v := eval H U σ.tok t σ.asked
    if v.1 then andThen (go b { σ with asked := v.2 }) (go (.while t b)) else some (.ok, { σ with asked := v.2 })
  | .doWhile b t => andThen (go b σ) fun σ =>
      let v := eval H U σ.tok t σ.asked
      if v.1 then go (.doWhile b t) { σ with asked := v.2 } else some (.ok, { σ with asked := v.2 })
  | .save i => some (.ok, { σ with saved := (i, ⟨σ.here, σ.user⟩) :: σ.saved })
  | .block i => some (.ok, { σ with blocks := (i, σ.blocked) :: σ.blocks, blocked := true })
  | .unblock i => (lookup i σ.blocks).map fun b => (.ok, { σ with blocked := b })
  | .tryc i body after handler => (go body σ).bind fun r => match r.1 with
    | .ok => go after r.2
    | .goto j => if j = i then go handler r.2 else some r
    | .failed => some r
  | .restore i => (lookup i σ.saved).map fun v => (.ok, { σ with user := v.user })
  | .rewind i => (lookup i σ.saved).bind fun v => (σ.rewind H v.start).map fun σ => (.ok, σ)
  | .step i => (lookup i σ.saved).bind fun v =>
      let σ := { σ with recovered := σ.recovered + 1 }
      if v.start = σ.here ∧ σ.tok ≠ H.kind eofTok then (σ.lex H).map fun σ => (.ok, σ) else some (.ok, σ)
  | .skipTo ts => if σ.tok = H.kind eofTok ∨ ts.any (fun t => σ.tok == H.kind t) then some (.ok, σ) else (σ.lex H).bind (go (.skipTo ts))
  | .eof => if σ.tok = H.kind eofTok then some (.ok, σ) else some (.failed, σ)
  | .opLoop d true stack =>
    let v := pick H U σ.tok d.after σ.asked
    let σ := { σ with asked := v.2 }
    match v.1 with
    | none => some (.ok, σ)
    | some r => match r.kind with
      | .post => (σ.lex H).bind (go (.opLoop d true (settled r.prio r.left operand stack)))
      | .bin => (σ.lex H).bind (go (.opLoop d false (settled r.prio r.left r.prio stack)))
      | .tern => match settle r.prio r.left stack with
        | some ps => (σ.lex H).bind (go (.opLoop d false (r.prio :: ps)))
        | none => (σ.lex H).bind fun σ => andThen (go (.call d.self 0) σ) fun σ =>
            let v := closes H U r σ
            if v.1 then (v.2.lex H).bind (go (.opLoop d false [r.prio])) else some (.failed, v.2)
      | _ => none
  | .opLoop d false stack =>
    let v := pick H U σ.tok d.before σ.asked
    let σ := { σ with asked := v.2 }
    match v.1 with
    | some r => match r.kind with
      | .pre => (σ.lex H).bind (go (.opLoop d false (r.prio :: stack)))
      | .paren => (σ.lex H).bind fun σ =>
        let v := eval H U σ.tok d.selfTest σ.asked
        if v.1 then andThen (go (.call d.self 0) { σ with asked := v.2 }) fun σ =>
            let v := closes H U r σ
            if v.1 then (v.2.lex H).bind (go (.opLoop d true (operand :: stack))) else some (.failed, v.2)
        else some (.failed, { σ with asked := v.2 })
      | _ => none
    | none =>
      let v := eval H U σ.tok d.baseTest σ.asked
      if v.1 then andThen (go (.call d.base 0) { σ with asked := v.2 }) (go (.opLoop d true (operand :: stack)))
      else some (.failed, { σ with asked := v.2, errors := σ.errors + 1 })

def exec (P : Nat → Option Stmt) (eofTok : Nat) (H : Host) (U : User) : Nat → Stmt → PState → Option (Out × PState)
  | 0, _, _ => none
  | f + 1, s, σ => step P eofTok H U (exec P eofTok H U f) s σ

/-- Call the parse function of a symbol. -/
def parse (K : Ctx) (fuel : Nat) (H : Host) (U : User) (f s : Nat) (σ : PState) : Option (Out × PState) := match parseFun K fuel s with
  | none => none
  | some b => exec (parseFun K fuel) K.eofTok H U f b σ.enter

/-- What a program does: `parser.setTokenStream(&lexer); parser.yylex(); parser.parseS(&ast);`. -/
def run (K : Ctx) (fuel : Nat) (H : Host) (U : User) (f s : Nat) : Option (Out × PState) := (PState.init.lex H).bind (parse K fuel H U f s)

end Verif.Whole
