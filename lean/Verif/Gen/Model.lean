import Verif.Grammar.Model

/-!
# Model of the generated parser

Source: `/repo/src/kdev-pg-code-gen.cpp` lines 36-890 (`generateCondition`, `generateTestCondition`, `generateParserCall`,
`generateTokenTest`, `generateRecovery`, `CodeGenerator`, `GenerateParserRule`) and 1082-1110 (`yylex`, `rewind`, `blockErrors`).

`gen` is the code generator: it produces statements of a small language that stands for the emitted C++.  `exec` runs such
statements.  Token kinds are identified with the terminal nodes, parse functions with the symbol nodes.

What is kept of the running parser: the position in the token stream (`tokenStream->index() - 1`, so that `yytoken` is the token
at that position), the local variables `try_startToken_N`, `try_startState_N`, `blockErrors_N` of the current function,
`mBlockErrors`, the number of reported errors, and the user's parser state, a number which user code may change.

Simplifications:
* the token stream is a function from positions to tokens; after the end it gives EOF for ever;
* results of user conditions are given by an arbitrary stream `oracle` of booleans, consumed one by one, so that a condition may
  give any result at any time; user code in actions changes nothing but the user state (it does not call the parser);
* AST nodes, local declarations, arguments and members are left out (`visitAnnotation`, lines 437-559, tests the token or calls
  the function like the annotated item alone does); `copyCurrentState` does not give a null pointer; `mUnsafe` is always false
  (kdev-pg.cpp line 84);
* unsigned arithmetic on priorities does not wrap around (priorities below 2^32 - 2).
-/

namespace Verif.Gen

open Verif.Grammar

/-- A condition of an emitted `if` or `while`. -/
inductive Test
  /-- `true /*epsilon*/` -/
  | always
  /-- `yytoken == Token_A || yytoken == Token_B ...` -/
  | toks (ts : List Nat)
  /-- `a || b` -/
  | or (a b : Test)
  /-- `(a) && (user code)` -/
  | user (a : Test)
deriving DecidableEq, Repr

/-- The kinds of operators tested in the operator loop. -/
inductive OpKind
  | pre | post | bin | tern | paren
deriving DecidableEq, Repr

/-- One operator as emitted: its token, the second token of `?:` or parentheses, `priority`, `left` (1 if left-associative, else
0) and whether a user condition is attached to the tokens. -/
structure Row where
  kind : OpKind
  tok : Nat
  tok2 : Nat := 0
  prio : Nat := 0
  left : Nat := 0
  ask : Bool := false
  ask2 : Bool := false
deriving DecidableEq, Repr

/-- What `visitOperator` puts into the emitted loop. -/
structure OpDesc where
  /-- `mSym`, the symbol whose function is called inside parentheses and between `?` and `:` -/
  self : Nat
  selfTest : Test
  /-- the symbol of `mBase` -/
  base : Nat
  baseTest : Test
  /-- postfix, binary and ternary operators, in the order of the emitted tests -/
  after : List Row
  /-- prefix operators and parentheses, in the order of the emitted tests -/
  before : List Row
deriving DecidableEq, Repr

/-- Emitted statements.  Catch number 0 is "no catch": `return false`. -/
inductive Stmt
  | skip
  | seq (a b : Stmt)
  /-- `if (yytoken != Token_t) { report; return false; }` or `{ goto __catch_c; }` (lines 126-151) -/
  | test (t c : Nat)
  /-- `yylex();` -/
  | lex
  /-- `if (!parseS(..)) { report; return false; }` or `{ goto __catch_c; }` (lines 79-124) -/
  | call (s c : Nat)
  /-- user code of action or rule `n` -/
  | code (n : Nat)
  | ite (t : Test) (a b : Stmt)
  /-- `return false;` or `goto __catch_c;` -/
  | fail (c : Nat)
  | while (t : Test) (b : Stmt)
  | doWhile (b : Stmt) (t : Test)
  /-- `try_startToken_i = tokenStream->index() - 1; try_startState_i = copyCurrentState();` -/
  | save (i : Nat)
  /-- `blockErrors_i = blockErrors(true);` -/
  | block (i : Nat)
  /-- `blockErrors(blockErrors_i);` -/
  | unblock (i : Nat)
  /-- `{ body } after if (false) { __catch_i: handler }` -/
  | tryc (i : Nat) (body after handler : Stmt)
  /-- `restoreState(try_startState_i);` -/
  | restore (i : Nat)
  /-- `rewind(try_startToken_i);` -/
  | rewind (i : Nat)
  /-- `if (try_startToken_i == tokenStream->index() - 1 && yytoken != Token_EOF) yylex();` -/
  | step (i : Nat)
  /-- `while (yytoken != Token_EOF && yytoken != ...) { yylex(); }` -/
  | skipTo (ts : List Nat)
  /-- `if (Token_EOF != yytoken) { return false; }` -/
  | eof
  /-- `while(true) { if(expectOperator) .. else .. }` with the current values of `expectOperator` and of the priorities on
  `opStack`, the last entry first -/
  | opLoop (d : OpDesc) (expect : Bool) (stack : List Nat)
deriving DecidableEq, Repr

/-- What is known of an operator besides its tokens (kdev-pg-ast.h lines 179-263). -/
structure OpAttr where
  prio : Nat := 0
  left : Nat := 0
  ask : Bool := false
  ask2 : Bool := false
deriving DecidableEq, Repr

/-- The input of the code generator. -/
structure Ctx where
  W : World
  /-- FIRST and FOLLOW sets -/
  F : Sets
  S : Sets
  eofTok : Nat
  /-- attributes of the operators: item, kind, position in the list -/
  attr : Nat → OpKind → Nat → OpAttr := fun _ _ _ => {}
  /-- `tryCatch_counter` at the beginning of the function of a symbol -/
  count : Nat → Nat := fun _ => 0

/-- `generateCondition(s)` (lines 41-60). -/
def ofSet (W : World) (s : List Nat) : Test :=
  if s.all fun x => W.node x = some .zero then .always else .toks (s.filter (isTerm W))

/-- `generateTestCondition(node)` (lines 62-77). -/
def testOf (K : Ctx) (n : Nat) : Test :=
  if K.W.node n = some .term then .toks [n] else ofSet K.W (K.F.of n)

/-- `nodeCast<ConditionItem*>(node)`. -/
def isCond (W : World) (n : Nat) : Bool := match W.node n with
  | some (.cond _) => true
  | _ => false

/-- `visitAlternative` lines 256-276: the alternatives that are not alternatives, from left to right. -/
def flatten (W : World) : Nat → Nat → Option (List Nat)
  | 0, _ => none
  | f + 1, n => match W.node n with
    | some (.alt l r) => (flatten W f l).bind fun a => (flatten W f r).map (a ++ ·)
    | _ => some [n]

/-- The condition emitted for an alternative (lines 282-295). -/
def altTest (K : Ctx) (n : Nat) : Test := if isCond K.W n then .user (testOf K n) else testOf K n

/-- The condition emitted by `visitEvolve` (lines 322-341). -/
def ruleTest (K : Ctx) (r i s : Nat) : Option Test :=
  (reduces K.W K.F i).map fun e =>
    let t := if e then .or (testOf K r) (ofSet K.W (K.S.of s)) else testOf K r
    if isCond K.W i then .user t else t

/-- The rows for the operators of one kind. -/
def rows1 (K : Ctx) (n : Nat) (k : OpKind) (ts : List Nat) : List Row :=
  ts.mapIdx fun i t => let a := K.attr n k i; { kind := k, tok := t, prio := a.prio, left := a.left, ask := a.ask }

def rows2 (K : Ctx) (n : Nat) (k : OpKind) (ts : List (Nat × Nat)) : List Row :=
  ts.mapIdx fun i t => let a := K.attr n k i
    { kind := k, tok := t.1, tok2 := t.2, prio := a.prio, left := a.left, ask := a.ask, ask2 := a.ask2 }

/-- `node->mSymbol` of a non-terminal item. -/
def symOf (W : World) (n : Nat) : Option Nat := match W.node n with
  | some (.nonterm s) => some s
  | _ => none

/-- What `visitOperator` emits (lines 561-790); `self` is `mSym`.  An operator item is the whole item of its rule and
`InlineChecker` refuses to inline it, so `mCurrentCatchId` is 0.  `none`: the base is not a non-terminal (it is cast without a
check), or there is neither a postfix nor a binary nor a ternary operator (the emitted text is then not valid C++, as `else`
follows `{`). -/
def opDesc (K : Ctx) (self n : Nat) (o : OpItem) : Option OpDesc :=
  if o.post = [] ∧ o.bin = [] ∧ o.tern = [] then none
  else (symOf K.W o.base).map fun b =>
    { self := self, selfTest := testOf K self, base := b, baseTest := testOf K b,
      after := rows1 K n .post o.post ++ rows1 K n .bin o.bin ++ rows2 K n .tern o.tern,
      before := rows1 K n .pre o.pre ++ rows2 K n .paren o.paren }

mutual

/-- `CodeGenerator::visitNode` in the function of symbol `self`: item `n`, `mCurrentCatchId = c`, `tryCatch_counter = k`.  Gives
the statement and the new counter. -/
def gen (K : Ctx) (self : Nat) : Nat → Nat → Nat → Nat → Option (Stmt × Nat)
  | 0, _, _, _ => none
  | f + 1, n, c, k => match K.W.node n with
    | none => none
    -- lines 206-216
    | some .zero => some (.skip, k)
    | some .sym => some (.skip, k)
    -- lines 218-221
    | some (.nonterm s) => some (.call s c, k)
    -- lines 223-229
    | some .term => some (.seq (.test n c) .lex, k)
    -- lines 231-247
    | some (.plus i) => (gen K self f i c k).map fun b => (.doWhile b.1 (testOf K n), b.2)
    | some (.star i) => (gen K self f i c k).map fun b => (.while (testOf K n) b.1, b.2)
    -- lines 249-258
    | some (.action none) => some (.code n, k)
    | some (.action (some i)) => (gen K self f i c k).map fun b => (.seq b.1 (.code n), b.2)
    | some (.cond i) => gen K self f i c k
    -- lines 437-559
    | some (.annot i) => gen K self f i c k
    -- lines 260-314
    | some (.alt l r) => (flatten K.W f l).bind fun a => (flatten K.W f r).bind fun b => genAlts K self f (a ++ b) c k
    -- lines 316-319
    | some (.cons l r) =>
      (gen K self f l c k).bind fun a => (gen K self f r c a.2).map fun b => (.seq a.1 b.1, b.2)
    -- lines 321-360, without an `else` part
    | some (.evolve i s) => (genRule K self f n i s c k).map fun x => (.ite x.1 x.2.1 .skip, x.2.2)
    -- lines 362-430, try/recover
    | some (.tryc l none) =>
      let id := k + 1
      (gen K self f l id id).map fun b =>
        (.seq (.save id) (.tryc id b.1 .skip (.seq (.restore id)
          (.seq (.step id) (.skipTo ((K.S.of n).filter (isTerm K.W)))))), b.2)
    -- lines 362-430, try/rollback
    | some (.tryc l (some r)) =>
      let id := k + 1
      (gen K self f l id id).bind fun b => (gen K self f r c b.2).map fun h =>
        (.seq (.block id) (.seq (.save id) (.tryc id b.1 (.unblock id) (.seq (.restore id)
          (.seq (.unblock id) (.seq (.rewind id) h.1))))), h.2)
    -- lines 561-790
    | some (.op o) => (opDesc K self n o).map fun d => (.opLoop d false [], k)
    -- kdev-pg-default-visitor.cpp: visitInlinedNonTerminal visits the rule of the symbol
    | some (.inlined none) => some (.skip, k)
    | some (.inlined (some s)) => match K.W.searchRule s with
      | none => some (.skip, k)
      | some r => gen K self f r c k

/-- The chain of `if`s for the alternatives (lines 278-313). -/
def genAlts (K : Ctx) (self : Nat) : Nat → List Nat → Nat → Nat → Option (Stmt × Nat)
  | 0, _, _, _ => none
  | _ + 1, [], c, k => some (.fail c, k)
  | f + 1, n :: ns, c, k =>
    (gen K self f n c k).bind fun a => (genAlts K self f ns c a.2).map fun b => (.ite (altTest K n) a.1 b.1, b.2)

/-- `visitEvolve` (lines 321-360) for rule `r`: item `i`, symbol `s`: the condition, the body, the new counter. -/
def genRule (K : Ctx) (self : Nat) : Nat → Nat → Nat → Nat → Nat → Nat → Option (Test × Stmt × Nat)
  | 0, _, _, _, _, _ => none
  | f + 1, r, i, s, c, k =>
    (ruleTest K r i s).bind fun t => (gen K self f i c k).map fun b =>
      (t, .seq (.code r) (if s ∈ K.W.start then .seq b.1 .eof else b.1), b.2)

end

/-- `env.find(sym)` and following (kdev-pg-environment.h lines 18-38): a `QMultiMap` gives the values of a key with the most
recently inserted first, and the rules are inserted in the order of the list. -/
def rulesOf (W : World) (s : Nat) : List Nat :=
  (W.rules.filter fun r => match W.node r with
    | some (.evolve _ s') => s' = s
    | _ => false).reverse

/-- The chain of rules in a parse function (lines 843-862). -/
def genRules (K : Ctx) (self fuel : Nat) : List Nat → Nat → Option (Stmt × Nat)
  | [], k => some (.fail 0, k)
  | r :: rs, k => match K.W.node r with
    | some (.evolve i s) => (genRule K self fuel r i s 0 k).bind fun a =>
        (genRules K self fuel rs a.2.2).map fun b => (.ite a.1 a.2.1 b.1, b.2)
    | _ => none

/-- `GenerateParserRule` (lines 804-890): the body of the parse function of a symbol. -/
def parseFun (K : Ctx) (fuel s : Nat) : Option Stmt := (genRules K s fuel (rulesOf K.W s) (K.count s)).map (·.1)

/-! ### Running the parser -/

/-- What is stored by `save` and `block`. -/
structure Saved where
  pos : Nat
  user : Nat
deriving DecidableEq, Repr

structure State where
  pos : Nat := 0
  /-- number of user conditions evaluated so far -/
  asked : Nat := 0
  /-- `mBlockErrors` -/
  blocked : Bool := false
  /-- number of calls of `expectedToken` and `expectedSymbol` -/
  errors : Nat := 0
  /-- the user's parser state -/
  user : Nat := 0
  /-- how often the recovery part of a try/recover block was entered (not in the code; used to state properties) -/
  recovered : Nat := 0
  /-- the variables `try_startToken_i` and `try_startState_i` -/
  saved : List (Nat × Saved) := []
  /-- the variables `blockErrors_i` -/
  blocks : List (Nat × Bool) := []
deriving DecidableEq, Repr

/-- How a statement ends. -/
inductive Out
  /-- normally -/
  | ok
  /-- with `return false` -/
  | failed
  /-- with `goto __catch_i` -/
  | goto (i : Nat)
deriving DecidableEq, Repr

/-- The surroundings of the generated parser. -/
structure Env where
  inp : Nat → Nat
  oracle : Nat → Bool
  /-- effect of the code of action `n` on the user's state -/
  act : Nat → Nat → Nat

/-- The value of a condition and the number of user conditions evaluated. -/
def Test.eval (E : Env) (p : Nat) : Test → Nat → Bool × Nat
  | .always, k => (true, k)
  | .toks ts, k => (E.inp p ∈ ts, k)
  | .or a b, k => match a.eval E p k with
    | (true, k') => (true, k')
    | (false, k') => b.eval E p k'
  | .user a, k => match a.eval E p k with
    | (true, k') => (E.oracle k', k' + 1)
    | (false, k') => (false, k')

/-- The chain `if(yytoken == .. && ..) .. else if ..` over operators: the operator taken and the number of conditions
evaluated. -/
def pick (E : Env) (t : Nat) : List Row → Nat → Option Row × Nat
  | [], k => (none, k)
  | r :: rs, k =>
    if r.tok = t then
      if r.ask then if E.oracle k then (some r, k + 1) else pick E t rs (k + 1)
      else (some r, k)
    else pick E t rs k

/-- `return false` or `goto`. -/
def leave (c : Nat) : Out := if c = 0 then .failed else .goto c

/-- Lines 107-122, 130-150: report, unless errors are blocked, and leave. -/
def complain (c : Nat) (st : State) : Out × State :=
  (leave c, if c = 0 ∧ ¬ st.blocked then { st with errors := st.errors + 1 } else st)

/-- `while(priority < opStack.last().p + left)` (lines 598-611): `none` if it ends by `br = true; break`, else the entries that
are left. -/
def settle (prio left : Nat) : List Nat → Option (List Nat)
  | [] => none
  | p :: ps => if prio < p + left then settle prio left ps else some (p :: ps)

/-- The value -2 of an operand on `opStack`. -/
def operand : Nat := 4294967294

/-- The stack after an operator which enters with priority `np`: at the root `push_front` onto the emptied stack, else
`push_back`. -/
def settled (prio left np : Nat) (stack : List Nat) : List Nat := match settle prio left stack with
  | none => [np]
  | some ps => np :: ps

/-- The state in which a function is called and the state after its return: local variables are its own. -/
def State.enter (st : State) : State := { st with saved := [], blocks := [] }
def State.back (st : State) (caller : State) : State := { st with saved := caller.saved, blocks := caller.blocks }

def State.lex (st : State) : State := { st with pos := st.pos + 1 }

def lookup {α : Type} (i : Nat) (l : List (Nat × α)) : Option α := (l.find? fun p => p.1 = i).map (·.2)

/-- The test of the second token in parentheses and ternary operators. -/
def closes (E : Env) (r : Row) (st : State) : Bool × State :=
  if E.inp st.pos = r.tok2 then if r.ask2 then (E.oracle st.asked, { st with asked := st.asked + 1 }) else (true, st)
  else (false, st)

/-- Go on after a statement that ended normally. -/
def andThen (r : Option (Out × State)) (k : State → Option (Out × State)) : Option (Out × State) := match r with
  | some (.ok, st) => k st
  | r => r

/-- The outcome of a call whose body ended with `r`. -/
def returned (c : Nat) (st : State) : Out × State → Out × State
  | (.ok, st') => (.ok, st'.back st)
  | (_, st') => complain c (st'.back st)

/-- One step of execution: `go` runs the parts.  `P` gives the bodies of the parse functions; `none`: use of a variable that is
not set, or the parts gave no result. -/
def step (P : Nat → Option Stmt) (eofTok : Nat) (E : Env) (go : Stmt → State → Option (Out × State)) (s : Stmt) (st : State) :
    Option (Out × State) := match s with
  | .skip => some (.ok, st)
  | .seq a b => andThen (go a st) (go b)
  | .test t c => if E.inp st.pos = t then some (.ok, st) else some (complain c st)
  | .lex => some (.ok, st.lex)
  | .call s c => (P s).bind fun b => (go b st.enter).map (returned c st)
  | .code n => some (.ok, { st with user := E.act n st.user })
  | .ite t a b =>
    let v := t.eval E st.pos st.asked
    if v.1 then go a { st with asked := v.2 } else go b { st with asked := v.2 }
  | .fail c => some (leave c, st)
  | .while t b =>
    let v := t.eval E st.pos st.asked
    if v.1 then andThen (go b { st with asked := v.2 }) (go (.while t b)) else some (.ok, { st with asked := v.2 })
  | .doWhile b t => andThen (go b st) fun st =>
      let v := t.eval E st.pos st.asked
      if v.1 then go (.doWhile b t) { st with asked := v.2 } else some (.ok, { st with asked := v.2 })
  | .save i => some (.ok, { st with saved := (i, ⟨st.pos, st.user⟩) :: st.saved })
  | .block i => some (.ok, { st with blocks := (i, st.blocked) :: st.blocks, blocked := true })
  | .unblock i => (lookup i st.blocks).map fun b => (.ok, { st with blocked := b })
  | .tryc i body after handler => (go body st).bind fun r => match r.1 with
    | .ok => go after r.2
    | .goto j => if j = i then go handler r.2 else some r
    | .failed => some r
  | .restore i => (lookup i st.saved).map fun v => (.ok, { st with user := v.user })
  | .rewind i => (lookup i st.saved).map fun v => (.ok, { st with pos := v.pos })
  | .step i => (lookup i st.saved).map fun v =>
      let st := { st with recovered := st.recovered + 1 }
      (.ok, if v.pos = st.pos ∧ E.inp st.pos ≠ eofTok then st.lex else st)
  | .skipTo ts => if E.inp st.pos = eofTok ∨ E.inp st.pos ∈ ts then some (.ok, st) else go (.skipTo ts) st.lex
  | .eof => if E.inp st.pos = eofTok then some (.ok, st) else some (.failed, st)
  | .opLoop d true stack =>
    let v := pick E (E.inp st.pos) d.after st.asked
    let st := { st with asked := v.2 }
    match v.1 with
    | none => some (.ok, st)
    | some r => match r.kind with
      | .post => go (.opLoop d true (settled r.prio r.left operand stack)) st.lex
      | .bin => go (.opLoop d false (settled r.prio r.left r.prio stack)) st.lex
      | .tern => match settle r.prio r.left stack with
        | some ps => go (.opLoop d false (r.prio :: ps)) st.lex
        | none => andThen (go (.call d.self 0) st.lex) fun st =>
            let v := closes E r st
            if v.1 then go (.opLoop d false [r.prio]) v.2.lex else some (.failed, v.2)
      | _ => none
  | .opLoop d false stack =>
    let v := pick E (E.inp st.pos) d.before st.asked
    let st := { st with asked := v.2 }
    match v.1 with
    | some r => match r.kind with
      | .pre => go (.opLoop d false (r.prio :: stack)) st.lex
      | .paren =>
        let v := d.selfTest.eval E st.lex.pos st.asked
        if v.1 then andThen (go (.call d.self 0) { st.lex with asked := v.2 }) fun st =>
            let v := closes E r st
            if v.1 then go (.opLoop d true (operand :: stack)) v.2.lex else some (.failed, v.2)
        else some (.failed, { st.lex with asked := v.2 })
      | _ => none
    | none =>
      let v := d.baseTest.eval E st.pos st.asked
      if v.1 then andThen (go (.call d.base 0) { st with asked := v.2 }) (go (.opLoop d true (operand :: stack)))
      -- lines 783-787: reported even if errors are blocked
      else some (.failed, { st with asked := v.2, errors := st.errors + 1 })

/-- Run a statement; `none` also if the fuel is used up. -/
def exec (P : Nat → Option Stmt) (eofTok : Nat) (E : Env) : Nat → Stmt → State → Option (Out × State)
  | 0, _, _ => none
  | f + 1, s, st => step P eofTok E (exec P eofTok E f) s st

/-- Run the parse function of a symbol. -/
def parse (K : Ctx) (fuel : Nat) (E : Env) (f s : Nat) (st : State) : Option (Out × State) := match parseFun K fuel s with
  | none => none
  | some b => exec (parseFun K fuel) K.eofTok E f b st.enter

end Verif.Gen
