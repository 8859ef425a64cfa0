import Verif.Gen.Model

/-!
# A part of C++

Specification of C115.  It says how a list of tokens of C++ is read as statements, and what these statements do when they run.  It does not use the code generator (`Gen.gen`, `Gen.exec`) nor the text
made by `GenText.Model`; the only things taken from `Gen.Model` are the surroundings of the parser (`Env`: the tokens of the input, the results of user conditions and the effect of user code).

Simplifications:
* identifiers made of a fixed beginning and a number (`__catch_7`) or a name (`Token_ID`) are one token with two parts; a name is given by the node that has it (names of tokens and of symbols are
  different, C32);
* a piece of user code is one token, and it is a whole statement, condition or list of arguments;
* `yytoken` is the token at the position `tokenStream->index() - 1` (`yylex` and `rewind`, C97);
* values of the syntax tree are not kept (C78); a `ParserState` is the number of the user's state (as in `Gen`), and deleting one has no effect;
* jumps go forward, out of blocks and into blocks that come later.
-/

namespace Verif.GenText

open Verif.Gen (Env)

/-- Words and signs, and beginnings of identifiers. -/
inductive Word
  | «!» | «!=» | «&» | «&&» | «*» | «,» | «-» | «-1» | «->» | «0» | «1» | «2» | «::» | «<» | «=» | «==» | «>» | «Ast» | «AstNode» | «Kind» | «ParserState» | «QStringLiteral»
  | «Sequence» | «Token_» | «__catch_» | «__node_» | «blockErrors» | «blockErrors_» | «bool» | «copyCurrentState» | «create» | «delete» | «endToken» | «expectedSymbol»
  | «expectedToken» | «false» | «index» | «mBlockErrors» | «memoryPool» | «nullptr» | «parse» | «qint64» | «restoreState» | «rewind» | «snoc» | «startToken» | «tokenStream»
  | «true» | «try_startState_» | «try_startToken_» | «yylex» | «yynode» | «yytoken» | «||»
  | «*&» | «+» | «++» | «--» | «-2» | «.» | «:» | «?» | «Binary» | «OperatorStackItem» | «Postfix» | «Prefix» | «QList» | «Ternary» | «br» | «break» | «const» | «empty» | «expectOperator» | «first»
  | «int» | «isEmpty» | «kind» | «last» | «literal» | «n» | «node» | «olast» | «opStack» | «p» | «pop_back» | «priority» | «push_back» | «push_front» | «ref» | «reinterpret_cast» | «second» | «size»
  | «third» | «unsigned» | «void»
deriving DecidableEq, Repr

inductive Tok
  | kIf | kElse | kWhile | kDo | kReturn | kGoto | lb | rb | lp | rp | semi | colon
  /-- any other word or sign -/
  | w (s : Word)
  /-- the identifier made of `s` and a number -/
  | num (s : Word) (i : Nat)
  /-- the identifier made of `s` and the name of a node -/
  | sym (s : Word) (n : Nat)
  /-- the literal with the description of a token or the name of a symbol -/
  | lit (n : Nat)
  /-- the name declared by an annotation or declaration, and its type -/
  | mem (n : Nat)
  | ty (n : Nat)
  /-- user code: statements, a condition, arguments -/
  | code (n : Nat)
  | ask (n : Nat)
  | args (n : Nat)
deriving DecidableEq, Repr

abbrev Toks := List Tok

namespace Spec

/-- A token that may stand in a statement without parts. -/
def plain : Tok → Bool
  | .lp | .rp | .w _ | .num _ _ | .sym _ _ | .lit _ | .mem _ | .ty _ | .ask _ | .args _ => true
  | _ => false

/-- A tree of a condition or a statement. -/
inductive Tree
  /-- `true`, `false` -/
  | const (b : Bool)
  /-- `yytoken == Token_n`, `yytoken != Token_n` -/
  | is (n : Nat)
  | isNot (n : Nat)
  /-- user code -/
  | ask (n : Nat)
  /-- `try_startState_i` -/
  | state (i : Nat)
  /-- `try_startToken_i == tokenStream->index() - 1` -/
  | same (i : Nat)
  /-- `!mBlockErrors` -/
  | loud
  /-- `!parseS(..)` -/
  | fails (s : Nat)
  | and (a b : Tree)
  | or (a b : Tree)
  | simple (e : Toks)
  | code (n : Nat)
  | ret (b : Bool)
  | goto (i : Nat)
  | label (i : Nat) (a : Tree)
  | skip
  | seq (a b : Tree)
  | ite (c a b : Tree)
  | while (c a : Tree)
  | doWhile (a c : Tree)
deriving DecidableEq, Repr

/-- Kinds of phrases. -/
inductive Cat
  | prim | conj | disj | stmt | stmts
deriving DecidableEq, Repr

/-- The beginning of a list of tokens is a phrase with this tree, and this is what comes behind it.  `&&` binds stronger than `||`, and an `else` belongs to the nearest `if`. -/
inductive Reads : Cat → Toks → Tree → Toks → Prop
  | true {r} : Reads .prim (.w .«true» :: r) (.const true) r
  | false {r} : Reads .prim (.w .«false» :: r) (.const false) r
  | is {n r} : Reads .prim (.w .«yytoken» :: .w .«==» :: .sym .«Token_» n :: r) (.is n) r
  | isNot {n r} : Reads .prim (.w .«yytoken» :: .w .«!=» :: .sym .«Token_» n :: r) (.isNot n) r
  | isNot' {n r} : Reads .prim (.sym .«Token_» n :: .w .«!=» :: .w .«yytoken» :: r) (.isNot n) r
  | ask {n r} : Reads .prim (.ask n :: r) (.ask n) r
  | state {i r} : Reads .prim (.num .«try_startState_» i :: r) (.state i) r
  | same {i r} : Reads .prim (.num .«try_startToken_» i :: .w .«==» :: .w .«tokenStream» :: .w .«->» :: .w .«index» :: .lp :: .rp :: .w .«-» :: .w .«1» :: r) (.same i) r
  | loud {r} : Reads .prim (.w .«!» :: .w .«mBlockErrors» :: r) .loud r
  | fails {s ts a r} (ha : ∀ t ∈ a, t ≠ .lp ∧ t ≠ .rp) (e : ts = a ++ .rp :: r) : Reads .prim (.w .«!» :: .sym .«parse» s :: .lp :: ts) (.fails s) r
  | paren {ts a r} (h : Reads .disj ts a (.rp :: r)) : Reads .prim (.lp :: ts) a r
  | conj1 {ts a r} (h : Reads .prim ts a r) (hr : r.head? ≠ some (.w .«&&»)) : Reads .conj ts a r
  | conj2 {ts a b r r'} (h : Reads .prim ts a (.w .«&&» :: r)) (h' : Reads .conj r b r') : Reads .conj ts (.and a b) r'
  | disj1 {ts a r} (h : Reads .conj ts a r) (hr : r.head? ≠ some (.w .«||»)) : Reads .disj ts a r
  | disj2 {ts a b r r'} (h : Reads .conj ts a (.w .«||» :: r)) (h' : Reads .disj r b r') : Reads .disj ts (.or a b) r'
  | simple {ts t e r} (he : ∀ x ∈ t :: e, plain x = Bool.true) (h : ts = e ++ .semi :: r) : Reads .stmt (t :: ts) (.simple (t :: e)) r
  | code {n r} : Reads .stmt (.code n :: r) (.code n) r
  | retFalse {r} : Reads .stmt (.kReturn :: .w .«false» :: .semi :: r) (.ret false) r
  | retTrue {r} : Reads .stmt (.kReturn :: .w .«true» :: .semi :: r) (.ret true) r
  | goto {i r} : Reads .stmt (.kGoto :: .num .«__catch_» i :: .semi :: r) (.goto i) r
  | label {i ts a r} (h : Reads .stmt ts a r) : Reads .stmt (.num .«__catch_» i :: .colon :: ts) (.label i a) r
  | block {ts a r} (h : Reads .stmts ts a (.rb :: r)) : Reads .stmt (.lb :: ts) a r
  | ifElse {ts c a b r1 r2 r} (hc : Reads .disj ts c (.rp :: r1)) (ha : Reads .stmt r1 a (.kElse :: r2)) (hb : Reads .stmt r2 b r) : Reads .stmt (.kIf :: .lp :: ts) (.ite c a b) r
  | ifOnly {ts c a r1 r} (hc : Reads .disj ts c (.rp :: r1)) (ha : Reads .stmt r1 a r) (hr : r.head? ≠ some .kElse) : Reads .stmt (.kIf :: .lp :: ts) (.ite c a .skip) r
  | while {ts c a r1 r} (hc : Reads .disj ts c (.rp :: r1)) (ha : Reads .stmt r1 a r) : Reads .stmt (.kWhile :: .lp :: ts) (.while c a) r
  | doWhile {ts c a r1 r} (ha : Reads .stmt ts a (.kWhile :: .lp :: r1)) (hc : Reads .disj r1 c (.rp :: .semi :: r)) : Reads .stmt (.kDo :: ts) (.doWhile a c) r
  | nil {r} : Reads .stmts (.rb :: r) .skip (.rb :: r)
  | cons {ts a b r r'} (h : Reads .stmt ts a r) (h' : Reads .stmts r b r') : Reads .stmts ts (.seq a b) r'

/-! ### Running -/

structure CState where
  pos : Nat := 0
  /-- number of user conditions evaluated so far -/
  asked : Nat := 0
  /-- `mBlockErrors` -/
  blocked : Bool := false
  /-- number of calls of `expectedToken` and `expectedSymbol` -/
  errors : Nat := 0
  user : Nat := 0
  /-- the variables `try_startToken_i`, `try_startState_i`, `blockErrors_i` -/
  token : Nat → Option Nat := fun _ => none
  state : Nat → Option Nat := fun _ => none
  block : Nat → Option Bool := fun _ => none

/-- A variable gets a value. -/
def set {α : Type} (g : Nat → Option α) (i : Nat) (a : α) : Nat → Option α := fun j => if j = i then some a else g j

/-- `tokenStream->index() - 1` -/
def here : Toks := [.w .«tokenStream», .w .«->», .w .«index», .lp, .rp, .w .«-», .w .«1»]

/-- `(*yynode)->` -/
def yynode : Toks := [.lp, .w .«*», .w .«yynode», .rp, .w .«->»]

/-- Statements that build the syntax tree or declare variables of the user. -/
inductive Silent : Toks → Prop
  | create {s} : Silent [.w .«*», .w .«yynode», .w .«=», .w .«create», .w .«<», .sym .«Ast» s, .w .«>», .lp, .rp]
  | start : Silent (yynode ++ .w .«startToken» :: .w .«=» :: here)
  | done : Silent (yynode ++ [.w .«endToken», .w .«=», .w .«tokenStream», .w .«->», .w .«index», .lp, .rp, .w .«-», .w .«2»])
  | init {n} : Silent (yynode ++ [.mem n, .w .«=», .w .«-1»])
  | declare {n} : Silent [.ty n, .mem n]
  | declare0 {n} : Silent [.ty n, .mem n, .w .«=», .w .«0»]
  | result {s i} : Silent [.sym .«Ast» s, .w .«*», .num .«__node_» i, .w .«=», .w .«nullptr»]
  | put {x v} (hx : x = [] ∨ x = yynode) (hv : v = here ∨ ∃ i, v = [.num .«__node_» i]) (n : Nat) : Silent (x ++ .mem n :: .w .«=» :: v)
  | add {x v} (hx : x = [] ∨ x = yynode) (hv : v = here ∨ ∃ i, v = [.num .«__node_» i]) (n : Nat) :
    Silent (x ++ [.mem n, .w .«Sequence», .w .«=»] ++ [.w .«snoc», .lp] ++ x ++ [.mem n, .w .«Sequence», .w .«,»] ++ v ++ [.w .«,», .w .«memoryPool», .rp])
  /-- `delete` -/
  | delete {i} : Silent [.w .«delete», .num .«try_startState_» i]

/-- The effect of a statement without parts. -/
inductive Effect : Toks → CState → CState → Prop
  | silent {e st} (h : Silent e) : Effect e st st
  | lex {st} : Effect [.w .«yylex», .lp, .rp] st { st with pos := st.pos + 1 }
  | token {n m st} : Effect [.w .«expectedToken», .lp, .w .«yytoken», .w .«,», .sym .«Token_» n, .w .«,», .w .«QStringLiteral», .lp, .lit m, .rp, .rp] st { st with errors := st.errors + 1 }
  | symbol {n m st} : Effect [.w .«expectedSymbol», .lp, .w .«AstNode», .w .«::», .sym .«Kind» n, .w .«,», .w .«QStringLiteral», .lp, .lit m, .rp, .rp] st { st with errors := st.errors + 1 }
  | saveToken {i st} : Effect (.w .«qint64» :: .num .«try_startToken_» i :: .w .«=» :: here) st { st with token := set st.token i st.pos }
  | saveState {i st} : Effect [.w .«ParserState», .w .«*», .num .«try_startState_» i, .w .«=», .w .«copyCurrentState», .lp, .rp] st { st with state := set st.state i st.user }
  | block {i st} : Effect [.w .«bool», .num .«blockErrors_» i, .w .«=», .w .«blockErrors», .lp, .w .«true», .rp] st { st with block := set st.block i st.blocked, blocked := true }
  | unblock {i b st} (h : st.block i = some b) : Effect [.w .«blockErrors», .lp, .num .«blockErrors_» i, .rp] st { st with blocked := b }
  | restore {i u st} (h : st.state i = some u) : Effect [.w .«restoreState», .lp, .num .«try_startState_» i, .rp] st { st with user := u }
  | rewind {i p st} (h : st.token i = some p) : Effect [.w .«rewind», .lp, .num .«try_startToken_» i, .rp] st { st with pos := p }

/-- What is run: a statement from its beginning or from a label on, a condition, a call of a function. -/
inductive Goal
  | stmt (m : Option Nat) (t : Tree)
  | cond (t : Tree)
  | call (s : Nat)

/-- How it ends. -/
inductive Res
  | ok
  | ret (b : Bool)
  | jump (i : Nat)
  | val (b : Bool)
deriving DecidableEq, Repr

/-- The statement has this label. -/
def has (i : Nat) : Tree → Bool
  | .label j a => i = j || has i a
  | .seq a b => has i a || has i b
  | .ite _ a b => has i a || has i b
  | .while _ a => has i a
  | .doWhile a _ => has i a
  | _ => false

/-- The statement is entered here. -/
def enters (m : Option Nat) (t : Tree) : Bool := match m with
  | none => true
  | some i => has i t

/-- A new function has its own variables. -/
def CState.enter (st : CState) : CState := { st with token := fun _ => none, state := fun _ => none, block := fun _ => none }
def CState.back (st caller : CState) : CState := { st with token := caller.token, state := caller.state, block := caller.block }

/-- Running with functions `F`; those without a text behave as `X` says. -/
inductive Run (E : Env) (F : Nat → Option Tree) (X : Nat → CState → Bool → CState → Prop) : Goal → CState → Res → CState → Prop
  | const {b st} : Run E F X (.cond (.const b)) st (.val b) st
  | is {n st} : Run E F X (.cond (.is n)) st (.val (E.inp st.pos = n)) st
  | isNot {n st} : Run E F X (.cond (.isNot n)) st (.val (E.inp st.pos ≠ n)) st
  | ask {n st} : Run E F X (.cond (.ask n)) st (.val (E.oracle st.asked)) { st with asked := st.asked + 1 }
  | state {i u st} (h : st.state i = some u) : Run E F X (.cond (.state i)) st (.val true) st
  | same {i p st} (h : st.token i = some p) : Run E F X (.cond (.same i)) st (.val (p = st.pos)) st
  | loud {st} : Run E F X (.cond .loud) st (.val !st.blocked) st
  | fails {s st b st'} (h : Run E F X (.call s) st (.val b) st') : Run E F X (.cond (.fails s)) st (.val !b) st'
  | andStop {a b st st'} (h : Run E F X (.cond a) st (.val false) st') : Run E F X (.cond (.and a b)) st (.val false) st'
  | andGo {a b st st' r st''} (h : Run E F X (.cond a) st (.val true) st') (h' : Run E F X (.cond b) st' r st'') : Run E F X (.cond (.and a b)) st r st''
  | orStop {a b st st'} (h : Run E F X (.cond a) st (.val true) st') : Run E F X (.cond (.or a b)) st (.val true) st'
  | orGo {a b st st' r st''} (h : Run E F X (.cond a) st (.val false) st') (h' : Run E F X (.cond b) st' r st'') : Run E F X (.cond (.or a b)) st r st''
  | call {s t st b st'} (ht : F s = some t) (h : Run E F X (.stmt none t) st.enter (.ret b) st') : Run E F X (.call s) st (.val b) (st'.back st)
  | extern {s st b st'} (ht : F s = none) (h : X s st.enter b st') : Run E F X (.call s) st (.val b) (st'.back st)
  | simple {e st st'} (h : Effect e st st') : Run E F X (.stmt none (.simple e)) st .ok st'
  | code {n st} : Run E F X (.stmt none (.code n)) st .ok { st with user := E.act n st.user }
  | ret {b st} : Run E F X (.stmt none (.ret b)) st (.ret b) st
  | goto {i st} : Run E F X (.stmt none (.goto i)) st (.jump i) st
  | label {i a st r st'} (h : Run E F X (.stmt none a) st r st') : Run E F X (.stmt none (.label i a)) st r st'
  | labelHere {i a st r st'} (h : Run E F X (.stmt none a) st r st') : Run E F X (.stmt (some i) (.label i a)) st r st'
  | labelIn {i j a st r st'} (hj : i ≠ j) (h : Run E F X (.stmt (some i) a) st r st') : Run E F X (.stmt (some i) (.label j a)) st r st'
  | skip {st} : Run E F X (.stmt none .skip) st .ok st
  | seqGo {m a b st st' r st''} (hm : enters m a) (h : Run E F X (.stmt m a) st .ok st') (h' : Run E F X (.stmt none b) st' r st'') : Run E F X (.stmt m (.seq a b)) st r st''
  | seqStop {m a b st r st'} (hm : enters m a) (h : Run E F X (.stmt m a) st r st') (hr : r ≠ .ok) (hj : ∀ i, r = .jump i → has i b = false) : Run E F X (.stmt m (.seq a b)) st r st'
  | seqJump {m a b i st st' r st''} (hm : enters m a) (h : Run E F X (.stmt m a) st (.jump i) st') (hi : has i b) (h' : Run E F X (.stmt (some i) b) st' r st'') :
    Run E F X (.stmt m (.seq a b)) st r st''
  | seqIn {i a b st r st'} (ha : has i a = false) (h : Run E F X (.stmt (some i) b) st r st') : Run E F X (.stmt (some i) (.seq a b)) st r st'
  | then {c a b st st' r st''} (h : Run E F X (.cond c) st (.val true) st') (h' : Run E F X (.stmt none a) st' r st'') : Run E F X (.stmt none (.ite c a b)) st r st''
  | else {c a b st st' r st''} (h : Run E F X (.cond c) st (.val false) st') (h' : Run E F X (.stmt none b) st' r st'') : Run E F X (.stmt none (.ite c a b)) st r st''
  | thenIn {i c a b st r st'} (ha : has i a) (h : Run E F X (.stmt (some i) a) st r st') : Run E F X (.stmt (some i) (.ite c a b)) st r st'
  | elseIn {i c a b st r st'} (ha : has i a = false) (h : Run E F X (.stmt (some i) b) st r st') : Run E F X (.stmt (some i) (.ite c a b)) st r st'
  | whileEnd {c a st st'} (h : Run E F X (.cond c) st (.val false) st') : Run E F X (.stmt none (.while c a)) st .ok st'
  | whileGo {c a st st' st'' r st3} (h : Run E F X (.cond c) st (.val true) st') (h' : Run E F X (.stmt none a) st' .ok st'') (h'' : Run E F X (.stmt none (.while c a)) st'' r st3) :
    Run E F X (.stmt none (.while c a)) st r st3
  | whileStop {c a st st' r st''} (h : Run E F X (.cond c) st (.val true) st') (h' : Run E F X (.stmt none a) st' r st'') (hr : r ≠ .ok) : Run E F X (.stmt none (.while c a)) st r st''
  | whileIn {i c a st st' r st''} (h : Run E F X (.stmt (some i) a) st .ok st') (h' : Run E F X (.stmt none (.while c a)) st' r st'') : Run E F X (.stmt (some i) (.while c a)) st r st''
  | whileInStop {i c a st r st'} (h : Run E F X (.stmt (some i) a) st r st') (hr : r ≠ .ok) : Run E F X (.stmt (some i) (.while c a)) st r st'
  | doGo {m c a st st' st'' r st3} (h : Run E F X (.stmt m a) st .ok st') (h' : Run E F X (.cond c) st' (.val true) st'') (h'' : Run E F X (.stmt none (.doWhile a c)) st'' r st3) :
    Run E F X (.stmt m (.doWhile a c)) st r st3
  | doEnd {m c a st st' st''} (h : Run E F X (.stmt m a) st .ok st') (h' : Run E F X (.cond c) st' (.val false) st'') : Run E F X (.stmt m (.doWhile a c)) st .ok st''
  | doStop {m c a st r st'} (h : Run E F X (.stmt m a) st r st') (hr : r ≠ .ok) : Run E F X (.stmt m (.doWhile a c)) st r st'

end Spec

end Verif.GenText
