import Verif.GLex.Model

/-!
# Model of the syntax of rules in grammar files, and of the pretty printer

Sources: `/repo/src/kdev-pg-parser.yy` lines 469-692, `/repo/src/kdev-pg.cpp` lines 20-200 (the constructors of nodes),
`/repo/src/kdev-pg-clone-tree.cpp`, `/repo/src/kdev-pg-pretty-printer.cpp`.

A Bison grammar is given by its productions with their values; the productions are transcribed one by one as the clauses of a relation.  Bison generates
a parser for them; where two actions are possible (the grammar is ambiguous), it shifts.  There is one such place, see `D.seq`.

Simplifications: nodes are trees; a symbol or a terminal is its name (that equal names give equal nodes is C32); names and code are lists of bytes; of an
operator rule the declarations are kept as written, how they are stored is modelled in `Verif/OpRule`.
-/

namespace Verif.Syntax

abbrev Name := List Nat

/-- Tokens of the parser (lines 46-64), those used in rules. -/
inductive Tok
  | zero | lp | rp | recover | rollback | catch_ | inline
  | ident (s : Name) | term (s : Name) | args (a : Name) | code (c : Name)
  | hash | eq | colon | plus | star | opt | at_ | bar
  | arrow | lbr | rbr | semi | argument | member | temporary | node | token | variable
  | lopr | ropr | bin | tern | pre | post | paren | left | right | isLeft | isRight | priority | number (n : Name)
deriving DecidableEq, Repr

/-- What the scanner returns for a token (kdev-pg-lexer.ll), as a token with its text. -/
def ofLex : GLex.Tok × List Nat → Option Tok
  | (.ch 48, _) => some .zero
  | (.ch 40, _) => some .lp
  | (.ch 41, _) => some .rp
  | (.ch 35, _) => some .hash
  | (.ch 61, _) => some .eq
  | (.ch 58, _) => some .colon
  | (.ch 43, _) => some .plus
  | (.ch 42, _) => some .star
  | (.ch 63, _) => some .opt
  | (.ch 64, _) => some .at_
  | (.ch 124, _) => some .bar
  | (.ch 91, _) => some .lbr
  | (.ch 93, _) => some .rbr
  | (.ch 59, _) => some .semi
  | (.named "T_TRY_RECOVER", _) => some .recover
  | (.named "T_TRY_ROLLBACK", _) => some .rollback
  | (.named "T_CATCH", _) => some .catch_
  | (.named "T_INLINE", _) => some .inline
  | (.named "T_IDENTIFIER", x) => some (.ident x)
  | (.named "T_TERMINAL", x) => some (.term x)
  | (.named "T_RULE_ARGUMENTS", x) => some (.args x)
  | (.named "T_CODE", x) => some (.code x)
  | (.named "T_ARROW", _) => some .arrow
  | (.named "T_ARGUMENT", _) => some .argument
  | (.named "T_MEMBER", _) => some .member
  | (.named "T_TEMPORARY", _) => some .temporary
  | (.named "T_NODE", _) => some .node
  | (.named "T_TOKEN", _) => some .token
  | (.named "T_VARIABLE", _) => some .variable
  | (.named "T_LOPR", _) => some .lopr
  | (.named "T_ROPR", _) => some .ropr
  | (.named "T_BIN", _) => some .bin
  | (.named "T_TERN", _) => some .tern
  | (.named "T_PRE", _) => some .pre
  | (.named "T_POST", _) => some .post
  | (.named "T_PAREN", _) => some .paren
  | (.named "T_LEFT_ASSOC", _) => some .left
  | (.named "T_RIGHT_ASSOC", _) => some .right
  | (.named "T_IS_LEFT_ASSOC", _) => some .isLeft
  | (.named "T_IS_RIGHT_ASSOC", _) => some .isRight
  | (.named "T_PRIORITY", _) => some .priority
  | (.named "T_NUMBER", x) => some (.number x)
  | _ => none

/-- `AnnotationItem::mDeclaration` (kdev-pg.cpp lines 116-150): name, `mIsSequence`, `mStorageType == StorageTemporary`.  The type follows from the item. -/
structure Label where
  name : Name
  seq : Bool
  temp : Bool
deriving DecidableEq, Repr

/-- The value of `primary_atom` as the base of an operator rule (lines 484-487). -/
inductive Atom
  | sym (s args : Name)
  | term (s : Name)
deriving DecidableEq, Repr

/-- `Operator` (kdev-pg-ast.h lines 175-180): the token, its condition and its code; no text if there is none. -/
structure Operator where
  tok : Name
  cond : Name
  code : Name
deriving DecidableEq, Repr

/-- `priority` (lines 623-627): `0`, a number, or `%priority` with code. -/
inductive Prio
  | zero
  | number (n : Name)
  | code (c : Name)
deriving DecidableEq, Repr

/-- `assoc` (lines 629-646). -/
inductive Assoc
  | left
  | right
  | isLeft (c : Name)
  | isRight (c : Name)
deriving DecidableEq, Repr

/-- `operatorDeclaration` (lines 614-621). -/
inductive OpDecl
  | bin (o : Operator) (p : Prio) (a : Assoc)
  | tern (o o' : Operator) (p : Prio) (a : Assoc)
  | pre (o : Operator) (p : Prio)
  | post (o : Operator) (p : Prio) (a : Option Assoc)
  | paren (o o' : Operator)
deriving DecidableEq, Repr

/-- What is written between `%<` and `%>`. -/
structure OpExpr where
  base : Atom
  decls : List OpDecl
deriving DecidableEq, Repr

/-- The nodes below a rule (kdev-pg-ast.h). -/
inductive Item
  | zero
  | nonterm (s args : Name)
  | term (s : Name)
  /-- `InlinedNonTerminalItem` -/
  | inl (s : Name)
  | ann (l : Label) (i : Item)
  | plus (i : Item)
  | star (i : Item)
  /-- `ActionItem` without item -/
  | code (c : Name)
  | act (i : Item) (c : Name)
  | alt (l r : Item)
  | cons (l r : Item)
  | cond (c : Name) (i : Item)
  /-- `TryCatchItem` without and with a catch item -/
  | recover (i : Item)
  | rollback (i j : Item)
  /-- `OperatorItem` -/
  | op (o : OpExpr)
  /-- an invalid pointer: what `top()` gives for an empty stack -/
  | wild
deriving DecidableEq, Repr

/-- `VariableDeclarationItem::variableType` -/
inductive VarType | node | token | variable
deriving DecidableEq, Repr

/-- `VariableDeclarationItem` (kdev-pg.cpp lines 161-178). -/
structure VarDecl where
  argument : Bool
  temp : Bool
  kind : VarType
  seq : Bool
  name : Name
  type : Name
deriving DecidableEq, Repr

/-- `EvolveItem`. -/
structure Rule where
  item : Item
  sym : Name
  decls : List VarDecl
  code : Name
deriving DecidableEq, Repr

/-- `CloneTree::clone` (see `Verif/Clone/Model.lean` for the function on nodes of a heap): without item an action takes the top of the empty stack; there is
no `visitCondition`, so that conditions are lost. -/
def clone : Item → Item
  | .zero => .zero
  | .nonterm s a => .nonterm s a
  | .term s => .term s
  | .inl s => .inl s
  | .ann l i => .ann l (clone i)
  | .plus i => .plus (clone i)
  | .star i => .star (clone i)
  | .code c => .act .wild c
  | .act i c => .act (clone i) c
  | .alt l r => .alt (clone l) (clone r)
  | .cons l r => .cons (clone l) (clone r)
  | .cond _ i => clone i
  | .recover i => .recover (clone i)
  | .rollback i j => .rollback (clone i) (clone j)
  | .op o => .op o
  | .wild => .wild

/-- The value of `postfix_item '@' primary_item` (lines 530-534). -/
def sep (i j : Item) : Item := .cons i (.star (.cons (clone j) (clone i)))

/-- The symbols of the grammar on the left hand side. -/
inductive Nt | primary | atom | tryItem | unary | postfix | seq | cond | option
deriving DecidableEq, Repr

/-- The tokens begin with a piece of code. -/
def codeFirst : List Tok → Bool
  | .code _ :: _ => true
  | _ => false

/-- The productions of lines 474-552, one clause each: the tokens and the value `$$`.  The parameter says whether Bison's choice is respected.  Behind a
`postfix_item` with `T_CODE` to come, the parser could end the item (then the code is an item of its own) or go on with `postfix_item: postfix_item T_CODE`.
This is a shift/reduce conflict; Bison shifts.  So what follows an item sequence never begins with code. -/
inductive D (bison : Bool) : Nt → List Tok → Item → Prop
  -- primary_item
  | zero : D bison .primary [.zero] .zero
  | paren {ts i} : D bison .option ts i → D bison .primary (.lp :: ts ++ [.rp]) i
  | tryIt {ts i} : D bison .tryItem ts i → D bison .primary ts i
  | atom {ts i} : D bison .atom ts i → D bison .primary ts i
  | inl {s} : D bison .primary [.inline, .ident s] (.inl s)
  | annEq {n ts i} : D bison .atom ts i → D bison .primary (.ident n :: .eq :: ts) (.ann ⟨n, false, false⟩ i)
  | annColon {n ts i} : D bison .atom ts i → D bison .primary (.ident n :: .colon :: ts) (.ann ⟨n, false, true⟩ i)
  | seqEq {n ts i} : D bison .atom ts i → D bison .primary (.hash :: .ident n :: .eq :: ts) (.ann ⟨n, true, false⟩ i)
  | seqColon {n ts i} : D bison .atom ts i → D bison .primary (.hash :: .ident n :: .colon :: ts) (.ann ⟨n, true, true⟩ i)
  -- primary_atom, rule_arguments_opt
  | nonterm {s} : D bison .atom [.ident s] (.nonterm s [])
  | call {s a} : D bison .atom [.ident s, .args a] (.nonterm s a)
  | term {s} : D bison .atom [.term s] (.term s)
  -- try_item
  | recover {ts i} : D bison .option ts i → D bison .tryItem (.recover :: .lp :: ts ++ [.rp]) (.recover i)
  | rollback {ts us i j} : D bison .option ts i → D bison .option us j →
      D bison .tryItem (.rollback :: .lp :: ts ++ .rp :: .catch_ :: .lp :: us ++ [.rp]) (.rollback i j)
  -- unary_item
  | plus {ts i} : D bison .primary ts i → D bison .unary (ts ++ [.plus]) (.plus i)
  | star {ts i} : D bison .primary ts i → D bison .unary (ts ++ [.star]) (.star i)
  | primary {ts i} : D bison .primary ts i → D bison .unary ts i
  | opt {ts i} : D bison .primary ts i → D bison .unary (.opt :: ts) (.alt i .zero)
  -- postfix_item
  | unary {ts i} : D bison .unary ts i → D bison .postfix ts i
  | sep {ts us i j} : D bison .postfix ts i → D bison .primary us j → D bison .postfix (ts ++ .at_ :: us) (sep i j)
  | act {ts i c} : D bison .postfix ts i → D bison .postfix (ts ++ [.code c]) (.act i c)
  | code {c} : D bison .postfix [.code c] (.code c)
  -- item_sequence
  | one {ts i} : D bison .postfix ts i → D bison .seq ts i
  | seq {ts us i j} : D bison .seq ts i → D bison .postfix us j → (bison = true → codeFirst us = false) → D bison .seq (ts ++ us) (.cons i j)
  -- conditional_item
  | sequence {ts i} : D bison .seq ts i → D bison .cond ts i
  | cond {c ts i} : D bison .seq ts i → D bison .cond (.opt :: .code c :: ts) (.cond c i)
  -- option_item
  | single {ts i} : D bison .cond ts i → D bison .option ts i
  | alt {ts us i j} : D bison .option ts i → D bison .cond us j → D bison .option (ts ++ .bar :: us) (.alt i j)

/-- `code_opt` (lines 576-579). -/
inductive CodeOpt : List Tok → Name → Prop
  | none : CodeOpt [] []
  | some {c} : CodeOpt [.code c] c

/-- `declarationType_opt`, `storageType`, `variableType` (lines 679-692). -/
inductive ArgOpt : List Tok → Bool → Prop
  | none : ArgOpt [] false
  | some : ArgOpt [.argument] true

inductive Storage : Tok → Bool → Prop
  | member : Storage .member false
  | temporary : Storage .temporary true

inductive Kind : Tok → VarType → Prop
  | node : Kind .node .node
  | variable : Kind .variable .variable

/-- `variableDeclaration` (lines 668-677). -/
inductive Dv : List Tok → VarDecl → Prop
  | typed {a b s t k κ n y} : ArgOpt a b → Storage s t → Kind k κ → Dv (a ++ [s, k, .ident n, .colon, .ident y]) ⟨b, t, κ, false, n, y⟩
  | token {a b s t n} : ArgOpt a b → Storage s t → Dv (a ++ [s, .token, .ident n, .semi]) ⟨b, t, .token, false, n, []⟩
  | typedSeq {a b s t k κ n y} : ArgOpt a b → Storage s t → Kind k κ → Dv (a ++ [s, k, .hash, .ident n, .colon, .ident y]) ⟨b, t, κ, true, n, y⟩
  | tokenSeq {a b s t n} : ArgOpt a b → Storage s t → Dv (a ++ [s, .token, .hash, .ident n, .semi]) ⟨b, t, .token, true, n, []⟩

/-- `variableDeclarations` (lines 655-666): a list linked by `mNext`. -/
inductive Dvs : List Tok → List VarDecl → Prop
  | one {ts d} : Dv ts d → Dvs ts [d]
  | more {ts us ds d} : Dvs ts ds → Dv us d → Dvs (ts ++ us) (ds ++ [d])

def Atom.item : Atom → Item
  | .sym s a => .nonterm s a
  | .term s => .term s

/-- `operator` (lines 648-653). -/
inductive OperR : List Tok → Operator → Prop
  | both {a t c} : OperR [.opt, .code a, .term t, .code c] ⟨t, a, c⟩
  | cond {a t} : OperR [.opt, .code a, .term t] ⟨t, a, []⟩
  | code {t c} : OperR [.term t, .code c] ⟨t, [], c⟩
  | plain {t} : OperR [.term t] ⟨t, [], []⟩

/-- `priority` (lines 623-627). -/
inductive PrioR : List Tok → Prio → Prop
  | zero : PrioR [.zero] .zero
  | number {n} : PrioR [.number n] (.number n)
  | code {c} : PrioR [.priority, .code c] (.code c)

/-- `assoc` (lines 629-646). -/
inductive AssocR : List Tok → Assoc → Prop
  | left : AssocR [.left] .left
  | right : AssocR [.right] .right
  | isLeft {c} : AssocR [.isLeft, .code c] (.isLeft c)
  | isRight {c} : AssocR [.isRight, .code c] (.isRight c)

/-- `operatorDeclaration` (lines 614-621). -/
inductive DeclR : List Tok → OpDecl → Prop
  | bin {xs ps as o p a} : OperR xs o → PrioR ps p → AssocR as a → DeclR (.bin :: (xs ++ (ps ++ as))) (.bin o p a)
  | tern {xs ys ps as o o' p a} : OperR xs o → OperR ys o' → PrioR ps p → AssocR as a → DeclR (.tern :: (xs ++ (ys ++ (ps ++ as)))) (.tern o o' p a)
  | pre {xs ps o p} : OperR xs o → PrioR ps p → DeclR (.pre :: (xs ++ ps)) (.pre o p)
  | post {xs ps o p} : OperR xs o → PrioR ps p → DeclR (.post :: (xs ++ ps)) (.post o p none)
  | postAssoc {xs ps as o p a} : OperR xs o → PrioR ps p → AssocR as a → DeclR (.post :: (xs ++ (ps ++ as))) (.post o p (some a))
  | paren {xs ys o o'} : OperR xs o → OperR ys o' → DeclR (.paren :: (xs ++ ys)) (.paren o o')

/-- `operatorDeclarations` (lines 582-585). -/
inductive DeclsR : List Tok → List OpDecl → Prop
  | nil : DeclsR [] []
  | cons {ts us d ds} : DeclR ts d → DeclsR us ds → DeclsR (ts ++ us) (d :: ds)

/-- `item` (lines 554-573) and `operatorRule` (lines 587-612). -/
inductive R (bison : Bool) : List Tok → Rule → Prop
  | codeFirst {ts i s c vs ds} : D bison .option ts i → Dvs vs ds → R bison (ts ++ .arrow :: .ident s :: .code c :: .lbr :: vs ++ [.rbr]) ⟨i, s, ds, c⟩
  | declsFirst {ts i s cs c vs ds} : D bison .option ts i → Dvs vs ds → CodeOpt cs c → R bison (ts ++ .arrow :: .ident s :: .lbr :: vs ++ .rbr :: cs) ⟨i, s, ds, c⟩
  | plain {ts i s cs c} : D bison .option ts i → CodeOpt cs c → R bison (ts ++ .arrow :: .ident s :: cs) ⟨i, s, [], c⟩
  | opDecls {bs b us os s cs c vs ds} : D bison .atom bs b.item → DeclsR us os → Dvs vs ds → CodeOpt cs c →
      R bison (.lopr :: (bs ++ (us ++ .ropr :: .ident s :: .lbr :: (vs ++ .rbr :: cs)))) ⟨.op ⟨b, os⟩, s, ds, c⟩
  | opCode {bs b us os s c vs ds} : D bison .atom bs b.item → DeclsR us os → Dvs vs ds →
      R bison (.lopr :: (bs ++ (us ++ .ropr :: .ident s :: .code c :: .lbr :: (vs ++ [.rbr])))) ⟨.op ⟨b, os⟩, s, ds, c⟩
  | opPlain {bs b us os s cs c} : D bison .atom bs b.item → DeclsR us os → CodeOpt cs c →
      R bison (.lopr :: (bs ++ (us ++ .ropr :: .ident s :: cs))) ⟨.op ⟨b, os⟩, s, [], c⟩

/-- `rules` (lines 469-472); `pushRule` appends. -/
inductive Rs (bison : Bool) : List Tok → List Rule → Prop
  | nil : Rs bison [] []
  | more {ts us rs r} : Rs bison ts rs → R bison us r → Rs bison (ts ++ us ++ [.semi]) (rs ++ [r])

/-! ## The pretty printer -/

/-- The loop of `PrettyPrinter::visitAlternative` (kdev-pg-pretty-printer.cpp lines 53-73): the working list, its top first, and the nodes found. -/
def flatten : Nat → List Item → List Item → List Item
  | 0, _, found => found
  | _ + 1, [], found => found
  | f + 1, .alt l r :: work, found => flatten f (l :: r :: work) found
  | f + 1, i :: work, found => flatten f work (found ++ [i])

/-- Size of an item. -/
def Item.size : Item → Nat
  | .ann _ i => i.size + 1
  | .plus i => i.size + 1
  | .star i => i.size + 1
  | .act i _ => i.size + 1
  | .alt l r => l.size + r.size + 1
  | .cons l r => l.size + r.size + 1
  | .cond _ i => i.size + 1
  | .recover i => i.size + 1
  | .rollback i j => i.size + j.size + 1
  | _ => 1

/-- The texts with ` | ` between them (lines 75-88). -/
def bars : List (List Nat) → List Nat
  | [] => []
  | [t] => t
  | t :: ts => t ++ GLex.bytes " | " ++ bars ts

/-- `PrettyPrinter::visitNode` (kdev-pg-pretty-printer.cpp); fuel for the depth.  Conditions and operators are left to `DefaultVisitor`
(kdev-pg-default-visitor.cpp lines 91-104), which visits the item of the former and nothing of the latter. -/
def printF : Nat → Item → List Nat
  | 0, _ => []
  | f + 1, i => match i with
    | .zero => GLex.bytes "0"
    | .plus i => GLex.bytes "(" ++ printF f i ++ GLex.bytes ")" ++ GLex.bytes "+"
    | .star i => GLex.bytes "(" ++ printF f i ++ GLex.bytes ")" ++ GLex.bytes "*"
    | .code _ => []
    | .act i _ => printF f i
    | .alt l r => GLex.bytes "(" ++ bars ((flatten (2 * (l.size + r.size)) [l, r] []).map (printF f)) ++ GLex.bytes ")"
    | .cons l r => printF f l ++ GLex.bytes " " ++ printF f r
    | .recover i => GLex.bytes "try/" ++ GLex.bytes "recover" ++ GLex.bytes "(" ++ printF f i ++ GLex.bytes ")"
    | .rollback i j => GLex.bytes "try/" ++ GLex.bytes "rollback" ++ GLex.bytes "(" ++ printF f i ++ GLex.bytes ")" ++
        GLex.bytes " catch(" ++ printF f j ++ GLex.bytes ")"
    | .term s => s
    | .inl s => s
    | .nonterm s _ => s
    | .ann l i => (if l.seq then GLex.bytes "#" else []) ++ l.name ++ (if l.temp then GLex.bytes ":" else GLex.bytes "=") ++ printF f i
    | .cond _ i => printF f i
    | .op _ => []
    | .wild => []

def print (i : Item) : List Nat := printF i.size i

/-- `visitEvolve` (lines 98-103). -/
def Rule.print (r : Rule) : List Nat := Syntax.print r.item ++ GLex.bytes " -> " ++ r.sym

end Verif.Syntax
