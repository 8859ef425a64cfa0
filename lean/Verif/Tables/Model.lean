/-!
# Model of the generated enumerations, tables and the order of the AST structures

Sources: `/repo/src/kdev-pg-token-type-gen.cpp`, `/repo/src/kdev-pg-ast-gen.cpp`, `/repo/src/kdev-pg-visitor-bits-gen.cpp`,
`/repo/src/kdev-pg.h` (`pushTerminal`), `/repo/src/kdev-pg-visitor.cpp`, `/repo/src/kdev-pg-ast.h`.

What is printed is modelled as lists of names and numbers.
-/

namespace Verif.Tables

abbrev Text := List Char

/-! ### Tokens -/

/-- The insertion into a `QMap`: before the first key that is greater.  The order of the keys does not matter here and is a parameter. -/
def insertKey (le : Text → Text → Bool) (n : Text) : List Text → List Text
  | [] => [n]
  | m :: ms => if le n m then n :: m :: ms else m :: insertKey le n ms

/-- `World::pushTerminal` (kdev-pg.h lines 208-216): the keys of `terminals`. -/
def pushTerminal (le : Text → Text → Bool) (ts : List Text) (n : Text) : List Text := if n ∈ ts then ts else insertKey le n ts

/-- The name of the token at the end of the input. -/
def eof : Text := "EOF".toList

/-- The terminals when the enumeration is written: those declared, and `EOF` (kdev-pg-follow.cpp line 75). -/
def terminals (le : Text → Text → Bool) (decls : List Text) : List Text := pushTerminal le (decls.foldl (pushTerminal le) []) eof

/-- `GenerateToken` (lines 27-42) for all terminals, `v` is `mTokenValue`. -/
def tokens (v : Nat) : List Text → List (Text × Nat)
  | [] => []
  | t :: ts => if t = eof then (t, 1000) :: tokens v ts else (t, v) :: tokens (v + 1) ts

/-- `enum TokenType` (lines 44-57) without its last enumerator. -/
def tokenType (ts : List Text) : List (Text × Nat) := tokens 1001 ts

/-- The last enumerator, `TokenTypeSize`: in C++ one more than the one before, or 0. -/
def tokenTypeSize (ts : List Text) : Nat := match (tokenType ts).getLast? with
  | some p => p.2 + 1
  | none => 0

/-! ### Kinds of AST nodes -/

/-- A symbol: its `mCapitalizedName`, and whether it is an operator symbol. -/
structure Sym where
  name : Text
  op : Bool
deriving DecidableEq, Repr

/-- `enum AstNodeKind` (kdev-pg-ast-gen.cpp lines 25-43); `i` is `node_id`. -/
def kinds (i : Nat) : List Sym → List (Text × Nat)
  | [] => []
  | s :: ss =>
    if s.op then ("Prefix".toList ++ s.name, i) :: ("Postfix".toList ++ s.name, i + 1) :: ("Binary".toList ++ s.name, i + 2) :: ("Ternary".toList ++ s.name, i + 3) ::
      (s.name, i + 4) :: kinds (i + 5) ss
    else (s.name, i) :: kinds (i + 1) ss

/-- `Visitor::sParserTable` (kdev-pg-visitor-bits-gen.cpp lines 24-54): the `visit..` functions, `none` is the null pointer. -/
def table : List Sym → List (Option Text)
  | [] => []
  | s :: ss =>
    if s.op then some ("Prefix".toList ++ s.name) :: some ("Postfix".toList ++ s.name) :: some ("Binary".toList ++ s.name) :: some ("Ternary".toList ++ s.name) :: none :: table ss
    else some s.name :: table ss

/-- `visitNode` with the table (line 57): the function called.  `none`: undefined behaviour (outside of the table, or the null pointer). -/
def visitTable (ss : List Sym) (kind : Nat) : Option Text := if kind < 1000 then none else ((table ss)[kind - 1000]?).join

/-- The cases of `visitNode` with `switch` (lines 61-86): the name is that of the kind and of the function. -/
def cases : List Sym → List Text
  | [] => []
  | s :: ss =>
    if s.op then ("Prefix".toList ++ s.name) :: ("Postfix".toList ++ s.name) :: ("Binary".toList ++ s.name) :: ("Ternary".toList ++ s.name) :: cases ss
    else s.name :: cases ss

/-- `visitNode` with `switch`: the first case with the value.  `none`: the assertion fails. -/
def visitSwitch (ss : List Sym) (kind : Nat) : Option Text := (cases ss).find? fun n => (kinds 1000 ss).lookup n == some kind

/-! ### Order of the AST structures -/

/-- A symbol for `GenerateAstRule`: `mCapitalizedName` and the value in `astBaseClasses`, empty if there is none; whether it has a rule and is an operator symbol. -/
structure Struct where
  name : Text
  base : Text
  op : Bool
deriving DecidableEq, Repr

/-- `GenerateAstRule`: the names of the structures written so far, `mGenerated` and `mToGenerate`. -/
structure Gen where
  out : List Text := []
  generated : List Text := []
  toGenerate : List Struct := []
deriving DecidableEq, Repr

def ast : Text := "Ast".toList

/-- `GenerateAstRule::visitEvolve` (lines 115-190): the structures written, and what is put into `mGenerated`: the texts " Prefix" and " Postfix", not names
of structures.  For each symbol one rule is assumed. -/
def writeStruct (g : Gen) (s : Struct) : Gen :=
  if s.op then
    { g with
      out := g.out ++ [s.name ++ ast, "Prefix".toList ++ s.name ++ ast, "Postfix".toList ++ s.name ++ ast, "Binary".toList ++ s.name ++ ast, "Ternary".toList ++ s.name ++ ast],
      generated := " Postfix".toList :: " Prefix".toList :: g.generated }
  else { g with out := g.out ++ [s.name ++ ast] }

/-- `GenerateAstRule::operator()` (lines 84-113).  `toGenerate` is a list in the order in which a `QSet` would be iterated; `push` puts a symbol
into it at some place. -/
def genAst (push : Struct → List Struct → List Struct) (force first : Bool) (g : Gen) (s : Struct) : Gen :=
  if !force && !s.base.isEmpty && decide (s.base ∉ g.generated) then
    if first then { g with toGenerate := push s g.toGenerate } else g
  else writeStruct (if first then g else { g with toGenerate := g.toGenerate.filter (· ≠ s) }) s

/-- A pass over `mToGenerate` (lines 65-71, 76-82): as if removing the current symbol did not influence the iteration over the others.  (It does for
`QSet`, which does not keep iterators valid.) -/
def pass (push : Struct → List Struct → List Struct) (force : Bool) (g : Gen) : Gen := g.toGenerate.foldl (genAst push force false) g

/-- `while(true)` (lines 61-74). -/
def passes (push : Struct → List Struct → List Struct) : Nat → Gen → Gen
  | 0, g => g
  | f + 1, g =>
    let g' := pass push false g
    if g'.toGenerate.length = g.toGenerate.length then g' else passes push f g'

/-- `GenerateAst::operator()` (lines 55-83): the names of the structures in the order in which they are written. -/
def genAsts (push : Struct → List Struct → List Struct) (ss : List Struct) : List Text :=
  let g := ss.foldl (genAst push false true) {}
  (pass push true (passes push (g.toGenerate.length + 1) g)).out

/-! ### The visitor of the generator itself -/

/-- `Model::NodeKind` (kdev-pg-ast.h lines 35-56). -/
inductive Kind
  | item | zero | plus | star | symbol | action | alternative | cons | evolve | tryCatch | alias | terminal | nonTerminal | annotation | condition | variableDeclaration
  | operator | inlinedNonTerminal
deriving DecidableEq, Repr

/-- The values of the enumerators. -/
def Kind.value : Kind → Nat
  | item => 0 | zero => 1 | plus => 2 | star => 3 | symbol => 4 | action => 5 | alternative => 6 | cons => 7 | evolve => 8 | tryCatch => 9 | alias => 10 | terminal => 11
  | nonTerminal => 12 | annotation => 13 | condition => 14 | variableDeclaration => 15 | operator => 16 | inlinedNonTerminal => 17

/-- `Visitor::sTable` (kdev-pg-visitor.cpp lines 14-33): `visit..` functions, named by the kind that they are for. -/
def sTable : List (Option Kind) := [none, some .zero, some .plus, some .star, some .symbol, some .action, some .alternative, some .cons, some .evolve, some .tryCatch,
  some .alias, some .terminal, some .nonTerminal, some .annotation, some .condition, some .variableDeclaration, some .operator, some .inlinedNonTerminal]

end Verif.Tables
