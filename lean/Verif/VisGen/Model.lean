import Verif.OpRule.Model

/-!
# Model of the texts of visitor classes

Sources: `/repo/src/kdev-pg-default-visitor-gen.cpp`, `/repo/src/kdev-pg-default-visitor-bits-gen.cpp` lines 15-102, `/repo/src/kdev-pg-new-visitor-gen.cpp`, `/repo/src/kdev-pg-new-visitor-bits-gen.cpp`,
`/repo/src/kdev-pg-visitor-gen.cpp` lines 31-49, `/repo/src/kdev-pg-generate.cpp` lines 796-811 and 832-855.

Simplifications: what is written is given by its tokens (blanks and line ends are left out; names are written between other tokens, so that none merge).  The declarations that `visitVariableDeclaration`
comes across, and `HasMemberNodes`, are in `Verif.Visit` (C80, C81); here a symbol has the list of members to be visited and the answer of `HasMemberNodes`.
-/

namespace Verif.VisGen

open Verif.Top (Text txt)
open Verif.OpRule (capitalized)

abbrev Toks := List Text

/-- A member that is visited: name, capitalized type, whether it is a sequence. -/
structure Member where
  name : Text
  type : Text
  seq : Bool
deriving DecidableEq, Repr

/-- A symbol: whether it has an operator rule, the answer of `HasMemberNodes` (for operators `true`, bits lines 107-111), and the members to be visited. -/
structure Sym where
  name : Text
  op : Bool
  members : Bool
  steps : List Member
deriving DecidableEq, Repr

/-- `HasMemberNodes`. -/
def Sym.hasMembers (s : Sym) : Bool := s.op || s.members

/-- The names for which the macro `O` is used: those of the structures, without `Ast`. -/
def kinds (s : Sym) : List Text :=
  if s.op then [txt "Prefix" ++ capitalized s.name, txt "Postfix" ++ capitalized s.name, txt "Binary" ++ capitalized s.name, txt "Ternary" ++ capitalized s.name] else [capitalized s.name]

def visitT (k : Text) : Text := txt "visit" ++ k
def astT (k : Text) : Text := k ++ txt "Ast"

/-- The methods of `Visitor` (visitor-gen lines 31-49): name and type of the parameter. -/
def virtuals (ss : List Sym) : List (Text × Text) := (txt "visitNode", txt "AstNode") :: (ss.flatMap kinds).map fun k => (visitT k, astT k)

/-- `GenerateDefaultVisitorRule` (default-visitor-gen lines 32-53). -/
def declToks (k : Text) : Toks := [txt "void", visitT k, txt "(", astT k, txt "*", txt "node", txt ")", txt "override", txt ";"]

/-- `GenerateDefaultVisitor`, `GenerateNewVisitor`: the class; `mac` is the export macro. -/
def classToks (mac : Toks) (name base : Text) (ss : List Sym) : Toks :=
  [txt "class"] ++ mac ++ [name, txt ":", txt "public", base, txt "{", txt "public", txt ":"] ++ (ss.flatMap kinds).flatMap declToks ++ [txt "}", txt ";"]

/-- `visitNode(node->x);` -/
def plainToks (x : Text) : Toks := [txt "visitNode", txt "(", txt "node", txt "->", x, txt ")", txt ";"]

/-- `GenerateDefaultVisitorBitsRule::visitVariableDeclaration` (lines 77-95): the text for a member. -/
def memberToks (m : Member) : Toks :=
  if m.seq then
    [txt "if", txt "(", txt "node", txt "->", m.name ++ txt "Sequence", txt ")", txt "{",
      txt "const", txt "KDevPG", txt "::", txt "ListNode", txt "<", astT m.type, txt "*", txt ">", txt "*", txt "__it", txt "=", txt "node", txt "->", m.name ++ txt "Sequence", txt "->", txt "front", txt "(", txt ")",
      txt ",", txt "*", txt "__end", txt "=", txt "__it", txt ";",
      txt "do", txt "{", txt "visitNode", txt "(", txt "__it", txt "->", txt "element", txt ")", txt ";", txt "__it", txt "=", txt "__it", txt "->", txt "next", txt ";",
      txt "}", txt "while", txt "(", txt "__it", txt "!=", txt "__end", txt ")", txt ";", txt "}"]
  else plainToks m.name

/-- The macro `O` of `GenerateDefaultVisitorBitsRule` (lines 26-29). -/
def headToks (name k : Text) (members : Bool) : Toks :=
  [txt "void", name, txt "::", visitT k, txt "(", astT k, txt "*"] ++ (if members then [txt "node"] else []) ++ [txt ")", txt "{"]

/-- `GenerateDefaultVisitorBitsRule::operator()` (lines 15-62). -/
def bitsRule (name : Text) (s : Sym) : Toks :=
  if s.op then
    headToks name (txt "Prefix" ++ capitalized s.name) true ++ plainToks (txt "first") ++ [txt "}"] ++
    headToks name (txt "Postfix" ++ capitalized s.name) true ++ plainToks (txt "first") ++ [txt "}"] ++
    headToks name (txt "Binary" ++ capitalized s.name) true ++ plainToks (txt "first") ++ plainToks (txt "second") ++ [txt "}"] ++
    headToks name (txt "Ternary" ++ capitalized s.name) true ++ plainToks (txt "first") ++ plainToks (txt "second") ++ plainToks (txt "third") ++ [txt "}"]
  else headToks name (capitalized s.name) s.hasMembers ++ s.steps.flatMap memberToks ++ [txt "}"]

/-- The macro `O` of `GenerateNewVisitorBitsRule` (lines 21-26): its parameter is called `name` as the member with the name of the class. -/
def newToks (k : Text) : Toks :=
  [txt "void", k, txt "::", visitT k, txt "(", astT k, txt "*", txt "node", txt ")", txt "{", txt "DefaultVisitor", txt "::", visitT k, txt "(", txt "node", txt ")", txt "}"]

/-- `GenerateNewVisitorBitsRule::operator()` (lines 15-41). -/
def newRule (s : Sym) : Toks := if s.op then (kinds s).flatMap newToks else if s.hasMembers then newToks (capitalized s.name) else []

/-- `generateVisitor`, header (lines 798-811): the class. -/
def headerToks (mac : Toks) (name : Text) (inherit : Bool) (ss : List Sym) : Toks := classToks mac name (if inherit then txt "DefaultVisitor" else txt "Visitor") ss

/-- `generateVisitor`, source (lines 836-855): the definitions.  With `name` `DefaultVisitor` and without `inherit` this is also what `generateOutput` writes for the default visitor. -/
def sourceToks (name : Text) (inherit : Bool) (ss : List Sym) : Toks := if inherit then ss.flatMap newRule else ss.flatMap (bitsRule name)

end Verif.VisGen
