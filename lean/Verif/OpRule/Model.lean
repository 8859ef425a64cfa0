import Verif.Top.Model
import Verif.Ops.Model

/-!
# Model of what operator rules record and of the tests that are generated from it

Sources: `/repo/src/kdev-pg-parser.yy` lines 582-653 (`operatorRule`, `operatorDeclaration`, `priority`, `assoc`, `operator`), `/repo/src/kdev-pg-ast.h` lines 175-263 (`Operator`, `OperatorItem`),
`/repo/src/kdev-pg-code-gen.cpp` lines 22-38, 280-298, 325-342, 579-590, 613-624, 653-664, 706-715, 738-752 (tests, `priority`, `left`), `/repo/src/kdev-pg-ast-gen.cpp` lines 115-190 (base classes),
`/repo/src/kdev-pg.h` lines 65-76 (`capitalized`).

Simplifications: texts are bytes; the text of a literal or of code ends at its first zero, as in C.  Operators are made by `new` and given to `free` (lines 615-620), which C++ does not allow; it is taken to
work as if they were made by `malloc`.  In tests, code of the user is given by its tokens: it is written between blanks or brackets, so that tokens do not merge; code with an open comment is left out.
-/

namespace Verif.OpRule

open Verif.Syntax (Name Operator Prio Assoc OpDecl OpExpr Atom)
open Verif.Top (Text txt)

/-! ### The texts of priorities and associativities -/

/-- `strlen` -/
def strlen (s : Text) : Nat := (s.takeWhile (· ≠ 0)).length

/-- `m[o] = c`; `none` outside of the memory. -/
def store (m : Text) (o c : Nat) : Option Text := if o < m.length then some (m.set o c) else none

/-- `strcpy(m + o, s)`: the characters up to the first zero, and a zero; `none` if they do not fit into the memory. -/
def strcpy (m : Text) (o : Nat) (s : Text) : Option Text :=
  if o + strlen s + 1 ≤ m.length then some (m.take o ++ s.takeWhile (· ≠ 0) ++ 0 :: m.drop (o + strlen s + 1)) else none

/-- The text that starts with the memory; `none` if no zero ends it. -/
def cstr (m : Text) : Option Text := if 0 ∈ m then some (m.takeWhile (· ≠ 0)) else none

/-- `T_IS_LEFT_ASSOC T_CODE`, `T_IS_RIGHT_ASSOC T_CODE` (lines 632-645): `calloc(yyleng+7)`, `tmp[0] = '('`, two times `strcpy`. -/
def choice (c tail : Text) : Option Text :=
  (store (List.replicate (strlen c + 7) 0) 0 40).bind fun m => (strcpy m 1 c).bind fun m => (strcpy m (strlen c + 6 - 6 + 1) tail).bind cstr

/-- `assoc` (lines 629-646). -/
def assocText : Assoc → Option Text
  | .left => some (txt "1")
  | .right => some (txt "0")
  | .isLeft c => choice c (txt "?1:0)")
  | .isRight c => choice c (txt "?0:1)")

/-- `priority` (lines 623-627). -/
def prioText : Prio → Text
  | .zero => txt "0"
  | .number n => n
  | .code c => c

/-- `OperatorItem` (kdev-pg-ast.h lines 182-263): the operators with `left` and `priority`. -/
structure Rec where
  paren : List (Operator × Operator) := []
  tern : List (Operator × Operator × Text × Text) := []
  bin : List (Operator × Text × Text) := []
  post : List (Operator × Text × Text) := []
  pre : List (Operator × Text) := []
deriving DecidableEq

/-- `operatorDeclaration` (lines 614-621): `pushBin`, `pushTern`, `pushPre`, `pushPost`, `pushParen`.  `none` is undefined behaviour: memory that is too small, or `free` of the literal `"0"` (line 618). -/
def Rec.push (r : Rec) : OpDecl → Option Rec
  | .bin o p a => (assocText a).map fun l => { r with bin := r.bin ++ [(o, l, prioText p)] }
  | .tern o o' p a => (assocText a).map fun l => { r with tern := r.tern ++ [(o, o', l, prioText p)] }
  | .pre o p => some { r with pre := r.pre ++ [(o, prioText p)] }
  | .post _ .zero none => none
  | .post o p none => some { r with post := r.post ++ [(o, txt "0", prioText p)] }
  | .post o p (some a) => (assocText a).map fun l => { r with post := r.post ++ [(o, l, prioText p)] }
  | .paren o o' => some { r with paren := r.paren ++ [(o, o')] }

/-- `operatorDeclarations` (lines 582-585). -/
def record (ds : List OpDecl) : Option Rec := ds.foldlM Rec.push {}

/-! ### Tests -/

/-- Tokens of C++ in tests.  `atom` stands for an operand (also a call, or a calculation in brackets), `num` for a number or an enumerator. -/
inductive T
  | atom (n : Nat) | num (n : Nat) | eq | and | or | quest | colon | comma | lp | rp
deriving DecidableEq, Repr

/-- `yytoken` -/
def yytoken : T := .atom 0

/-- `generateConditionFromStrings` (lines 22-38): the numbers of the tokens. -/
def tests : List Nat → List T
  | [] => []
  | [a] => [yytoken, .eq, .num a]
  | a :: as => [yytoken, .eq, .num a, .or] ++ tests as

/-- The test of an operator between the brackets of `if(..)`, or of `if(!(..))` for its second token (lines 585-587, 619-621, 659-661, 676-678, 712-714, 741-743, 750-752). -/
def opTest (a : Nat) (cond : List T) : List T := tests [a] ++ (if cond.length ≠ 0 then .and :: cond else [])

/-- The test of an alternative or a rule between the brackets of `if (..)` (lines 286-297, 327-342): the tokens and, for a condition, its code. -/
def ruleTest (as : List Nat) : Option (List T) → List T
  | none => tests as
  | some c => .lp :: tests as ++ [.rp, .and, .lp] ++ c ++ [.rp]

/-- `assoc` with the tokens of the code (lines 629-646). -/
def choiceTokens (c : List T) (a b : Nat) : List T := .lp :: c ++ [.quest, .num a, .colon, .num b, .rp]

/-! ### Base classes -/

/-- `capitalized`: `QChar::toUpper` of the first character, for ASCII. -/
def capitalized : Text → Text
  | [] => []
  | c :: cs => (if 97 ≤ c ∧ c ≤ 122 then c - 32 else c) :: cs

/-- The name of the structure of a symbol. -/
def className (s : Text) : Text := capitalized s ++ txt "Ast"

/-- `QMap::value` without default. -/
def lookup (m : List (Text × Text)) (s : Text) : Option Text := (m.find? (·.1 = s)).map (·.2)

/-- `operatorRule` (lines 592-593, 600-601, 608-609): the symbol of the base, the symbol of the rule. -/
def addBase (m : List (Text × Text)) (r : Text × Text) : List (Text × Text) :=
  if m.any (·.1 = r.1) then m else Top.insert r.1 (className r.2) m

/-- `astBaseClasses` behind the operator rules, `m` being what `%ast_base` has entered. -/
def bases (m : List (Text × Text)) (rs : List (Text × Text)) : List (Text × Text) := rs.foldl addBase m

/-- The class from which the structure of a symbol is derived (kdev-pg-ast-gen.cpp lines 121 and 181). -/
def baseOf (m : List (Text × Text)) (s : Text) : Text := (lookup m s).getD (txt "AstNode")

end Verif.OpRule
