import Verif.GenText.Model
import Verif.Check.Model

/-!
# The text of the generated parse functions, with operator rules

Source: `/repo/src/kdev-pg-code-gen.cpp` lines 561-790 (`CodeGenerator::visitOperator`), 804-890 (`GenerateParserRule`).

`GenText.Model` has no text for operator rules.  Here it is, token by token.  C116 uses it; C115 does not.

Simplifications:
* the local variables of the operator loop have no number; they are written with the number 0;
* user conditions and code of an operator are written as the code of its token.
-/

namespace Verif.GenText

open Verif.Grammar
open Verif.Gen (Ctx Row OpKind isCond rulesOf rows1 rows2 symOf)
open Spec (here yynode)

/-- A variable without number. -/
def nm (w : Word) : Tok := .num w 0

/-- `if(test && condition)` (e.g. lines 584-588). -/
def opTest (o : Opts) (K : Ctx) (t : Nat) (ask : Bool) : Toks := testToks o K t ++ if ask then [.w .«&&», .ask t] else []

/-- `opStack.last().n` -/
def lastN : Toks := [nm .«opStack», .w .«.», .w .«last», .lp, .rp, .w .«.», .w .«n»]
def popBack : Toks := [nm .«opStack», .w .«.», .w .«pop_back», .lp, .rp, .semi]
/-- `opStack.push_x(OperatorStackItem(v, p));` -/
def pushItem (x : Word) (v p : Toks) : Toks := [nm .«opStack», .w .«.», .w x, .lp, .w .«OperatorStackItem», .lp] ++ v ++ .w .«,» :: p ++ [.rp, .rp, .semi]
/-- `create<KNodeAst>(last)` -/
def createOn (k : Word) (n : Nat) : Toks := [.w .«create», .w .«<», .sym k n, .w .«>», .lp, nm .«last», .rp]
def endOf (v : Tok) : Toks := [v, .w .«->», .w .«endToken»]
/-- `((KNodeAst*)opStack.last().n)->field` -/
def fieldOf (k : Word) (n : Nat) (f : Word) : Toks := [.lp, .lp, .sym k n, .w .«*», .rp] ++ lastN ++ [.rp, .w .«->», .w f]
/-- `opStack.last().n->kind == AstNode::KNodeKind` -/
def kindIs (k : Word) (n : Nat) : Toks := lastN ++ [.w .«->», .w .«kind», .w .«==», .w .«AstNode», .w .«::», .sym k n]
def binaryField (n : Nat) : Toks := kindIs .«Binary» n ++ .w .«&&» :: fieldOf .«Binary» n .«second» ++ .w .«?» :: fieldOf .«Binary» n .«second» ++ .w .«:» :: fieldOf .«Binary» n .«first»
/-- Lines 643-653, 701-711. -/
def anyField (n : Nat) : Toks :=
  kindIs .«Ternary» n ++ .w .«?» :: .lp :: fieldOf .«Ternary» n .«third» ++ .w .«?» :: fieldOf .«Ternary» n .«third» ++ .w .«:» :: .lp :: fieldOf .«Ternary» n .«second» ++
    .w .«?» :: fieldOf .«Ternary» n .«second» ++ .w .«:» :: fieldOf .«Ternary» n .«first» ++ [.rp, .rp, .w .«:»] ++ binaryField n

/-- Lines 589-593: the beginning of the block of a postfix, binary or ternary operator. -/
def opHead (r : Row) : Toks :=
  [.w .«const», .w .«unsigned», .w .«int», nm .«priority», .w .«=», .sym .«literal» r.prio, .semi, .code r.tok, .w .«AstNode», .w .«*», nm .«last», .w .«=», .w .«nullptr», .semi,
    .w .«bool», nm .«br», .w .«=», .w .«false», .semi, .kWhile, .lp, nm .«priority», .w .«<», nm .«opStack», .w .«.», .w .«last», .lp, .rp, .w .«.», .w .«p», .w .«+», .sym .«literal» r.left, .rp, .lb,
    .kIf, .lp, nm .«opStack», .w .«.», .w .«size», .lp, .rp, .w .«==», .w .«1», .rp, .lb, .kIf, .lp, nm .«last», .rp] ++ lastN ++ [.w .«->», .w .«endToken», .w .«=»] ++ endOf (nm .«last») ++
  [.semi, nm .«last», .w .«=»] ++ lastN ++ .semi :: popBack

/-- Lines 600-606: the end of the loop. -/
def opClose : Toks :=
  [nm .«br», .w .«=», .w .«true», .semi, .w .«break», .semi, .rb, .kElse, .lb, .w .«AstNode», .w .«*», nm .«olast», .w .«=», nm .«last», .semi, nm .«last», .w .«=»] ++ lastN ++
  [.semi, .kIf, .lp, nm .«olast», .rp] ++ endOf (nm .«last») ++ .w .«=» :: endOf (nm .«olast») ++ .semi :: popBack ++ [.rb, .rb]

/-- Lines 607-613: the operator is put below an open node. -/
def opBelow (k : Word) (n : Nat) (field p : Toks) : Toks :=
  [.kIf, .lp, .w .«!», nm .«br», .rp, .lb] ++ lastN ++ [.w .«->», .w .«endToken», .w .«=»] ++ endOf (nm .«last») ++ [.semi, .w .«AstNode», .w .«*&», nm .«ref», .w .«=»] ++ field ++ .semi ::
  pushItem .«push_back» (nm .«ref» :: .w .«=» :: createOn k n) p

/-- `(*yynode)->startToken = last->startToken;` -/
def startAs (v : Toks) : Toks := v ++ [.w .«startToken», .w .«=», nm .«last», .w .«->», .w .«startToken», .semi]

/-- Lines 578-615. -/
def postToks (o : Opts) (K : Ctx) (n : Nat) (r : Row) : Toks :=
  [.kIf, .lp] ++ opTest o K r.tok r.ask ++ [.rp, .lb] ++ opHead r ++ pushItem .«push_front» ([.lp, .w .«*», .w .«yynode», .rp, .w .«=»] ++ createOn .«Postfix» n) [.w .«-2»] ++
  yynode ++ [.w .«endToken», .w .«=»] ++ endOf (nm .«last») ++ [.w .«+», .w .«1», .semi] ++ startAs yynode ++ opClose ++
  opBelow .«Postfix» n (binaryField n) [.w .«-2»] ++ endOf (nm .«ref») ++ .w .«=» :: endOf (nm .«last») ++ [.w .«+», .w .«1», .semi] ++ startAs [nm .«ref», .w .«->»] ++ .rb :: lexToks ++ [.rb]

/-- Lines 616-655. -/
def binToks (o : Opts) (K : Ctx) (n : Nat) (r : Row) : Toks :=
  [.kIf, .lp] ++ opTest o K r.tok r.ask ++ [.rp, .lb] ++ opHead r ++ pushItem .«push_front» ([.lp, .w .«*», .w .«yynode», .rp, .w .«=»] ++ createOn .«Binary» n) [nm .«priority»] ++ startAs yynode ++ opClose ++
  opBelow .«Binary» n (anyField n) [nm .«priority»] ++ startAs [nm .«ref», .w .«->»] ++ [.rb, nm .«expectOperator», .w .«=», .w .«false», .semi] ++ lexToks ++ [.rb]

/-- `__var`: without syntax tree it is never set, and empty. -/
def varToks (o : Opts) (d : Nat) : Toks := if o.ast then [.num .«__node_» d] else []

/-- Lines 656-713. -/
def ternToks (o : Opts) (K : Ctx) (self n : Nat) (r : Row) (d : Nat) : Toks :=
  [.kIf, .lp] ++ opTest o K r.tok r.ask ++ [.rp, .lb] ++ opHead r ++ pushItem .«push_front» ([.lp, .w .«*», .w .«yynode», .rp, .w .«=»] ++ createOn .«Ternary» n) [nm .«priority»] ++ startAs yynode ++ lexToks ++
  callToks o n self 0 d ++ [.kIf, .lp, .w .«!», .lp] ++ opTest o K r.tok2 r.ask2 ++ [.rp, .rp, .kReturn, .w .«false», .semi, .lp, .lp, .sym .«Ternary» n, .w .«*», .rp, .w .«*», .w .«yynode», .rp, .w .«->», .w .«second», .w .«=»] ++
  varToks o d ++ .semi :: opClose ++
  opBelow .«Ternary» n (anyField n) [nm .«priority»] ++ startAs [nm .«ref», .w .«->»] ++ [.rb, nm .«expectOperator», .w .«=», .w .«false», .semi] ++ lexToks ++ [.rb]

/-- `reinterpret_cast<KNodeAst*>(last)->field` -/
def castField (k : Word) (n : Nat) (f : Word) : Toks := [.w .«reinterpret_cast», .w .«<», .sym k n, .w .«*», .w .«>», .lp, nm .«last», .rp, .w .«->», .w f]

/-- The first free field of the last node is set to `v`. -/
def fillField (n : Nat) (v : Toks) : Toks :=
  [.lb, .w .«void», .w .«*», nm .«last», .w .«=»] ++ lastN ++ [.semi, .kIf, .lp] ++ castField .«Prefix» n .«first» ++ [.w .«==», .w .«nullptr», .rp] ++ castField .«Prefix» n .«first» ++ .w .«=» :: v ++
  [.semi, .kElse, .kIf, .lp] ++ castField .«Binary» n .«second» ++ [.w .«==», .w .«nullptr», .rp] ++ castField .«Binary» n .«second» ++ .w .«=» :: v ++
  [.semi, .kElse] ++ castField .«Ternary» n .«third» ++ .w .«=» :: v ++ [.semi, .rb]

/-- Lines 718-748. -/
def preToks (o : Opts) (K : Ctx) (n : Nat) (r : Row) : Toks :=
  [.kIf, .lp] ++ opTest o K r.tok r.ask ++ [.rp, .lb, .w .«const», .w .«unsigned», .w .«int», nm .«priority», .w .«=», .sym .«literal» r.prio, .semi, .code r.tok,
    .sym .«Prefix» n, .w .«*», nm .«node», .w .«=», .w .«create», .w .«<», .sym .«Prefix» n, .w .«>», .lp, .rp, .semi,
    .kIf, .lp, nm .«opStack», .w .«.», .w .«empty», .lp, .rp, .rp, .lp, .w .«*», .w .«yynode», .rp, .w .«=», nm .«node», .semi, .kElse] ++ fillField n [nm .«node»] ++
  pushItem .«push_back» [nm .«node»] [nm .«priority»] ++ [nm .«node», .w .«->», .w .«startToken», .w .«=»] ++ here ++ .semi :: lexToks ++ [.rb]

/-- `PUSH_UNARY` (lines 763-775). -/
def pushUnary (n : Nat) (v : Toks) : Toks :=
  [.kIf, .lp, .w .«!», nm .«opStack», .w .«.», .w .«isEmpty», .lp, .rp, .rp] ++ fillField n v ++ [.kElse, .lp, .w .«*», .w .«yynode», .rp, .w .«=»] ++ v ++ .semi :: pushItem .«push_back» v [.w .«-2»]

def expectTrue : Toks := [nm .«expectOperator», .w .«=», .w .«true», .semi]

/-- Lines 749-779. -/
def parenToks (o : Opts) (K : Ctx) (self n : Nat) (r : Row) (d : Nat) : Toks :=
  [.kIf, .lp] ++ opTest o K r.tok r.ask ++ [.rp, .lb] ++ lexToks ++ [.kIf, .lp] ++ testToks o K self ++ [.rp, .lb] ++ callToks o n self 0 d ++ [.kIf, .lp, .w .«!», .lp] ++ opTest o K r.tok2 r.ask2 ++
  [.rp, .rp, .lb, .kReturn, .w .«false», .semi, .rb, .w .«--»] ++ varToks o d ++ [.w .«->», .w .«startToken», .semi, .w .«++»] ++ varToks o d ++ [.w .«->», .w .«endToken», .semi] ++ lexToks ++
  pushUnary n (varToks o d) ++ expectTrue ++ [.rb, .kElse, .kReturn, .w .«false», .semi, .rb]

/-- Lines 780-789. -/
def baseToks (o : Opts) (K : Ctx) (n base sym d : Nat) : Toks :=
  [.kIf, .lp] ++ testToks o K sym ++ [.rp, .lb] ++ callToks o base sym 0 d ++ pushUnary n (varToks o d) ++ expectTrue ++
  [.rb, .kElse, .lb, .w .«expectedSymbol», .lp, .w .«AstNode», .w .«::», .sym .«Kind» n, .w .«,», .lit n, .rp, .semi, .kReturn, .w .«false», .semi, .rb]

/-- One operator: the text and the new `__id`. -/
def rowToks (o : Opts) (K : Ctx) (self n : Nat) (r : Row) (d : Nat) : Toks × Nat := match r.kind with
  | .post => (postToks o K n r, d)
  | .bin => (binToks o K n r, d)
  | .tern => (ternToks o K self n r d, nextVar o d)
  | .pre => (preToks o K n r, d)
  | .paren => (parenToks o K self n r d, nextVar o d)

/-- The chain of operators; an `else` is behind each of them, as there is always something after it. -/
def rowsToks (o : Opts) (K : Ctx) (self n : Nat) : List Row → Nat → Toks × Nat
  | [], d => ([], d)
  | r :: rs, d =>
    let a := rowToks o K self n r d
    let b := rowsToks o K self n rs a.2
    (a.1 ++ .kElse :: b.1, b.2)

/-- `visitOperator` (lines 561-790).  `none`: as for `Gen.opDesc`. -/
def opToks (o : Opts) (K : Ctx) (self n : Nat) (q : OpItem) (d : Nat) : Option (Toks × Nat) :=
  if q.post = [] ∧ q.bin = [] ∧ q.tern = [] then none
  else (symOf K.W q.base).map fun sym =>
    let a := rowsToks o K self n (rows1 K n .post q.post ++ rows1 K n .bin q.bin ++ rows2 K n .tern q.tern) d
    let b := rowsToks o K self n (rows1 K n .pre q.pre ++ rows2 K n .paren q.paren) a.2
    ([.w .«bool», nm .«expectOperator», .w .«=», .w .«false», .semi, .kWhile, .lp, .w .«true», .rp, .lb, .kIf, .lp, nm .«expectOperator», .rp, .lb] ++ a.1 ++ [.w .«break», .semi, .rb, .kElse, .lb] ++ b.1 ++
      baseToks o K n q.base sym b.2 ++ [.rb, .rb], nextVar o b.2)

/-- `visitEvolve`, also for operator rules. -/
def fullRule (o : Opts) (K : Ctx) (fuel r i s k d : Nat) : Option (Toks × Nat × Nat) := match K.W.node i with
  | some (.op q) => (ruleToks o K r i s).bind fun t => (opToks o K s i q d).map fun b =>
    ([.kIf, .lp] ++ t ++ [.rp, .lb] ++ localToks (o.locals r) ++ [.code r] ++ b.1 ++
      (if s ∈ K.W.start then [.kIf, .lp, .sym .«Token_» K.eofTok, .w .«!=», .w .«yytoken», .rp, .lb, .kReturn, .w .«false», .semi, .rb] else []) ++ [.rb], k, b.2)
  | _ => textRule o K fuel r i s 0 k d

/-- As `textRules`. -/
def fullRules (o : Opts) (K : Ctx) (fuel : Nat) : List Nat → Nat → Nat → Option Toks
  | [], _, _ => some [.lb, .kReturn, .w .«false», .semi, .rb]
  | r :: rs, k, d => match K.W.node r with
    | some (.evolve i s) => (fullRule o K fuel r i s k d).bind fun a => (fullRules o K fuel rs a.2.1 a.2.2).map fun b => a.1 ++ .kElse :: b
    | _ => none

/-- Lines 818-831. -/
def funHead (o : Opts) (K : Ctx) (s : Nat) : Toks :=
  if o.ast then
    if Check.isOpSym K.W s then [.w .«QList», .w .«<», .w .«OperatorStackItem», .w .«>», nm .«opStack», .semi]
    else [.w .«*», .w .«yynode», .w .«=», .w .«create», .w .«<», .sym .«Ast» s, .w .«>», .lp, .rp, .semi] ++ yynode ++ .w .«startToken» :: .w .«=» :: here ++ [.semi] ++
      (o.inits s).flatMap (fun n => yynode ++ [.mem n, .w .«=», .w .«-1», .semi])
  else []

/-- Lines 866-885. -/
def funTail (o : Opts) (K : Ctx) (s : Nat) : Toks :=
  if o.ast then
    if Check.isOpSym K.W s then [.w .«AstNode», .w .«*», nm .«olast», .w .«,», .w .«*», nm .«last», .w .«=», .w .«nullptr», .semi, .kWhile, .lp, .w .«!», nm .«opStack», .w .«.», .w .«empty», .lp, .rp, .rp, .lb,
      nm .«olast», .w .«=», nm .«last», .semi, nm .«last», .w .«=»] ++ lastN ++ [.semi, .kIf, .lp, nm .«olast», .rp] ++ endOf (nm .«last») ++ .w .«=» :: endOf (nm .«olast») ++ .semi :: popBack ++ [.rb]
    else yynode ++ [.w .«endToken», .w .«=», .w .«tokenStream», .w .«->», .w .«index», .lp, .rp, .w .«-», .w .«2», .semi]
  else []

/-- `GenerateParserRule` (lines 804-890) for all symbols. -/
def fullText (o : Opts) (K : Ctx) (fuel s : Nat) : Option Toks :=
  if rulesOf K.W s = [] then none else
  (fullRules o K fuel (rulesOf K.W s) (K.count s) (o.first s)).map fun b => .lb :: funHead o K s ++ localToks (o.locals s) ++ b ++ funTail o K s ++ [.kReturn, .w .«true», .semi, .rb]

end Verif.GenText
