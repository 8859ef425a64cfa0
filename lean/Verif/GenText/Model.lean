import Verif.GenText.Spec

/-!
# The text of the generated parse functions

Source: `/repo/src/kdev-pg-code-gen.cpp` lines 22-197 (`generateConditionFromStrings`, `generateCondition`, `generateTestCondition`, `generateParserCall`, `generateTokenTest`, `generateRecovery`),
199-559 (`CodeGenerator`), 804-890 (`GenerateParserRule`), 892-915 (`GenerateLocalDeclarations`), 1215-1240 (`GenerateTokenVariableInitialization`).

`Gen.gen` gives statements of a small language; here are the tokens of C++ that are written, function by function.  Comments and line ends are left out.

Simplifications:
* operator items have no text here (`visitOperator`, lines 561-790);
* rules have no arguments that are members of nodes (lines 916-954, 485-528: tests of `startToken`);
* `mUnsafe` is always false (kdev-pg.cpp line 84);
* `QStringList::sort` and `std::sort` are a sorting by an arbitrary comparison.
-/

namespace Verif.GenText

open Verif.Grammar
open Verif.Gen (Ctx isCond flatten rulesOf)
open Spec (here yynode)

/-- What is known besides the grammar. -/
structure Opts where
  /-- `globalSystem.generateAst` -/
  ast : Bool := true
  /-- `globalSystem.needStateManagement` -/
  mgmt : Bool := true
  /-- comparison of names of tokens -/
  le : Nat → Nat → Bool := (· ≤ ·)
  /-- `!node->mArguments.isEmpty()` -/
  args : Nat → Bool := fun _ => false
  /-- `mDeclaration->mIsSequence` and `mStorageType == StorageAstMember` of an annotation -/
  seq : Nat → Bool := fun _ => false
  member : Nat → Bool := fun _ => true
  /-- the token members set to -1 in the function of a symbol (`Vars.initialised`) -/
  inits : Nat → List Nat := fun _ => []
  /-- the local variables declared at the beginning of a function and of a rule, and whether they are set to 0 (`Vars.function`) -/
  locals : Nat → List (Nat × Bool) := fun _ => []
  /-- the number of the first variable `__node_i` in a function -/
  first : Nat → Nat := fun _ => 0

/-- `generateConditionFromStrings` (lines 22-38): the tokens are sorted already. -/
def isToks : List Nat → Toks
  | [] => []
  | [n] => [.w .«yytoken», .w .«==», .sym .«Token_» n]
  | n :: ns => .w .«yytoken» :: .w .«==» :: .sym .«Token_» n :: .w .«||» :: isToks ns

/-- `generateCondition` (lines 41-61). -/
def setToks (o : Opts) (W : World) (s : List Nat) : Toks :=
  if s.all fun x => W.node x = some .zero then [.w .«true»] else isToks ((s.filter (isTerm W)).mergeSort o.le)

/-- `generateTestCondition` (lines 63-77). -/
def testToks (o : Opts) (K : Ctx) (n : Nat) : Toks :=
  if K.W.node n = some .term then isToks [n] else setToks o K.W (K.F.of n)

/-- `return false;` or `goto`. -/
def leaveToks (c : Nat) : Toks := if c = 0 then [.kReturn, .w .«false», .semi] else [.kGoto, .num .«__catch_» c, .semi]

/-- A report, unless errors are blocked (lines 109-118, 133-142). -/
def guarded (o : Opts) (e : Toks) : Toks := if o.mgmt then [.kIf, .lp, .w .«!», .w .«mBlockErrors», .rp, .lb] ++ e ++ [.semi, .rb] else e ++ [.semi]

/-- `generateParserCall` (lines 79-124) for the non-terminal `n` of symbol `s`; `d` is `__id`. -/
def callToks (o : Opts) (n s c d : Nat) : Toks :=
  (if o.ast then [.sym .«Ast» s, .w .«*», .num .«__node_» d, .w .«=», .w .«nullptr», .semi, .kIf, .lp, .w .«!», .sym .«parse» s, .lp, .w .«&», .num .«__node_» d] ++ (if o.args n then [.w .«,», .args n] else []) ++ [.rp, .rp]
    else [.kIf, .lp, .w .«!», .sym .«parse» s, .lp] ++ (if o.args n then [.args n] else []) ++ [.rp, .rp]) ++
  (if c = 0 then
    .lb :: (guarded o [.w .«expectedSymbol», .lp, .w .«AstNode», .w .«::», .sym .«Kind» s, .w .«,», .w .«QStringLiteral», .lp, .lit s, .rp, .rp] ++ [.kReturn, .w .«false», .semi, .rb])
  else [.lb, .kGoto, .num .«__catch_» c, .semi, .rb])

/-- The new value of `__id`. -/
def nextVar (o : Opts) (d : Nat) : Nat := if o.ast then d + 1 else d

/-- `generateTokenTest` (lines 126-151). -/
def tokToks (o : Opts) (n c : Nat) : Toks :=
  [.kIf, .lp, .w .«yytoken», .w .«!=», .sym .«Token_» n, .rp] ++
  (if c = 0 then .lb :: (guarded o [.w .«expectedToken», .lp, .w .«yytoken», .w .«,», .sym .«Token_» n, .w .«,», .w .«QStringLiteral», .lp, .lit n, .rp, .rp] ++ [.kReturn, .w .«false», .semi, .rb])
  else [.kGoto, .num .«__catch_» c, .semi])

def lexToks : Toks := [.w .«yylex», .lp, .rp, .semi]

/-- `generateRecovery` (lines 158-196). -/
def recoverToks (o : Opts) (K : Ctx) (n i : Nat) : Toks :=
  [.kIf, .lp, .num .«try_startToken_» i, .w .«==»] ++ here ++ [.w .«&&», .w .«yytoken», .w .«!=», .sym .«Token_» K.eofTok, .rp] ++ lexToks ++
  [.kWhile, .lp, .w .«yytoken», .w .«!=», .sym .«Token_» K.eofTok] ++
  (((K.S.of n).filter (isTerm K.W)).mergeSort o.le).flatMap (fun t => [.w .«&&», .w .«yytoken», .w .«!=», .sym .«Token_» t]) ++ [.rp, .lb] ++ lexToks ++ [.rb]

/-- The assignment to the variable of annotation `n` (lines 455-480, 536-556). -/
def assignToks (o : Opts) (n : Nat) (v : Toks) : Toks :=
  let x := if o.member n then yynode else []
  (if o.seq n then x ++ [.mem n, .w .«Sequence», .w .«=»] ++ [.w .«snoc», .lp] ++ x ++ [.mem n, .w .«Sequence», .w .«,»] ++ v ++ [.w .«,», .w .«memoryPool», .rp]
    else x ++ .mem n :: .w .«=» :: v) ++ [.semi]

/-- `GenerateLocalDeclarations` (lines 892-915). -/
def localToks (l : List (Nat × Bool)) : Toks := l.flatMap fun p => [.ty p.1, .mem p.1] ++ (if p.2 then [.w .«=», .w .«0»] else []) ++ [.semi]

/-- The condition of an alternative (lines 282-295). -/
def altToks (o : Opts) (K : Ctx) (n : Nat) : Toks :=
  if isCond K.W n then .lp :: (testToks o K n ++ [.rp, .w .«&&», .lp, .ask n, .rp]) else testToks o K n

/-- The condition of rule `r` with item `i` for symbol `s` (lines 321-341). -/
def ruleToks (o : Opts) (K : Ctx) (r i s : Nat) : Option Toks := (reduces K.W K.F i).map fun e =>
  let t := testToks o K r ++ if e then .w .«||» :: setToks o K.W (K.S.of s) else []
  if isCond K.W i then .lp :: (t ++ [.rp, .w .«&&», .lp, .ask i, .rp]) else t

/-- Lines 371-385, 391-400: what is in front of the body of a try block and behind it. -/
def openToks (i : Nat) : Toks :=
  .w .«qint64» :: .num .«try_startToken_» i :: .w .«=» :: (here ++ [.semi, .w .«ParserState», .w .«*», .num .«try_startState_» i, .w .«=», .w .«copyCurrentState», .lp, .rp, .semi, .lb])
def deleteToks (i : Nat) : Toks := [.kIf, .lp, .num .«try_startState_» i, .rp, .w .«delete», .num .«try_startState_» i, .semi]
/-- Lines 402-414. -/
def catchToks (i : Nat) : Toks :=
  [.kIf, .lp, .w .«false», .rp, .lb, .num .«__catch_» i, .colon, .kIf, .lp, .num .«try_startState_» i, .rp, .lb, .w .«restoreState», .lp, .num .«try_startState_» i, .rp, .semi,
    .w .«delete», .num .«try_startState_» i, .semi, .rb]
def blockToks (i : Nat) : Toks := [.w .«bool», .num .«blockErrors_» i, .w .«=», .w .«blockErrors», .lp, .w .«true», .rp, .semi]
def unblockToks (i : Nat) : Toks := [.w .«blockErrors», .lp, .num .«blockErrors_» i, .rp, .semi]
def rewindToks (i : Nat) : Toks := [.w .«rewind», .lp, .num .«try_startToken_» i, .rp, .semi]

mutual

/-- `CodeGenerator::visitNode` for item `n` with `mCurrentCatchId = c`, `tryCatch_counter = k` and `__id = d`: the text and the new counters. -/
def text (o : Opts) (K : Ctx) : Nat → Nat → Nat → Nat → Nat → Option (Toks × Nat × Nat)
  | 0, _, _, _, _ => none
  | f + 1, n, c, k, d => match K.W.node n with
    | none => none
    -- lines 206-216
    | some .zero => some ([], k, d)
    | some .sym => some ([], k, d)
    -- lines 218-221
    | some (.nonterm s) => some (callToks o n s c d, k, nextVar o d)
    -- lines 223-229
    | some .term => some (tokToks o n c ++ lexToks, k, d)
    -- lines 231-238
    | some (.plus i) => (text o K f i c k d).map fun b => ([.kDo, .lb] ++ b.1 ++ [.rb, .kWhile, .lp] ++ testToks o K n ++ [.rp, .semi], b.2)
    -- lines 240-247
    | some (.star i) => (text o K f i c k d).map fun b => ([.kWhile, .lp] ++ testToks o K n ++ [.rp, .lb] ++ b.1 ++ [.rb], b.2)
    -- lines 249-258
    | some (.action none) => some ([.code n], k, d)
    | some (.action (some i)) => (text o K f i c k d).map fun b => (b.1 ++ [.code n], b.2)
    | some (.cond i) => text o K f i c k d
    -- lines 437-559
    | some (.annot i) =>
      if o.ast then (text o K f i c k d).bind fun b => match K.W.node i with
        | some .term => some (tokToks o i c ++ assignToks o n here ++ lexToks, b.2)
        | some (.nonterm s) => some (callToks o i s c d ++ assignToks o n [.num .«__node_» d], b.2)
        | _ => none
      else text o K f i c k d
    -- lines 260-276
    | some (.alt l r) => (flatten K.W f l).bind fun a => (flatten K.W f r).bind fun b => textAlts o K f (a ++ b) c k d
    -- lines 316-319
    | some (.cons l r) => (text o K f l c k d).bind fun a => (text o K f r c a.2.1 a.2.2).map fun b => (a.1 ++ b.1, b.2)
    -- lines 321-360
    | some (.evolve i s) => textRule o K f n i s c k d
    -- lines 362-430
    | some (.tryc l none) =>
      let id := k + 1
      (text o K f l id id d).map fun b => (openToks id ++ b.1 ++ [.rb] ++ deleteToks id ++ catchToks id ++ recoverToks o K n id ++ [.rb], b.2)
    | some (.tryc l (some r)) =>
      let id := k + 1
      (text o K f l id id d).bind fun b => (text o K f r c b.2.1 b.2.2).map fun h =>
        (blockToks id ++ openToks id ++ b.1 ++ [.rb] ++ unblockToks id ++ deleteToks id ++ catchToks id ++ unblockToks id ++ rewindToks id ++ h.1 ++ [.rb], h.2)
    | some (.op _) => none
    -- kdev-pg-default-visitor.cpp: visitInlinedNonTerminal
    | some (.inlined none) => some ([], k, d)
    | some (.inlined (some s)) => match K.W.searchRule s with
      | none => some ([], k, d)
      | some r => text o K f r c k d

/-- Lines 278-313: the chain of alternatives, with the last `else`. -/
def textAlts (o : Opts) (K : Ctx) : Nat → List Nat → Nat → Nat → Nat → Option (Toks × Nat × Nat)
  | 0, _, _, _, _ => none
  | _ + 1, [], c, k, d => some (.lb :: leaveToks c ++ [.rb], k, d)
  | f + 1, n :: ns, c, k, d =>
    (text o K f n c k d).bind fun a => (textAlts o K f ns c a.2.1 a.2.2).map fun b =>
      ([.kIf, .lp] ++ altToks o K n ++ [.rp, .lb] ++ a.1 ++ [.rb, .kElse] ++ b.1, b.2)

/-- `visitEvolve` (lines 321-360) for rule `r` with item `i` and symbol `s`. -/
def textRule (o : Opts) (K : Ctx) : Nat → Nat → Nat → Nat → Nat → Nat → Nat → Option (Toks × Nat × Nat)
  | 0, _, _, _, _, _, _ => none
  | f + 1, r, i, s, c, k, d =>
    (ruleToks o K r i s).bind fun t => (text o K f i c k d).map fun b =>
      ([.kIf, .lp] ++ t ++ [.rp, .lb] ++ localToks (o.locals r) ++ [.code r] ++ b.1 ++
        (if s ∈ K.W.start then [.kIf, .lp, .sym .«Token_» K.eofTok, .w .«!=», .w .«yytoken», .rp, .lb, .kReturn, .w .«false», .semi, .rb] else []) ++ [.rb], b.2)

end

/-- The chain of rules in a parse function with the last `else` (lines 843-862). -/
def textRules (o : Opts) (K : Ctx) (fuel : Nat) : List Nat → Nat → Nat → Option Toks
  | [], _, _ => some [.lb, .kReturn, .w .«false», .semi, .rb]
  | r :: rs, k, d => match K.W.node r with
    | some (.evolve i s) => (textRule o K fuel r i s 0 k d).bind fun a => (textRules o K fuel rs a.2.1 a.2.2).map fun b => a.1 ++ .kElse :: b
    | _ => none

/-- `GenerateParserRule` (lines 804-890): the body of the parse function of symbol `s`.  `none` also if the symbol has no rule (the text begins with `else`; `main` refuses such grammars, C41). -/
def funText (o : Opts) (K : Ctx) (fuel s : Nat) : Option Toks :=
  if rulesOf K.W s = [] then none else
  (textRules o K fuel (rulesOf K.W s) (K.count s) (o.first s)).map fun b =>
    .lb :: (if o.ast then [.w .«*», .w .«yynode», .w .«=», .w .«create», .w .«<», .sym .«Ast» s, .w .«>», .lp, .rp, .semi] ++ yynode ++ .w .«startToken» :: .w .«=» :: here ++ [.semi] ++
        (o.inits s).flatMap (fun n => yynode ++ [.mem n, .w .«=», .w .«-1», .semi]) else []) ++
      localToks (o.locals s) ++ b ++
      (if o.ast then yynode ++ [.w .«endToken», .w .«=», .w .«tokenStream», .w .«->», .w .«index», .lp, .rp, .w .«-», .w .«2», .semi] else []) ++ [.kReturn, .w .«true», .semi, .rb]

end Verif.GenText
