import Verif.Top.Model

/-!
# Model of the generated files, and of the preprocessor that reads them

Sources: `/repo/src/kdev-pg-generate.cpp` (all of `generateOutput`, `generateLexer`, `generateVisitor`), `/repo/src/kdev-pg-ast-gen.cpp` lines 16-56 (places of `namespaceCode` and `astCode`).

A generated file is a list of lines.  Directives for the preprocessor are kept; the texts that the generators of classes and functions write are single parts, as are the pieces of the user's code.
The preprocessor follows `#ifndef`, `#define`, `#undef`, `#endif` and `#include`; macros are not expanded.

Simplifications: user code and headers that are not generated do not contain directives for the generated guards and do not include generated files; the header comments, blank lines and the formatting by
`format` are left out; texts are lists of numbers of characters, the preprocessor takes characters beyond ASCII not to be parts of names.
-/

namespace Verif.Out

open Verif.Top (Text txt World)

/-- Classes and functions, written by one generator each. -/
inductive Body
  | astNode | ast | astFwd | tokenType | parser | visitor | defaultVisitor | serialize | debug | tokenText | lexer
  | parserBits | visitorBits | defaultVisitorBits | lexerInit | ruleSets | lex (state : Text) | read
  | newVisitor (inherit : Bool) | newVisitorBits (inherit : Bool)
deriving DecidableEq, Repr

/-- Pieces of code of the user, at the places where they are copied. -/
inductive User | decl | bits | lexerBits | namespaceCode | astCode
deriving DecidableEq, Repr

inductive Part
  /-- `namespace ns {` -/
  | enter
  /-- `} // end of namespace ns` -/
  | leave
  | user (u : User)
  | body (b : Body)
deriving DecidableEq, Repr

inductive Line
  | ifndef (s : Text)
  | define (s : Text)
  | undef (s : Text)
  | endif
  /-- `#include "f"` -/
  | quote (f : Text)
  /-- `#include <f>` -/
  | angle (f : Text)
  | part (p : Part)
deriving DecidableEq, Repr

/-- The options (kdev-pg.h lines 105-115), `needOperatorStack`, and the rule sets (`lexerEnvs`). -/
structure Opts where
  language : Text
  ns : Text := []
  ast : Bool := true
  serialize : Bool := false
  debug : Bool := false
  tokenText : Bool := false
  opStack : Bool := false
  states : List Text := []
deriving DecidableEq, Repr

/-- The headers written by `generateOutput` and `generateLexer`. -/
inductive H | ast | fwd | tokenType | parser | visitor | defaultVisitor | serialize | debug | tokenText | lexer
deriving DecidableEq, Repr

/-- `oname += ...` (lines 90, 124, 164, 224, 262, 300, 342, 386, 424, 624). -/
def H.suffix : H → Text
  | .ast => txt "ast.h"
  | .fwd => txt "ast-fwd.h"
  | .tokenType => txt "tokentype.h"
  | .parser => txt "parser.h"
  | .visitor => txt "visitor.h"
  | .defaultVisitor => txt "defaultvisitor.h"
  | .serialize => txt "serializevisitor.h"
  | .debug => txt "debugvisitor.h"
  | .tokenText => txt "tokentext.h"
  | .lexer => txt "lexer.h"

def H.file (o : Opts) (h : H) : Text := o.language ++ h.suffix

/-- The rest of the guard (lines 58, 105, 139, 178, 240, 278, 316, 358, 399, 543). -/
def H.guardSuffix : H → Text
  | .ast => txt "_AST_H_INCLUDED"
  | .fwd => txt "_AST_FWD_INCLUDED"
  | .tokenType => txt "_TOKEN_TYPE_H_INCLUDED"
  | .parser => txt "_H_INCLUDED"
  | .visitor => txt "_VISITOR_H_INCLUDED"
  | .defaultVisitor => txt "_DEFAULT_VISITOR_H_INCLUDED"
  | .serialize => txt "_SERIALIZATION_H_INCLUDED"
  | .debug => txt "_DEBUG_VISITOR_H_INCLUDED"
  | .tokenText => txt "_TOKEN_TEXT_H_INCLUDED"
  | .lexer => txt "_LEXER_H_INCLUDED"

/-- `language.toUpper().toLatin1()` (lines 39, 532, 773, 779); `up` is the table of `QChar`. -/
def upper (up : Nat → List Nat) (l : Text) : Text := (l.flatMap up).map fun c => if c < 256 then c else 63

/-- The loop in lines 40-44; `char` may be signed, characters beyond ASCII are replaced anyway. -/
def clean (c : Nat) : Nat := if c < 48 ∨ (57 < c ∧ c < 65) ∨ 90 < c then 95 else c

/-- The guards.  `generateLexer` (line 532) has no loop that replaces characters. -/
def H.guard (up : Nat → List Nat) (o : Opts) : H → Text
  | .lexer => upper up o.language ++ H.lexer.guardSuffix
  | h => (upper up o.language).map clean ++ h.guardSuffix

/-- `if (!globalSystem.exportMacroHeader.isEmpty()) ...`. -/
def exportInclude (w : World) : List Line := if w.exportMacroHeader = [] then [] else [.quote w.exportMacroHeader]

def quotes (l : List Text) : List Line := l.map .quote

def userIf (u : User) (b : Bool) : List Line := if b then [.part (.user u)] else []

/-- A namespace with contents. -/
def inNs (l : List Part) : List Line := .part .enter :: l.map .part ++ [.part .leave]

/-- The contents of the headers inside of the guards: lines 62-83, 108-117, 142-157, 183-217, 244-255, 282-293, 320-335, 362-379, 403-417 and 547-617. -/
def inner (o : Opts) (w : World) : H → List Line
  | .ast => .quote (H.fwd.file o) :: exportInclude w ++ quotes w.astHeaders ++ [.angle (txt "QList"), .angle (txt "kdev-pg-list.h")] ++ userIf .decl (w.decl ≠ []) ++
      inNs [.user .namespaceCode, .body .astNode, .user .astCode, .body .ast]
  | .fwd => exportInclude w ++ inNs [.body .astFwd]
  | .tokenType => exportInclude w ++ quotes w.astHeaders ++ userIf .decl (w.decl ≠ []) ++ inNs [.body .tokenType]
  | .parser => .quote (H.tokenType.file o) :: (if w.hasLexer then [.quote (H.lexer.file o)] else []) ++
      (if o.ast then [.quote (H.fwd.file o), .angle (txt "kdev-pg-memory-pool.h"), .angle (txt "kdev-pg-allocator.h")] else []) ++
      (if w.tokenStream = txt "KDevPG::TokenStream" then [.angle (txt "kdev-pg-token-stream.h")] else []) ++ quotes w.parserDeclarationHeaders ++ exportInclude w ++
      (if o.opStack then [.angle (txt "QList")] else []) ++ userIf .decl (w.decl ≠ [] ∧ o.ast = false) ++ inNs [.body .parser]
  | .visitor => .quote (H.ast.file o) :: exportInclude w ++ inNs [.body .visitor]
  | .defaultVisitor => .quote (H.visitor.file o) :: exportInclude w ++ inNs [.body .defaultVisitor]
  | .serialize => .quote (H.defaultVisitor.file o) :: exportInclude w ++ [.angle (txt "QTextStream"), .angle (txt "QFile")] ++ inNs [.body .serialize]
  | .debug => .quote (H.defaultVisitor.file o) :: exportInclude w ++ [.angle (txt "kdev-pg-token-stream.h"), .angle (txt "QTextStream"), .angle (txt "QDebug")] ++ inNs [.body .debug]
  | .tokenText => exportInclude w ++ [.quote (H.tokenType.file o)] ++ inNs [.body .tokenText]
  | .lexer => .quote (H.tokenType.file o) :: [.angle (txt "kdev-pg-char-sets.h"), .angle (txt "kdev-pg-token-stream.h")] ++ quotes w.lexerDeclarationHeaders ++ inNs [.body .lexer]

def guarded (g : Text) (ls : List Line) : List Line := .ifndef g :: .define g :: ls ++ [.endif]

def H.lines (up : Nat → List Nat) (o : Opts) (w : World) (h : H) : List Line := guarded (h.guard up o) (inner o w h)

/-- The other files: lines 428-466, 468-495, 497-527, 629-768. -/
inductive Src | parser | visitor | defaultVisitor | lexer
deriving DecidableEq, Repr

def Src.suffix : Src → Text
  | .parser => txt "parser.cpp"
  | .visitor => txt "visitor.cpp"
  | .defaultVisitor => txt "defaultvisitor.cpp"
  | .lexer => txt "lexer.cpp"

def Src.file (o : Opts) (s : Src) : Text := o.language ++ s.suffix

/-- Lines 656-674. -/
def macros : List Text := ["PP_CONCAT_IMPL(x, y) x ## y", "PP_CONCAT(x, y) PP_CONCAT_IMPL(x, y)", "lxCURR_POS (Iterator::plain())", "lxCURR_IDX (Iterator::plain() - Iterator::begin())",
  "lxCONTINUE {continueLexeme = true; return read();}", "lxLENGTH (Iterator::plain() - Iterator::begin())", "lxBEGIN_POS (spos)", "lxBEGIN_IDX (spos - Iterator::begin())",
  "lxNAMED_TOKEN(token, X) KDevPG::Token& token(Base::push()); token.kind = Token_##X; token.begin = lxBEGIN_IDX; token.end = lxCURR_IDX - 1;", "lxTOKEN(X) {lxNAMED_TOKEN(token, X);}",
  "lxDONE {return Base::read();}", "lxRETURN(X) {lxTOKEN(X); lxDONE}",
  "lxEOF {Base::Token& _t(Base::push()); _t.kind = Token_EOF;_t.begin = _t.end = Iterator::plain() - Iterator::begin();}", "lxFINISH {lxEOF lxDONE}", "yytoken (Base::back())", "lxFAIL {goto _fail;}",
  "lxSKIP {return read();}", "lxNEXT_CHR(chr) { if(!Iterator::hasNext()) goto _end; chr = Iterator::next(); }"].map txt

/-- Lines 748-760. -/
def undefs : List Text := ["lxNEXT_CHR", "lxFAIl", "lxRETURN", "lxTOKEN", "lxBEGIN_IDX", "lxBEGIN_POS", "lxLENGTH", "lxCONTINUE", "lxCURR_IDX", "lxCURR_POS", "PP_CONCAT", "PP_CONCAT_IMPL"].map txt

/-- `hasStates` (line 533). -/
def Opts.hasStates (o : Opts) : Bool := 1 < o.states.length

/-- Lines 722-739: the functions of the lexer. -/
def lexFunctions (o : Opts) : List Line :=
  if o.hasStates then o.states.flatMap (fun s => [.define (txt "CURRENT_RULE_SET " ++ s), .part (.body (.lex s)), .undef (txt "CURRENT_RULE_SET")]) ++ [.part (.body .read)]
  else [.part (.body .read)]

/-- Lines 637-762. -/
def lexerSource (o : Opts) (w : World) : List Line :=
  .quote (H.lexer.file o) :: quotes w.lexerBitsHeaders ++ [.angle (txt "cassert"), .part .enter, .part (.body .lexerInit)] ++ macros.map .define ++
    (if o.hasStates then [.define (txt "lxSET_RULE_SET(r) {PP_CONCAT(leavingRuleSet, CURRENT_RULE_SET) (); m_ruleSet = State_##r; enteringRuleSet##r ();}"), .part (.body .ruleSets)] else []) ++
    lexFunctions o ++ [.part (.user .lexerBits)] ++ (if o.hasStates then [.undef (txt "lxSET_RULE_SET")] else []) ++ undefs.map .undef ++ [.part .leave]

def Src.lines (o : Opts) (w : World) : Src → List Line
  | .parser => .quote (H.parser.file o) :: (if o.ast then [.quote (H.ast.file o)] else []) ++ quotes w.parserBitsHeaders ++ userIf .bits (w.bits ≠ []) ++ inNs [.body .parserBits]
  | .visitor => .quote (H.visitor.file o) :: inNs [.body .visitorBits]
  | .defaultVisitor => .quote (H.defaultVisitor.file o) :: inNs [.body .defaultVisitorBits]
  | .lexer => lexerSource o w

/-- `generateVisitor`: the guard (lines 773-786). -/
def visitorGuard (up : Nat → List Nat) (o : Opts) (name : Text) : Text := (upper up o.language).map clean ++ txt "_" ++ upper up name ++ txt "_H"

/-- `generateVisitor`: names and contents of the two files (lines 785-823 and 825-862); `low` is the table of `QChar` for `toLower`. -/
def visitorFile (low : Nat → List Nat) (o : Opts) (name : Text) (ext : Text) : Text := o.language ++ name.flatMap low ++ ext

def visitorHeader (up : Nat → List Nat) (o : Opts) (w : World) (name : Text) (inherit : Bool) : List Line :=
  guarded (visitorGuard up o name) (.quote ((if inherit then H.defaultVisitor else H.visitor).file o) :: exportInclude w ++ inNs [.body (.newVisitor inherit)])

def visitorSource (o : Opts) (inherit : Bool) : List Line := .quote (H.defaultVisitor.file o) :: inNs [.body (.newVisitorBits inherit)]

/-! ## What is written -/

/-- `generateOutput`: the headers, in order. -/
def outputHeaders (o : Opts) : List H :=
  (if o.ast then [.ast, .fwd] else []) ++ [.tokenType, .parser] ++ (if o.ast then [.visitor, .defaultVisitor] else []) ++ (if o.serialize then [.serialize] else []) ++ (if o.debug then [.debug] else []) ++
    if o.tokenText || o.debug then [.tokenText] else []

def outputSources (o : Opts) : List Src := .parser :: if o.ast then [.visitor, .defaultVisitor] else []

abbrev Disk := Text → Option (List Line)

/-- Opening for writing replaces a file. -/
def Disk.write (d : Disk) (f : Text) (ls : List Line) : Disk := fun g => if g = f then some ls else d g

def Disk.writes (d : Disk) (l : List (Text × List Line)) : Disk := l.foldl (fun d p => d.write p.1 p.2) d

def output (up : Nat → List Nat) (o : Opts) (w : World) : List (Text × List Line) :=
  (outputHeaders o).map (fun h => (h.file o, h.lines up o w)) ++ (outputSources o).map fun s => (s.file o, s.lines o w)

def outputLexer (up : Nat → List Nat) (o : Opts) (w : World) : List (Text × List Line) := [(H.lexer.file o, H.lexer.lines up o w), (Src.lexer.file o, Src.lexer.lines o w)]

def outputVisitor (up low : Nat → List Nat) (o : Opts) (w : World) (name : Text) (inherit : Bool) : List (Text × List Line) :=
  [(visitorFile low o name (txt ".h"), visitorHeader up o w name inherit), (visitorFile low o name (txt ".cpp"), visitorSource o inherit)]

/-! ## The preprocessor -/

/-- What is left after preprocessing. -/
inductive Ev
  /-- A header that is not generated, found as file. -/
  | file (f : Text)
  /-- A header of a library. -/
  | lib (f : Text)
  | part (p : Part)
deriving DecidableEq, Repr

def letter (c : Nat) : Bool := (65 ≤ c && c ≤ 90) || (97 ≤ c && c ≤ 122) || c == 95
def digit (c : Nat) : Bool := 48 ≤ c && c ≤ 57

/-- The name at the beginning of the rest of a line; `none`: there is none, which is an error. -/
def nameOf : Text → Option Text
  | [] => none
  | c :: cs => if letter c then some (c :: cs.takeWhile fun c => letter c || digit c) else none

/-- The macros that are defined, the conditionals that are open, and, while skipping, how many conditionals were begun. -/
structure St where
  defs : List Text
  live : Nat := 0
  skip : Nat := 0

/-- Of skipped lines only the conditionals are counted. -/
def skipped (n : Nat) : Line → Nat
  | .ifndef _ => n + 1
  | .endif => n - 1
  | _ => n

/-- The lines of one file; `inc` reads an included file.  `none` is an error. -/
def runLines (inc : Text → List Text → Option (List Ev × List Text)) : St → List Line → Option (List Ev × St)
  | st, [] => some ([], st)
  | st, l :: ls =>
    if st.skip ≠ 0 then runLines inc { st with skip := skipped st.skip l } ls
    else match l with
      | .ifndef s => (nameOf s).bind fun m => if m ∈ st.defs then runLines inc { st with skip := 1 } ls else runLines inc { st with live := st.live + 1 } ls
      | .endif => if st.live = 0 then none else runLines inc { st with live := st.live - 1 } ls
      | .define s => (nameOf s).bind fun m => runLines inc { st with defs := m :: st.defs } ls
      | .undef s => (nameOf s).bind fun m => runLines inc { st with defs := st.defs.filter (· ≠ m) } ls
      | .quote f => (inc f st.defs).bind fun r => (runLines inc { st with defs := r.2 } ls).map fun q => (r.1 ++ q.1, q.2)
      | .angle f => (runLines inc st ls).map fun q => (.lib f :: q.1, q.2)
      | .part p => (runLines inc st ls).map fun q => (.part p :: q.1, q.2)

/-- A whole file: all conditionals are closed at its end.  `fuel` bounds the depth of inclusion. -/
def run (fs : Disk) : Nat → List Text → List Line → Option (List Ev × List Text)
  | 0, _, _ => none
  | f + 1, defs, ls => (runLines (fun x defs => match fs x with
      | none => some ([.file x], defs)
      | some ls => run fs f defs ls) { defs := defs } ls).bind fun r => if r.2.live = 0 ∧ r.2.skip = 0 then some (r.1, r.2.defs) else none

end Verif.Out
