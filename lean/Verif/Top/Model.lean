import Verif.Syntax.Model
import Verif.LexSyn.Model
import Verif.Text.Model

/-!
# Model of whole grammar files

Sources: `/repo/src/kdev-pg-parser.yy` lines 80-187, 448-472 and 576-579 (the productions and their actions), `/repo/src/kdev-pg.h` lines 105-117 and 182-258 (the defaults and the functions called),
`/repo/src/kdev-pg-lexer.ll` (the names of the tokens).

A grammar file is the list of tokens the scanner (`Verif/GLex/Model.lean`) returns for it, each with its text.  The parts inside lexer sections and rules are read as in `Verif/LexSyn/Model.lean` and
`Verif/Syntax/Model.lean`.

Simplifications: bytes instead of `QString`; the terminals declared and the lexer sections are collected in the order in which their actions run; what these
actions do is in `Verif/Front/Model.lean` and `Verif/LexSyn/Build.lean`.
-/

namespace Verif.Top

abbrev Text := List Nat

/-- A token with its text, as the scanner returns it. -/
abbrev T := GLex.Tok × List Nat

/-- Tokens in lexer sections (kdev-pg-lexer.ll lines 198-230). -/
def lexTok : T → Option LexSyn.Tok
  | (.ch 124, _) => some .bar
  | (.ch 38, _) => some .amp
  | (.ch 94, _) => some .hat
  | (.ch 126, _) => some .tilde
  | (.ch 63, _) => some .opt
  | (.ch 64, _) => some .at_
  | (.ch 42, _) => some .star
  | (.ch 43, _) => some .plus
  | (.ch 40, _) => some .lp
  | (.ch 41, _) => some .rp
  | (.ch 91, _) => some .lb
  | (.ch 93, _) => some .rb
  | (.ch 46, _) => some .dot
  | (.ch 59, _) => some .semi
  | (.named "T_STRING", x) => some (.str x)
  | (.named "T_UNQUOTED_STRING", x) => some (.unq x)
  | (.named "T_RANGE", x) => some (.range x)
  | (.named "T_NAMED_REGEXP", x) => some (.named x)
  | (.named "T_ARROW", _) => some .arrow
  | (.named "T_LOOKAHEAD", _) => some .la
  | (.named "T_BARRIER", _) => some .ba
  | (.named "T_FAIL", _) => some .fail
  | (.named "T_ENTER_RULE_SET", _) => some .enter
  | (.named "T_LEAVE_RULE_SET", _) => some .leave
  | (.named "T_CONTINUE", _) => some .continue_
  | (.named "T_IDENTIFIER", x) => some (.ident x)
  | (.named "T_TERMINAL", x) => some (.term x)
  | (.named "T_CODE", x) => some (.code x)
  | _ => none

/-- `%parserclass`, `%lexerclass`. -/
inductive Cls | parser | lexer
deriving DecidableEq, Repr

def Cls.key : Cls → String
  | .parser => "T_PARSERCLASS_DECLARATION"
  | .lexer => "T_LEXERCLASS_DECLARATION"

/-- `MemberItem::MemberKind`. -/
inductive Kind | publicDecl | protectedDecl | privateDecl | constructorCode | destructorCode
deriving DecidableEq, Repr

/-- Declarations with a string (lines 130, 159-162, 167-178, 181-184). -/
inductive Setting
  | encoding | exportMacro | exportMacroHeader | parserDeclarationHeader | parserBitsHeader | astHeader | lexerDeclarationHeader | inputStream | lexerBitsHeader | parserBase | lexerBase
deriving DecidableEq, Repr

def Setting.key : Setting → String
  | .encoding => "T_INPUT_ENCODING"
  | .exportMacro => "T_EXPORT_MACRO"
  | .exportMacroHeader => "T_EXPORT_MACRO_HEADER"
  | .parserDeclarationHeader => "T_PARSER_DECLARATION_HEADER"
  | .parserBitsHeader => "T_PARSER_BITS_HEADER"
  | .astHeader => "T_AST_HEADER"
  | .lexerDeclarationHeader => "T_LEXER_DECLARATION_HEADER"
  | .inputStream => "T_INPUT_STREAM"
  | .lexerBitsHeader => "T_LEXER_BITS_HEADER"
  | .parserBase => "T_PARSER_BASE"
  | .lexerBase => "T_LEXER_BASE"

/-- Declarations with code (lines 163-166). -/
inductive CodeSetting | namespace_ | ast
deriving DecidableEq, Repr

def CodeSetting.key : CodeSetting → String
  | .namespace_ => "T_NAMESPACE_DECLARATION"
  | .ast => "T_AST_DECLARATION"

/-- `declaration`: one constructor for each form. -/
inductive Decl
  | member (k : Cls) (m : Kind) (c : Text)
  | bits (k : Cls) (c : Text)
  | tokens (l : List (Text × Text))
  | table | sequence
  | string (s : Setting) (x : Text)
  | code (s : CodeSetting) (c : Text)
  | tokenStream (x : Text)
  | astBase (x y : Text)
  | lexer (env : Option Text) (ds : List LexSyn.Decl)
deriving DecidableEq, Repr

/-- A token without text of interest. -/
abbrev IsKey (k : String) (t : T) : Prop := t.1 = .named k
abbrev IsCh (c : Nat) (t : T) : Prop := t.1 = .ch c

/-- `member_declaration_rest` (lines 448-459), between the parentheses. -/
inductive MemberKind : List T → Kind → Prop
  | publicDecl {a b} : IsKey "T_PUBLIC" a → IsKey "T_DECLARATION" b → MemberKind [a, b] .publicDecl
  | protectedDecl {a b} : IsKey "T_PROTECTED" a → IsKey "T_DECLARATION" b → MemberKind [a, b] .protectedDecl
  | privateDecl {a b} : IsKey "T_PRIVATE" a → IsKey "T_DECLARATION" b → MemberKind [a, b] .privateDecl
  | constructorCode {a} : IsKey "T_CONSTRUCTOR" a → MemberKind [a] .constructorCode
  | destructorCode {a} : IsKey "T_DESTRUCTOR" a → MemberKind [a] .destructorCode

/-- A terminal with a description or without; the description is then the name (lines 462-463). -/
inductive Token : List T → Text × Text → Prop
  | plain {s} : Token [(.named "T_TERMINAL", s)] (s, s)
  | described {s a d b} : IsCh 40 a → IsCh 41 b → Token [(.named "T_TERMINAL", s), a, (.named "T_STRING", d), b] (s, d)

/-- `declared_tokens` (lines 461-467). -/
inductive Tokens : List T → List (Text × Text) → Prop
  | one {ts x} : Token ts x → Tokens ts [x]
  | more {ts l c us x} : Tokens ts l → IsCh 44 c → Token us x → Tokens (ts ++ c :: us) (l ++ [x])

/-- `declaration` (lines 92-187). -/
inductive Declares : List T → Decl → Prop
  | member {t a us b k m c} : IsKey k.key t → IsCh 40 a → MemberKind us m → IsCh 41 b → Declares (t :: a :: us ++ [b, (.named "T_CODE", c)]) (.member k m c)
  | bits {t a u b k c} : IsKey k.key t → IsCh 40 a → IsKey "T_BITS" u → IsCh 41 b → Declares [t, a, u, b, (.named "T_CODE", c)] (.bits k c)
  | tokens {t us l a} : IsKey "T_TOKEN_DECLARATION" t → Tokens us l → IsCh 59 a → Declares (t :: us ++ [a]) (.tokens l)
  | table {t} : IsKey "T_TABLE_LEXER" t → Declares [t] .table
  | sequence {t} : IsKey "T_SEQUENCE_LEXER" t → Declares [t] .sequence
  | string {t s x} : IsKey s.key t → Declares [t, (.named "T_STRING", x)] (.string s x)
  | code {t s c} : IsKey s.key t → Declares [t, (.named "T_CODE", c)] (.code s c)
  | tokenStream {t x a} : IsKey "T_TOKEN_STREAM_DECLARATION" t → IsCh 59 a → Declares [t, (.named "T_IDENTIFIER", x), a] (.tokenStream x)
  | astBase {t x y} : IsKey "T_AST_BASE" t → Declares [t, (.named "T_IDENTIFIER", x), (.named "T_STRING", y)] (.astBase x y)
  | named {t s a us vs ds b} : IsKey "T_LEXER" t → IsKey "T_ARROW" a → us.map lexTok = vs.map some → LexSyn.Ds true vs ds → IsCh 59 b →
      Declares (t :: (.named "T_STRING", s) :: a :: us ++ [b]) (.lexer (some s) ds)
  | start {t a us vs ds b} : IsKey "T_LEXER" t → IsKey "T_ARROW" a → us.map lexTok = vs.map some → LexSyn.Ds true vs ds → IsCh 59 b →
      Declares (t :: a :: us ++ [b]) (.lexer none ds)

/-- `declarations` (lines 87-90). -/
inductive DeclaresAll : List T → List Decl → Prop
  | one {ts d} : Declares ts d → DeclaresAll ts [d]
  | more {ts ds us d} : DeclaresAll ts ds → Declares us d → DeclaresAll (ts ++ us) (ds ++ [d])

/-- `code_opt` (lines 576-579). -/
inductive CodeOpt : List T → Text → Prop
  | none : CodeOpt [] []
  | some {c} : CodeOpt [(.named "T_CODE", c)] c

/-- `rules` (lines 469-472). -/
def Rules (ts : List T) (rs : List Syntax.Rule) : Prop := ∃ us : List Syntax.Tok, ts.map Syntax.ofLex = us.map some ∧ Syntax.Rs true us rs

/-- What a file says. -/
structure File where
  first : Text
  decls : List Decl
  rules : List Syntax.Rule
  last : Text
deriving DecidableEq

/-- `system` (lines 80-85).  Behind the rules a piece of code may begin another rule or be the end of the file; the next token decides. -/
inductive System : List T → File → Prop
  | mk {a x ts ds us rs b y} : CodeOpt a x → DeclaresAll ts ds → Rules us rs → CodeOpt b y → System (a ++ ts ++ us ++ b) ⟨x, ds, rs, y⟩

/-! ## What the actions do -/

def txt (s : String) : Text := s.toList.map Char.toNat

/-- `World::MemberCode` (kdev-pg.h lines 83-87). -/
structure Members where
  declarations : List (Kind × Text) := []
  constructors : List Text := []
  destructors : List Text := []
deriving DecidableEq, Repr

/-- `pushParserClassMember`, `pushLexerClassMember` (kdev-pg.h lines 182-206). -/
def Members.push (ms : Members) : Kind → Text → Members
  | .constructorCode, c => { ms with constructors := ms.constructors ++ [c] }
  | .destructorCode, c => { ms with destructors := ms.destructors ++ [c] }
  | m, c => { ms with declarations := ms.declarations ++ [(m, c)] }

/-- The part of `KDevPG::World` filled by declarations, with its defaults (kdev-pg.h lines 105-117, 129-151), and `GDFA::type` (kdev-pg-regexp.cpp line 1502, `SUcs2`). -/
structure World where
  decl : Text := []
  bits : Text := []
  lexerBits : Text := []
  parserMembers : Members := {}
  lexerMembers : Members := {}
  tokens : List (Text × Text) := []
  type : Nat := 3
  hasLexer : Bool := false
  tokenStream : Text := txt "KDevPG::TokenStream"
  exportMacro : Text := []
  exportMacroHeader : Text := []
  namespaceCode : Text := []
  astCode : Text := []
  parserDeclarationHeaders : List Text := []
  parserBitsHeaders : List Text := []
  astHeaders : List Text := []
  lexerDeclarationHeaders : List Text := []
  lexerBitsHeaders : List Text := []
  inputStream : Text := txt "KDevPG::QUtf16ToUcs4Iterator"
  astBases : List (Text × Text) := []
  parserBase : Text := []
  lexerBase : Text := txt "KDevPG::TokenStream"
  sections : List (Option Text × List LexSyn.Decl) := []
deriving DecidableEq

/-- `astBaseClasses[x] = y`: `QMap::operator[]`. -/
def insert (x y : Text) : List (Text × Text) → List (Text × Text)
  | [] => [(x, y)]
  | p :: ps => if p.1 = x then (x, y) :: ps else p :: insert x y ps

/-- The directives for the type of the automata (lines 102-156); with a lexer section before, the program ends. -/
def World.directive (w : World) (d : Text.Directive) : Option World :=
  if w.hasLexer then none else (Text.step w.type d).map fun t => { w with type := t }

/-- The actions of `declaration`; `none` is `exit(-1)`. -/
def World.exec (w : World) : Decl → Option World
  | .member .parser m c => some { w with parserMembers := w.parserMembers.push m c }
  | .member .lexer m c => some { w with lexerMembers := w.lexerMembers.push m c }
  | .bits .parser c => some { w with bits := w.bits ++ c }
  | .bits .lexer c => some { w with lexerBits := w.lexerBits ++ c }
  | .tokens l => some { w with tokens := w.tokens ++ l }
  | .table => w.directive .table
  | .sequence => w.directive .sequence
  | .string .encoding x => w.directive (.encoding (x.map Char.ofNat))
  | .string .exportMacro x => some { w with exportMacro := x }
  | .string .exportMacroHeader x => some { w with exportMacroHeader := x }
  | .string .parserDeclarationHeader x => some { w with parserDeclarationHeaders := w.parserDeclarationHeaders ++ [x] }
  | .string .parserBitsHeader x => some { w with parserBitsHeaders := w.parserBitsHeaders ++ [x] }
  | .string .astHeader x => some { w with astHeaders := w.astHeaders ++ [x] }
  | .string .lexerDeclarationHeader x => some { w with lexerDeclarationHeaders := w.lexerDeclarationHeaders ++ [x] }
  | .string .inputStream x => some { w with inputStream := x }
  | .string .lexerBitsHeader x => some { w with lexerBitsHeaders := w.lexerBitsHeaders ++ [x] }
  | .string .parserBase x => some { w with parserBase := x }
  | .string .lexerBase x => some { w with lexerBase := x }
  | .code .namespace_ c => some { w with namespaceCode := c }
  | .code .ast c => some { w with astCode := c }
  | .tokenStream x => some { w with tokenStream := x }
  | .astBase x y => some { w with astBases := insert x y w.astBases }
  | .lexer e ds => some { w with hasLexer := true, sections := w.sections ++ [(e, ds)] }

/-- The actions of `system`. -/
def File.run (F : File) : Option World :=
  (F.decls.foldlM World.exec { decl := F.first }).map fun w => { w with bits := w.bits ++ F.last }

end Verif.Top
