import Verif.Top.Model

/-!
# What the declarations of a grammar file mean

Independent of the order of execution: which declarations a setting depends on, and how.
-/

namespace Verif.Top.Spec

open Verif.Top (Text Decl Cls Kind Setting CodeSetting Members World txt)

/-- How the signs in lexer sections are written. -/
def sign : LexSyn.Tok → Option Char
  | .bar => some '|'
  | .amp => some '&'
  | .hat => some '^'
  | .tilde => some '~'
  | .opt => some '?'
  | .at_ => some '@'
  | .star => some '*'
  | .plus => some '+'
  | .lp => some '('
  | .rp => some ')'
  | .lb => some '['
  | .rb => some ']'
  | .dot => some '.'
  | .semi => some ';'
  | _ => none

/-- The value given last, or the default. -/
def last (default : Text) (l : List Text) : Text := l.getLast?.getD default

/-- The texts given for a setting, in the order of the file. -/
def strings (s : Setting) (ds : List Decl) : List Text := ds.filterMap fun | .string s' x => if s' = s then some x else none | _ => none

def codes (s : CodeSetting) (ds : List Decl) : List Text := ds.filterMap fun | .code s' x => if s' = s then some x else none | _ => none

def streams (ds : List Decl) : List Text := ds.filterMap fun | .tokenStream x => some x | _ => none

/-- The base classes given for a class of nodes. -/
def bases (x : Text) (ds : List Decl) : List Text := ds.filterMap fun | .astBase x' y => if x' = x then some y else none | _ => none

def bits (k : Cls) (ds : List Decl) : List Text := ds.filterMap fun | .bits k' c => if k' = k then some c else none | _ => none

/-- The members of a class, with their kinds. -/
def members (k : Cls) (ds : List Decl) : List (Kind × Text) := ds.filterMap fun | .member k' m c => if k' = k then some (m, c) else none | _ => none

/-- The declared tokens, with descriptions. -/
def tokens (ds : List Decl) : List (Text × Text) := ds.flatMap fun | .tokens l => l | _ => []

def sections (ds : List Decl) : List (Option Text × List LexSyn.Decl) := ds.filterMap fun | .lexer e s => some (e, s) | _ => none

/-- The declaration as directive for the type of the automata. -/
def directive : Decl → Option Text.Directive
  | .table => some .table
  | .sequence => some .sequence
  | .string .encoding x => some (.encoding (x.map Char.ofNat))
  | _ => none

/-- No directive for the type of the automata comes behind a lexer section, and the encodings are known. -/
def Proper (ds : List Decl) : Prop :=
  (∀ a d b, ds = a ++ d :: b → directive d ≠ none → sections a = []) ∧ ∀ x, .string .encoding x ∈ ds → Text.codec (x.map Char.ofNat) ≠ none

/-- The class members: declarations with their kind, code of constructors, code of destructors, each in the order of the file. -/
structure Gathered (l : List (Kind × Text)) (ms : Members) : Prop where
  declarations : ms.declarations = l.filter fun p => p.1 ≠ .constructorCode ∧ p.1 ≠ .destructorCode
  constructors : ms.constructors = (l.filter (·.1 = .constructorCode)).map (·.2)
  destructors : ms.destructors = (l.filter (·.1 = .destructorCode)).map (·.2)

/-- What the settings are for a file with declarations `ds`, code `first` before and `code` behind.  Of settings with one value the last counts; headers, bits, members, tokens and sections are collected
in order; for each class of nodes the last base class counts. -/
structure Settled (first : Text) (ds : List Decl) (code : Text) (w : World) : Prop where
  decl : w.decl = first
  bits : w.bits = (bits .parser ds).flatten ++ code
  lexerBits : w.lexerBits = (Spec.bits .lexer ds).flatten
  parserMembers : Gathered (members .parser ds) w.parserMembers
  lexerMembers : Gathered (members .lexer ds) w.lexerMembers
  tokens : w.tokens = tokens ds
  sections : w.sections = sections ds
  hasLexer : w.hasLexer = true ↔ Spec.sections ds ≠ []
  type : Text.runDirectives (ds.filterMap directive) = some w.type
  exportMacro : w.exportMacro = last [] (strings .exportMacro ds)
  exportMacroHeader : w.exportMacroHeader = last [] (strings .exportMacroHeader ds)
  inputStream : w.inputStream = last (txt "KDevPG::QUtf16ToUcs4Iterator") (strings .inputStream ds)
  parserBase : w.parserBase = last [] (strings .parserBase ds)
  lexerBase : w.lexerBase = last (txt "KDevPG::TokenStream") (strings .lexerBase ds)
  tokenStream : w.tokenStream = last (txt "KDevPG::TokenStream") (streams ds)
  namespaceCode : w.namespaceCode = last [] (codes .namespace_ ds)
  astCode : w.astCode = last [] (codes .ast ds)
  parserDeclarationHeaders : w.parserDeclarationHeaders = strings .parserDeclarationHeader ds
  parserBitsHeaders : w.parserBitsHeaders = strings .parserBitsHeader ds
  astHeaders : w.astHeaders = strings .astHeader ds
  lexerDeclarationHeaders : w.lexerDeclarationHeaders = strings .lexerDeclarationHeader ds
  lexerBitsHeaders : w.lexerBitsHeaders = strings .lexerBitsHeader ds
  astBases : ∀ x, (w.astBases.find? (·.1 = x)).map (·.2) = (bases x ds).getLast?

end Verif.Top.Spec
