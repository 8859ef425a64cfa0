import Verif.Out.Model

/-!
# What a translation unit made of generated files has to be like

Which declarations are needed by which is taken from the texts of the generators: `kdev-pg-ast-gen.cpp`, `kdev-pg-code-gen.cpp` lines 1063-1216, `kdev-pg-visitor-gen.cpp`, `kdev-pg-default-visitor-gen.cpp`,
`kdev-pg-serialize-visitor-gen.cpp`, `kdev-pg-debug-visitor-gen.cpp`, `kdev-pg-new-visitor-gen.cpp`, `kdev-pg-generate.cpp` lines 557-617, 645-741.  What a header of a library declares by including others is not used.
-/

namespace Verif.Out.Spec

open Verif.Top (Text txt World)
open Verif.Out

abbrev body (b : Body) : Ev := .part (.body b)
abbrev user (u : User) : Ev := .part (.user u)

/-- A class with the export macro of the user behind `class`: its header. -/
def exports (w : World) : List Ev := if w.exportMacro ≠ [] ∧ w.exportMacroHeader ≠ [] then [.file w.exportMacroHeader] else []

/-- The class of the token stream: that of the generated lexer, that of the library, or one of the user. -/
def stream (w : World) : List Ev :=
  if w.hasLexer then [body .lexer] else if w.tokenStream = txt "KDevPG::TokenStream" then [.lib (txt "kdev-pg-token-stream.h")] else w.parserDeclarationHeaders.map .file

/-- The code at the beginning of the grammar, if there is any. -/
def decl (w : World) : List Ev := if w.decl = [] then [] else [user .decl]

/-- What has to come before. -/
def needs (o : Opts) (w : World) : Body → List Ev
  | .astNode => exports w ++ w.astHeaders.map .file ++ decl w ++ [user .namespaceCode]
  | .ast => exports w ++ [body .astNode, body .astFwd, .lib (txt "kdev-pg-list.h")]
  | .astFwd => []
  | .tokenType => []
  | .parser => exports w ++ [body .tokenType] ++ stream w ++ decl w ++ w.parserDeclarationHeaders.map .file ++ (if o.ast then [body .astFwd, .lib (txt "kdev-pg-memory-pool.h")] else []) ++
      if o.opStack then [body .astFwd] else []
  | .visitor => exports w ++ [body .astFwd]
  | .defaultVisitor => exports w ++ [body .visitor]
  | .serialize => exports w ++ [body .defaultVisitor, body .ast]
  | .debug => [body .defaultVisitor, body .ast, .lib (txt "kdev-pg-token-stream.h")] ++ stream w
  | .tokenText => [body .tokenType]
  | .lexer => exports w ++ [body .tokenType, .lib (txt "kdev-pg-char-sets.h"), .lib (txt "kdev-pg-token-stream.h")] ++ w.lexerDeclarationHeaders.map .file
  | .parserBits => [body .parser] ++ (if o.ast then [body .ast] else []) ++ w.parserBitsHeaders.map .file ++ if w.bits = [] then [] else [user .bits]
  | .visitorBits => [body .visitor, body .ast]
  | .defaultVisitorBits => [body .defaultVisitor, body .ast]
  | .lexerInit => [body .lexer] ++ w.lexerBitsHeaders.map .file
  | .ruleSets => [body .lexer]
  | .lex _ => [body .lexer]
  | .read => body .lexer :: if 1 < o.states.length then o.states.map fun s => body (.lex s) else []
  | .newVisitor inherit => exports w ++ [body (if inherit then .defaultVisitor else .visitor)]
  | .newVisitorBits inherit => [body (.newVisitor inherit), body .ast]

/-- The depth of namespaces at which something has to stand. -/
def level : Ev → Nat
  | .part .leave => 1
  | .part (.user .namespaceCode) => 1
  | .part (.user .astCode) => 1
  | .part (.user .lexerBits) => 1
  | .part (.body _) => 1
  | _ => 0

def needsEv (o : Opts) (w : World) : Ev → List Ev
  | .part (.body b) => needs o w b
  | _ => []

/-- Nothing is declared twice, all that is needed comes before, headers are included outside of the namespace and declarations stand inside, and the namespace is closed. -/
structure Sound (o : Opts) (w : World) (out : List Ev) : Prop where
  once : ∀ b, out.count (body b) ≤ 1
  ordered : ∀ a e b, out = a ++ e :: b → ∀ n ∈ needsEv o w e, n ∈ a
  levels : ∀ a e b, out = a ++ e :: b → a.count (.part .enter) = a.count (.part .leave) + level e
  closed : out.count (.part .enter) = out.count (.part .leave)

/-- The declaration that a header is for. -/
def main : H → Body
  | .ast => .ast
  | .fwd => .astFwd
  | .tokenType => .tokenType
  | .parser => .parser
  | .visitor => .visitor
  | .defaultVisitor => .defaultVisitor
  | .serialize => .serialize
  | .debug => .debug
  | .tokenText => .tokenText
  | .lexer => .lexer

/-- The headers named by the user. -/
def userHeaders (w : World) : List Text :=
  w.exportMacroHeader :: w.astHeaders ++ w.parserDeclarationHeaders ++ w.parserBitsHeaders ++ w.lexerDeclarationHeaders ++ w.lexerBitsHeaders

/-- The headers written for the parser and the lexer. -/
def present (o : Opts) (w : World) (h : H) : Prop := h ∈ outputHeaders o ∨ h = .lexer ∧ w.hasLexer = true

/-- The conditions for names of macros: the name of the language does not begin with a digit; if there is a lexer, it has only letters, digits and underscores. -/
structure Named (up : Nat → List Nat) (o : Opts) (w : World) : Prop where
  first : ∀ c, (upper up o.language).head? = some c → digit c = false
  lexer : w.hasLexer = true → ∀ c ∈ upper up o.language, clean c = c

/-- The class of the token stream is that of the library, or nothing is known about it. -/
def Library (w : World) : Prop := w.hasLexer = false ∧ (w.tokenStream = txt "KDevPG::TokenStream" ∨ w.parserDeclarationHeaders = [])

/-- All that is written for the parser and the lexer, on a disk with `d`. -/
def files (up : Nat → List Nat) (o : Opts) (w : World) (d : Disk) : Disk := (d.writes (output up o w)).writes (if w.hasLexer then outputLexer up o w else [])

/-- The settings are as they should be: names are fit for macros, the headers of the user are not generated ones, nodes are generated if there is something that is built on them, and no rule set is listed
twice (`lexerEnvs` is a map). -/
structure Proper (up : Nat → List Nat) (o : Opts) (w : World) (d : Disk) : Prop where
  named : Named up o w
  ext : ∀ x ∈ userHeaders w, files up o w d x = none
  ast : o.serialize = true ∨ o.debug = true → o.ast = true
  ops : o.opStack = true → o.ast = true
  states : o.states.Nodup

/-- Lines of a translation unit of the user: headers of libraries, own headers, generated headers. -/
inductive Includes (up : Nat → List Nat) (o : Opts) (w : World) (d : Disk) : Line → Prop
  | lib {f} : Includes up o w d (.angle f)
  | own {x} : files up o w d x = none → Includes up o w d (.quote x)
  | gen {h : H} : present o w h → (h = .debug → Library w) → Includes up o w d (.quote (h.file o))

/-- The definitions that a source file is for. -/
def definitions (o : Opts) : Src → List Body
  | .parser => [.parserBits]
  | .visitor => [.visitorBits]
  | .defaultVisitor => [.defaultVisitorBits]
  | .lexer => .lexerInit :: .read :: if 1 < o.states.length then .ruleSets :: o.states.map .lex else []

/-- The source files that are written. -/
def presentSrc (o : Opts) (w : World) : Src → Prop
  | .parser => True
  | .visitor => o.ast = true
  | .defaultVisitor => o.ast = true
  | .lexer => w.hasLexer = true

end Verif.Out.Spec
