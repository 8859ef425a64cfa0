import Verif.Check.Model

/-!
# Model of the generator's `main`

Source: `/repo/src/kdev-pg-main.cpp`, `/repo/src/kdev-pg-checker.cpp` lines 387-420 (`ProblemSummaryPrinter`).

Arguments, file names etc. are lists of characters.  Left out: the messages, the options that `QCoreApplication` takes for itself, failures to
write files, and the settings that only change what is written (`--with-ast`, `--debug-visitor`, `--visitor-table`,
...): these arguments are recognised, but have no effect in the model.
-/

namespace Verif.Main

open Verif.Grammar Verif.Check

abbrev Text := List Char

/-- `World::ConflictHandling` (kdev-pg.h). -/
inductive Conflicts
  | ignore
  | permissive
  | strict
deriving DecidableEq, Repr

/-- The local variables of `main` (lines 160-170), and of `globalSystem` what matters here: `language`, `ns` and `conflictHandling`
(`Permissive` at first). `file` is the file that is open. -/
structure Opts where
  terminals : Bool := false
  symbols : Bool := false
  rules : Bool := false
  automata : Bool := false
  parser : Bool := true
  ensureParser : Bool := false
  lexer : Bool := true
  ensureLexer : Bool := false
  inheritDefault : Bool := false
  output : Bool := true
  newVisitor : Text := []
  language : Text := []
  ns : Text := []
  conflicts : Conflicts := .permissive
  file : Option Text := none
deriving DecidableEq, Repr

/-- What the arguments mean. -/
inductive Arg
  | output (s : Text)
  | ns (s : Text)
  | noOutput
  | ignore
  | strict
  | permissive
  | noParser
  | withParser
  | noLexer
  | withLexer
  | newVisitor (s : Text)
  | inheritDefault
  | inheritAbstract
  | about
  | terminals
  | symbols
  | rules
  | automata
  | other (known : Bool) (s : Text)
deriving DecidableEq, Repr

/-- `arg.startsWith(p)`, with the rest. -/
def after (p : Text) (a : Text) : Option Text := if p.isPrefixOf a then some (a.drop p.length) else none

/-- The texts of the options without a value that matter here. -/
def plain : List (Text × Arg) := [
  ("--no-output".toList, .noOutput), ("--ignore-conflicts".toList, .ignore), ("--strict-conflicts".toList, .strict),
  ("--permissive-conflicts".toList, .permissive), ("--no-parser".toList, .noParser), ("--with-parser".toList, .withParser), ("--no-lexer".toList, .noLexer),
  ("--with-lexer".toList, .withLexer), ("--inherit-default-visitor".toList, .inheritDefault), ("--inherit-abstract-visitor".toList, .inheritAbstract),
  ("--help".toList, .about), ("--version".toList, .about), ("--author".toList, .about), ("--usage".toList, .about),
  ("--terminals".toList, .terminals), ("--symbols".toList, .symbols), ("--rules".toList, .rules), ("--automata".toList, .automata)]

/-- The other options. -/
def others : List Text := ["--no-ast".toList, "--with-ast".toList, "--serialize-visitor".toList, "--debug-visitor".toList, "--token-text".toList, "--beautiful-code".toList,
  "--error-aware-code".toList, "--compatible-error-aware-code".toList, "--visitor-table".toList, "--visitor-switch".toList]

/-- The tests in the loop over the arguments (lines 180-332).  The texts compared are different and none starts with `--output=`,
`--namespace=` or `--new-visitor=`, so that their order does not matter. -/
def classify (a : Text) : Arg :=
  match after "--output=".toList a with
  | some s => .output s
  | none => match after "--namespace=".toList a with
    | some s => .ns s
    | none => match after "--new-visitor=".toList a with
      | some s => .newVisitor s
      | none => match plain.find? fun p => p.1 = a with
        | some p => p.2
        | none => .other (a ∈ others) a

/-- The body of the loop; `none`: the program ends successfully (lines 290-308).  `opens`: the files that can be opened. -/
def step (opens : Text → Bool) (o : Opts) (a : Text) : Option Opts := match classify a with
  | .output s => some { o with language := s, output := true }
  | .ns s => some { o with ns := s }
  | .noOutput => some { o with output := false }
  | .ignore => some { o with conflicts := .ignore }
  | .strict => some { o with conflicts := .strict }
  | .permissive => some { o with conflicts := .permissive }
  | .noParser => some { o with parser := false, ensureParser := true }
  | .withParser => some { o with parser := true, ensureParser := true }
  | .noLexer => some { o with lexer := false, ensureLexer := true }
  | .withLexer => some { o with lexer := true, ensureLexer := true }
  | .newVisitor s => some { o with newVisitor := s, conflicts := .ignore, output := false }
  | .inheritDefault => some { o with inheritDefault := true }
  | .inheritAbstract => some { o with inheritDefault := false }
  | .about => none
  | .terminals => some { o with terminals := true }
  | .symbols => some { o with symbols := true }
  | .rules => some { o with rules := true }
  | .automata => some { o with automata := true }
  | .other true _ => some o
  | .other false s => match o.file with
    | none => if s ≠ [] ∧ opens s then some { o with file := some s } else some o
    | some _ => some o

/-- The loop over the arguments. -/
def readArgs (opens : Text → Bool) : Opts → List Text → Option Opts
  | o, [] => some o
  | o, a :: as => match step opens o a with
    | none => none
    | some o => readArgs opens o as

/-! ### Checks -/

/-- The counters of `ProblemSummaryPrinter`. -/
structure Counts where
  errors : Nat := 0
  firstFirst : Nat := 0
  firstFollow : Nat := 0
deriving DecidableEq, Repr

/-- What `yyparse()` makes of a file: the grammar, its declarations, the node of `EOF`, the nodes of tokens named so, and about the lexer:
`hasLexer`, the names of the states (`lexerEnvs`) and `tokenStream`. -/
structure Input where
  W : World
  D : Decls
  eof : Nat
  eofs : List Nat
  hasLexer : Bool
  states : List Text
  tokenStream : Text

/-- The sum over all rules. -/
def total (g : Nat → Option Nat) : List Nat → Option Nat
  | [] => some 0
  | r :: rs => (g r).bind fun a => (total g rs).map (a + ·)

/-- The checks of the rules (lines 357-423).  `none`: they do not end (fuel exhausted), crash, or an exception ends the program. -/
def checkRules (I : Input) (fuel : Nat) (ignore : Bool) : Option Counts :=
  match inlRules I.W fuel I.W.rules [] 0 with
  | some (none, cut, e1) =>
    let W := withCut I.W cut
    (total (emptyOp W [] fuel) W.rules).bind fun e2 =>
    (computeFirst W fuel fuel).bind fun F =>
    (computeFollow W F I.eof fuel fuel).bind fun S =>
    (if ignore then some 0 else total (fun r => (firstFollow W F S fuel r).map List.length) W.rules).bind fun c1 =>
    (if ignore then some 0 else total (fun r => (firstFirst W F fuel r).map List.length) W.rules).bind fun c2 =>
    (total (fun r => some (emptyFirst W F r)) W.rules).bind fun e3 =>
    (total (emptyOp W F fuel) W.rules).bind fun e4 =>
    (total (undefinedSymbols W I.D fuel) W.rules).bind fun e5 =>
    (total (undefinedTokens W I.eofs fuel) W.rules).map fun e6 =>
      { errors := e1 + e2 + e3 + e4 + e5 + e6, firstFirst := c2, firstFollow := c1 }
  | _ => none

/-- `QRegularExpression("\\A[a-zA-Z_][a-zA-Z_0-9]*\\z")` (line 444). -/
def letter (c : Char) : Bool := ('a' ≤ c && c ≤ 'z') || ('A' ≤ c && c ≤ 'Z') || c == '_'

def identifier : Text → Bool
  | [] => false
  | c :: cs => letter c && cs.all fun c => letter c || ('0' ≤ c && c ≤ '9')

/-- What is written. -/
inductive File
  | terminals
  | symbols
  | rules
  | automata
  | parser (language ns : Text)
  | lexer (language ns : Text)
  | visitor (name : Text) (inheritDefault : Bool)
deriving DecidableEq, Repr

/-- The exit code and the files written, in order. -/
structure Result where
  success : Bool
  files : List File := []
deriving DecidableEq, Repr

/-- The problems counted for the parser (lines 348-425). -/
def parserCounts (I : Input) (fuel : Nat) (ignore wanted : Bool) : Option Counts :=
  if wanted then
    if I.W.rules = [] then some { errors := 1 } else checkRules I fuel ignore
  else some {}

/-- The errors counted for the lexer (lines 427-449). -/
def lexerErrors (I : Input) (missing wanted : Bool) : Nat :=
  (if missing then 1 else 0) + if wanted then (if "start".toList ∈ I.states then 0 else 1) + (if identifier I.tokenStream then 0 else 1) else 0

/-- `main` after the loop over the arguments (lines 334-531).  `parse` is `yyparse()` followed by `finishedParsing()`; its `none` is an exit with failure
in the parser of grammars.  `none`: `main` does not return, see `checkRules`; or `--automata` with states but no automata made for them:
`dfaForNfa[nullptr]->dotOutput(..)` (line 493) dereferences a null pointer. -/
def finish (parse : Text → Option Input) (fuel : Nat) (o : Opts) : Option Result :=
  let ns := if o.ns = [] then o.language else o.ns
  match o.file with
  | none => some { success := false }
  | some file => match parse file with
    | none => some { success := false }
    | some I =>
      let parser := if o.ensureParser then o.parser else !I.W.rules.isEmpty
      let missing := o.ensureLexer && o.lexer && !I.hasLexer
      let lexer := if o.ensureLexer then o.lexer && I.hasLexer else I.hasLexer
      match parserCounts I fuel (o.conflicts == .ignore) parser with
      | none => none
      | some c =>
        let errors := c.errors + lexerErrors I missing lexer
        let dumps := (if o.terminals then [File.terminals] else []) ++ (if o.symbols then [File.symbols] else []) ++ (if o.rules then [File.rules] else []) ++
          (if o.automata then [File.automata] else [])
        if o.automata && !lexer && !I.states.isEmpty then none
        else if 0 < errors then some { success := false, files := dumps }
        else if o.conflicts = .strict ∧ 0 < c.firstFirst + c.firstFollow then some { success := false, files := dumps }
        else if !(o.terminals || o.symbols || o.rules) && o.output && o.language.isEmpty then some { success := false, files := dumps }
        else some { success := true, files := dumps ++ (if o.output && parser then [File.parser o.language ns] else []) ++
          (if o.output && lexer then [File.lexer o.language ns] else []) ++ if o.newVisitor.isEmpty then [] else [File.visitor o.newVisitor o.inheritDefault] }

/-- `main`. -/
def main (opens : Text → Bool) (parse : Text → Option Input) (fuel : Nat) (args : List Text) : Option Result :=
  match readArgs opens {} args with
  | none => some { success := true }
  | some o => finish parse fuel o

end Verif.Main
