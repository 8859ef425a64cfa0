import Verif.Main.CheckProps

/-!
# Specification: what the arguments ask for

Independent of the reading of the arguments: which argument of a group comes last, and which file name comes first.
-/

namespace Verif.Main

open Verif.Grammar Verif.Check

/-- `a` is the last argument with the property. -/
def Last (P : Text → Prop) (args : List Text) (a : Text) : Prop := ∃ xs ys, args = xs ++ a :: ys ∧ P a ∧ ∀ y ∈ ys, ¬ P y

/-- The argument starts with an option that takes a value. -/
def Starts (p : String) (a : Text) : Prop := ∃ s, a = p.toList ++ s

/-- The argument is the option. -/
def Is (p : String) (a : Text) : Prop := a = p.toList

/-! Groups of options for one setting. -/

def ConflictOpt (a : Text) : Prop := Is "--ignore-conflicts" a ∨ Is "--strict-conflicts" a ∨ Is "--permissive-conflicts" a ∨ Starts "--new-visitor=" a

def OutputOpt (a : Text) : Prop := Is "--no-output" a ∨ Starts "--output=" a ∨ Starts "--new-visitor=" a

def ParserOpt (a : Text) : Prop := Is "--no-parser" a ∨ Is "--with-parser" a

def LexerOpt (a : Text) : Prop := Is "--no-lexer" a ∨ Is "--with-lexer" a

def InheritOpt (a : Text) : Prop := Is "--inherit-default-visitor" a ∨ Is "--inherit-abstract-visitor" a

def AboutOpt (a : Text) : Prop := Is "--help" a ∨ Is "--version" a ∨ Is "--author" a ∨ Is "--usage" a

def DumpOpt (a : Text) : Prop := Is "--terminals" a ∨ Is "--symbols" a ∨ Is "--rules" a

def StyleOpt (a : Text) : Prop := Is "--no-ast" a ∨ Is "--with-ast" a ∨ Is "--serialize-visitor" a ∨ Is "--debug-visitor" a ∨ Is "--token-text" a ∨ Is "--beautiful-code" a ∨
  Is "--error-aware-code" a ∨ Is "--compatible-error-aware-code" a ∨ Is "--visitor-table" a ∨ Is "--visitor-switch" a

/-- Not an option: the name of a file. -/
def FileArg (a : Text) : Prop := ¬ (ConflictOpt a ∨ OutputOpt a ∨ Starts "--namespace=" a ∨ ParserOpt a ∨ LexerOpt a ∨ InheritOpt a ∨ AboutOpt a ∨ DumpOpt a ∨
  Is "--automata" a ∨ StyleOpt a)

/-! What is asked for. -/

/-- Conflicts are errors. -/
def Strict (args : List Text) : Prop := ∃ a, Last ConflictOpt args a ∧ Is "--strict-conflicts" a

/-- Conflicts are not looked for. -/
def Ignored (args : List Text) : Prop := ∃ a, Last ConflictOpt args a ∧ (Is "--ignore-conflicts" a ∨ Starts "--new-visitor=" a)

/-- The parser and the lexer are to be written. -/
def WantsOutput (args : List Text) : Prop := ∀ a, Last OutputOpt args a → Starts "--output=" a

/-- The value of an option, empty if it is not given. -/
def Value (p : String) (args : List Text) (v : Text) : Prop := Last (Starts p) args (p.toList ++ v) ∨ ((∀ a ∈ args, ¬ Starts p a) ∧ v = [])

/-- The file is the first one that can be opened. -/
def Reads (opens : Text → Bool) (args : List Text) (f : Text) : Prop :=
  ∃ xs ys, args = xs ++ f :: ys ∧ FileArg f ∧ f ≠ [] ∧ opens f = true ∧ ∀ x ∈ xs, FileArg x → x ≠ [] → opens x = false

/-- A parser is made: as the last option about it says, else if there are rules. -/
def MakesParser (args : List Text) (I : Input) : Prop := (∃ a, Last ParserOpt args a ∧ Is "--with-parser" a) ∨ ((∀ a ∈ args, ¬ ParserOpt a) ∧ I.W.rules ≠ [])

/-- A lexer is asked for by an option. -/
def DemandsLexer (args : List Text) : Prop := ∃ a, Last LexerOpt args a ∧ Is "--with-lexer" a

/-- A lexer is made. -/
def MakesLexer (args : List Text) (I : Input) : Prop := (DemandsLexer args ∨ ∀ a ∈ args, ¬ LexerOpt a) ∧ I.hasLexer = true

/-- A C++ identifier in ASCII. -/
def Identifier (t : Text) : Prop := ∃ c cs, t = c :: cs ∧
  (('a' ≤ c ∧ c ≤ 'z') ∨ ('A' ≤ c ∧ c ≤ 'Z') ∨ c = '_') ∧ ∀ d ∈ cs, ('a' ≤ d ∧ d ≤ 'z') ∨ ('A' ≤ d ∧ d ≤ 'Z') ∨ d = '_' ∨ ('0' ≤ d ∧ d ≤ '9')

/-- The errors found in the lexer. -/
def LexerOk (args : List Text) (I : Input) : Prop := (DemandsLexer args → I.hasLexer = true) ∧ (MakesLexer args I → "start".toList ∈ I.states ∧ Identifier I.tokenStream)

/-- The files with the tokens, the symbols etc. -/
def Dump (args : List Text) (f : File) : Prop := (f = .terminals ∧ "--terminals".toList ∈ args) ∨ (f = .symbols ∧ "--symbols".toList ∈ args) ∨
  (f = .rules ∧ "--rules".toList ∈ args) ∨ (f = .automata ∧ "--automata".toList ∈ args)

/-- Output is wanted, but it is not said under which name, and nothing is dumped. -/
def NoName (args : List Text) : Prop := WantsOutput args ∧ Value "--output=" args [] ∧ ∀ a ∈ args, ¬ DumpOpt a

end Verif.Main
