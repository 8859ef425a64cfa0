/-!
# Model of the scanner of grammar files (kdev-pg-lexer.ll)

A flex specification: rules are patterns with actions, grouped by start conditions.  Patterns are data, with a function that lists the
lengths of all matches; flex takes the longest match, and of several rules the first.  A byte is a number below 256.

Simplifications: the file has no NUL bytes (`strlen`, `strncpy`); `inp` (lines 353-359) gives a `char`, so that byte 255 is `EOF` on
machines where `char` is signed: the input given to the model is the file up to this byte.  What `ECHO` and `yyerror` print is not modelled;
`yyerror` ends the program.
-/

namespace Verif.GLex

/-- Flex patterns. -/
inductive Rx where
  | eps
  | cls (p : Nat → Bool)
  | seq (a b : Rx)
  | alt (a b : Rx)
  | star (a : Rx)

namespace Rx

/-- Repetitions: the lengths of all matches, if `e` gives those of one item. -/
def reps (e : List Nat → List Nat) : Nat → List Nat → List Nat
  | 0, _ => [0]
  | f + 1, s => 0 :: ((e s).filter (0 < ·)).flatMap fun k => (reps e f (s.drop k)).map (k + ·)

/-- The lengths of the matches at the beginning of `s`. -/
def ends : Rx → List Nat → List Nat
  | eps, _ => [0]
  | cls p, s => match s with
    | c :: _ => if p c then [1] else []
    | [] => []
  | seq a b, s => (ends a s).flatMap fun k => (ends b (s.drop k)).map (k + ·)
  | alt a b, s => ends a s ++ ends b s
  | star a, s => reps (ends a) s.length s

end Rx

open Rx

/-- The bytes of a text. -/
def bytes (s : String) : List Nat := s.toList.map Char.toNat

def one (c : Nat) : Rx := cls (· == c)
def word (w : List Nat) : Rx := w.foldr (fun c r => seq (one c) r) eps
def lit (s : String) : Rx := word (bytes s)
def plus (a : Rx) : Rx := seq a (star a)
/-- `a{1,n+1}` -/
def upTo (a : Rx) : Nat → Rx
  | 0 => a
  | n + 1 => seq a (alt eps (upTo a n))

def isNl (c : Nat) : Bool := c == 10 || c == 13
def isWs (c : Nat) : Bool := c == 32 || c == 12 || c == 9
def isUpper (c : Nat) : Bool := 65 ≤ c && c ≤ 90
def isLower (c : Nat) : Bool := 97 ≤ c && c ≤ 122
def isDigit (c : Nat) : Bool := 48 ≤ c && c ≤ 57
/-- `[_A-Z]` -/
def isCap (c : Nat) : Bool := c == 95 || isUpper c
/-- `[_a-zA-Z]` -/
def isAlpha (c : Nat) : Bool := c == 95 || isUpper c || isLower c
/-- `[_a-zA-Z0-9]` -/
def isWord (c : Nat) : Bool := isAlpha c || isDigit c
def isHex (c : Nat) : Bool := isDigit c || (97 ≤ c && c ≤ 102) || (65 ≤ c && c ≤ 70)

/-- `{Whitespace}` (line 93). -/
def whitespace : Rx := cls isWs
/-- `{Newline}` (line 94). -/
def newlineRx : Rx := alt (word [13, 10]) (alt (one 13) (one 10))
/-- `{String}` (line 95). -/
def string : Rx := seq (one 34) (seq (star (alt (cls fun c => !isNl c && c != 34) (seq (one 92) (cls fun c => !isNl c)))) (one 34))
/-- `\\[xX..]` with one of two (or more) letters. -/
def esc (l : List Nat) : Rx := seq (one 92) (cls fun c => l.contains c)
/-- `{Char}` (line 96). -/
def charRx : Rx := alt (cls isWord) (alt (seq (esc [120, 88, 117, 85]) (upTo (cls isHex) 5)) (alt (seq (esc [111, 79]) (plus (cls fun c => 48 ≤ c && c ≤ 55)))
  (alt (seq (esc [100, 68]) (upTo (cls isDigit) 6)) (alt (seq (esc [121, 89]) (upTo (cls fun c => c == 48 || c == 49) 20)) (seq (one 92) (cls fun c => 32 ≤ c && c ≤ 127))))))
/-- `"--"[^\r\n]*` -/
def comment : Rx := seq (lit "--") (star (cls fun c => !isNl c))
/-- `[ \f\t\r\n]` -/
def anySpace : Rx := cls fun c => isWs c || isNl c
/-- `.`: everything but a line feed -/
def dot : Rx := cls (· != 10)

/-- The start conditions (kdev-pg-lexer.ll:98-103; `initial` is flex's `INITIAL`). -/
inductive Cond where
  | initial | code | parserClass | args | header | varname | lexer
deriving DecidableEq, Repr

/-- `RulePosition` (lines 74-79). -/
inductive Place where
  | body | footer | lexer
deriving DecidableEq, Repr

/-- What is returned to the parser (`T_..` of kdev-pg-parser.yy): a character or the name of a token. -/
inductive Tok where
  | ch (c : Nat)
  | named (s : String)
deriving DecidableEq, Repr

/-- The actions of the rules (lines 108-342). -/
inductive Act where
  | skip
  | newline
  | ret (t : Tok)
  /-- `BEGIN(c); return t;` -/
  | enter (c : Cond) (t : Tok)
  /-- `rulePosition = p; return t;` -/
  | place (p : Place) (t : Tok)
  | arrow
  | bracket
  /-- `BEGIN(INITIAL); REJECT;` -/
  | reject
  /-- `++openBrackets; return t;`, `--openBrackets; return t;` -/
  | opening (t : Tok)
  | closing (t : Tok)
  | separator
  /-- `COPY_TO_YYLVAL(yytext, yyleng); return t;` -/
  | text (t : String)
  /-- the same without the first and the last character -/
  | inner (t : String)
  | codeStart
  | codeEnd
  | more
  | moreNewline
  | moreOpen
  | argsEnd
  | typeEnd
  | unexpected
  | echo
deriving DecidableEq, Repr

/-- A rule: pattern, trailing context (`r/s`), action. -/
structure Rule where
  body : Rx
  trail : Option Rx := none
  act : Act

def ch (c : Char) : Rule := { body := one c.toNat, act := .ret (.ch c.toNat) }
def key (s t : String) : Rule := { body := lit s, act := .ret (.named t) }

/-- Flex's default rule. -/
def echoRule : Rule := { body := cls fun _ => true, act := .echo }

/-- Rules without a start condition (lines 108-169, 187-196, 306, 328-342). -/
def initialRules : List Rule := [
  { body := star whitespace, act := .skip },
  { body := newlineRx, act := .newline },
  { body := comment, act := .skip },
  { body := plus (one 59), act := .place .body (.ch 59) },
  { body := lit "->", act := .arrow },
  key ".=" "T_INLINE",
  ch '(', ch ')', ch '{', ch '}', ch ',', ch '0', ch '#', ch '.', ch ':', ch '=', ch '+', ch '*', ch '?', ch '@', ch '|', ch '&',
  key "try/recover" "T_TRY_RECOVER",
  key "try/rollback" "T_TRY_ROLLBACK",
  key "catch" "T_CATCH",
  key "%export_macro" "T_EXPORT_MACRO",
  key "%export_macro_header" "T_EXPORT_MACRO_HEADER",
  key "%token" "T_TOKEN_DECLARATION",
  key "%token_stream" "T_TOKEN_STREAM_DECLARATION",
  key "%namespace" "T_NAMESPACE_DECLARATION",
  { body := lit "%parserclass", act := .enter .parserClass (.named "T_PARSERCLASS_DECLARATION") },
  { body := lit "%lexerclass", act := .enter .parserClass (.named "T_LEXERCLASS_DECLARATION") },
  key "%input_stream" "T_INPUT_STREAM",
  key "%ast_extra_members" "T_AST_DECLARATION",
  key "%parser_declaration_header" "T_PARSER_DECLARATION_HEADER",
  key "%parser_bits_header" "T_PARSER_BITS_HEADER",
  key "%ast_header" "T_AST_HEADER",
  key "%lexer_declaration_header" "T_LEXER_DECLARATION_HEADER",
  key "%lexer_bits_header" "T_LEXER_BITS_HEADER",
  key "%input_encoding" "T_INPUT_ENCODING",
  key "%table_lexer" "T_TABLE_LEXER",
  key "%sequence_lexer" "T_SEQUENCE_LEXER",
  key "%ast_base" "T_AST_BASE",
  key "%parser_base" "T_PARSER_BASE",
  key "%lexer_base" "T_LEXER_BASE",
  key "%bin" "T_BIN",
  key "%pre" "T_PRE",
  key "%post" "T_POST",
  key "%tern" "T_TERN",
  key "%paren" "T_PAREN",
  key "%priority" "T_PRIORITY",
  { body := lit "%<", act := .place .body (.named "T_LOPR") },
  { body := lit "%>", act := .place .footer (.named "T_ROPR") },
  key "%left" "T_LEFT_ASSOC",
  key "%right" "T_RIGHT_ASSOC",
  key "%isLeft" "T_IS_LEFT_ASSOC",
  key "%isRight" "T_IS_RIGHT_ASSOC",
  { body := lit "%lexer", act := .place .lexer (.named "T_LEXER") },
  { body := one 91, act := .bracket },
  { body := lit "[:", act := .codeStart },
  { body := plus (cls isCap), act := .text "T_TERMINAL" },
  { body := seq (cls isAlpha) (star (cls isWord)), act := .text "T_IDENTIFIER" },
  { body := plus (cls isDigit), act := .text "T_NUMBER" },
  { body := string, act := .inner "T_STRING" },
  { body := dot, act := .unexpected },
  echoRule]

/-- `<PARSERCLASS>` (lines 171-184). -/
def parserClassRules : List Rule := [
  { body := star whitespace, act := .skip },
  { body := newlineRx, act := .newline },
  ch '(',
  key "public" "T_PUBLIC",
  key "private" "T_PRIVATE",
  key "protected" "T_PROTECTED",
  key "declaration" "T_DECLARATION",
  key "constructor" "T_CONSTRUCTOR",
  key "destructor" "T_DESTRUCTOR",
  key "bits" "T_BITS",
  { body := one 41, act := .enter .initial (.ch 41) },
  { body := dot, act := .reject },
  echoRule]

/-- `<RULE_LEXER>` (lines 198-230). -/
def lexerRules : List Rule := [
  { body := comment, act := .skip },
  { body := newlineRx, act := .newline },
  { body := seq (one 123) (seq (seq (cls isAlpha) (star (cls isWord))) (one 125)), act := .inner "T_NAMED_REGEXP" },
  { body := seq (plus (one 59)) (plus (alt (seq comment (cls isNl)) anySpace)), trail := some (plus (one 59)), act := .separator },
  { body := plus (one 59), act := .ret (.ch 59) },
  { body := one 91, act := .opening (.ch 91) },
  { body := one 93, act := .closing (.ch 93) },
  { body := one 40, act := .opening (.ch 40) },
  { body := one 41, act := .closing (.ch 41) },
  ch '?', ch '|', ch '^',
  { body := seq charRx (seq (one 45) charRx), act := .text "T_RANGE" },
  ch '&', ch '~', ch '*', ch '+', ch '@', ch '.',
  key "->" "T_ARROW",
  key "%continue" "T_CONTINUE",
  key "%fail" "T_FAIL",
  key "%enter" "T_ENTER_RULE_SET",
  key "%leave" "T_LEAVE_RULE_SET",
  key "%la" "T_LOOKAHEAD",
  key "%ba" "T_BARRIER",
  { body := lit "[:", act := .codeStart },
  { body := plus (cls isCap), trail := some (seq (star anySpace) (one 59)), act := .text "T_TERMINAL" },
  { body := plus (cls isWord), trail := some (seq (star anySpace) (one 59)), act := .text "T_IDENTIFIER" },
  { body := plus charRx, act := .text "T_UNQUOTED_STRING" },
  { body := whitespace, act := .skip },
  { body := string, act := .inner "T_STRING" },
  echoRule]

/-- `<RULE_ARGUMENTS>` (lines 240-253). -/
def argsRules : List Rule := [
  { body := newlineRx, act := .moreNewline },
  { body := string, act := .more },
  { body := one 34, act := .more },
  { body := star (cls fun c => !(c == 91 || c == 93 || isNl c || c == 34)), act := .more },
  { body := one 91, act := .moreOpen },
  { body := one 93, act := .argsEnd },
  echoRule]

/-- `<RULE_PARAMETERS_HEADER>` (lines 262-278).  `[_a-zA-Z]*[_a-zA-Z0-9]+` -/
def headerRules : List Rule := [
  { body := star whitespace, act := .skip },
  { body := newlineRx, act := .newline },
  { body := comment, act := .skip },
  { body := seq (one 58) (star whitespace), act := .enter .varname (.ch 58) },
  ch '#',
  key "member" "T_MEMBER",
  key "temporary" "T_TEMPORARY",
  key "argument" "T_ARGUMENT",
  key "node" "T_NODE",
  key "token" "T_TOKEN",
  key "variable" "T_VARIABLE",
  ch ';',
  { body := seq (star (cls isAlpha)) (plus (cls isWord)), act := .text "T_IDENTIFIER" },
  { body := one 93, act := .enter .initial (.ch 93) },
  { body := dot, act := .reject },
  echoRule]

/-- `<RULE_PARAMETERS_VARNAME>` (lines 280-303): the type of a declared variable, up to the semicolon. -/
def varnameRules : List Rule := [
  { body := newlineRx, act := .moreNewline },
  { body := star (cls fun c => !(c == 59 || isNl c)), act := .more },
  { body := one 59, act := .typeEnd },
  { body := dot, act := .reject },
  echoRule]

/-- `<CODE>` (lines 307-318). -/
def codeRules : List Rule := [
  { body := newlineRx, act := .moreNewline },
  { body := star (cls fun c => !(c == 58 || isNl c)), act := .more },
  { body := seq (plus (one 58)) (star (cls fun c => !(c == 58 || c == 93 || isNl c))), act := .more },
  { body := lit ":]", act := .codeEnd },
  echoRule]

def rulesOf : Cond → List Rule
  | .initial => initialRules
  | .code => codeRules
  | .parserClass => parserClassRules
  | .args => argsRules
  | .header => headerRules
  | .varname => varnameRules
  | .lexer => lexerRules

/-- The matches of a rule: the length with the trailing context, by which rules are compared, and the length of the token.  (For the three rules
with trailing context the latter is determined by the former.) -/
def Rule.cands (r : Rule) (s : List Nat) : List (Nat × Nat) := (ends r.body s).flatMap fun k => match r.trail with
  | none => [(k, k)]
  | some t => (ends t (s.drop k)).map fun j => (k + j, k)

/-- A match: total length, number of the rule, length of the token. -/
abbrev Match := Nat × Nat × Nat

/-- `x` is preferred: the longer match, then the earlier rule. -/
def better (x y : Match) : Bool := y.1 < x.1 || (x.1 == y.1 && (x.2.1 < y.2.1 || (x.2.1 == y.2.1 && y.2.2 < x.2.2)))

def pick (b : Option Match) (x : Match) : Option Match := match b with
  | none => some x
  | some y => if better x y then some x else some y

/-- All matches that are not empty; the default rule sees to it that there is one. -/
def allMatches (rules : List Rule) (s : List Nat) : List Match :=
  rules.zipIdx.flatMap fun p => ((p.1.cands s).filter (0 < ·.1)).map fun m => (m.1, p.2, m.2)

/-- The match flex chooses; after `REJECT` the best of those that come after the rejected one. -/
def select (rules : List Rule) (s : List Nat) (rejected : Option Match) : Option Match :=
  ((allMatches rules s).filter fun m => match rejected with
    | none => true
    | some x => x.1 > m.1 || (x.1 == m.1 && x.2.1 < m.2.1)).foldl pick none

/-- The variables of the scanner (lines 73-83, 348-351, 396), and the text `yymore` keeps. -/
structure St where
  cond : Cond := .initial
  place : Place := .body
  /-- `openBrackets` -/
  opened : Int := 0
  firstLine : Nat := 0
  firstColumn : Nat := 0
  /-- `yyLine` -/
  line : Nat := 1
  /-- `currentOffset` -/
  offset : Nat := 0
  endOfLine : Bool := false
  moreFlag : Bool := false
  /-- `yyTextLine` -/
  buf : List Nat := []
  lastLeng : Nat := 0
  /-- the text kept by `yymore` -/
  kept : List Nat := []
deriving DecidableEq, Repr

/-- `YY_USER_ACTION`: `appendLineBuffer` (lines 41, 391-418). -/
def append (st : St) (yytext : List Nat) : St :=
  let buf := if st.endOfLine then [] else st.buf
  { st with endOfLine := false, offset := buf.length, buf := buf ++ yytext.drop (if st.moreFlag then st.lastLeng else 0), lastLeng := yytext.length, moreFlag := false }

/-- `newline` (lines 361-365). -/
def newline (st : St) : St := { st with line := st.line + 1, endOfLine := true }

/-- `KDevPG::World::LineNumberPolicy` and the name of the grammar file. -/
inductive Policy where
  | beautiful | compat | full
deriving DecidableEq, Repr

structure Env where
  policy : Policy := .beautiful
  file : List Nat := []

def digits (n : Nat) : List Nat := (Nat.toDigits 10 n).map Char.toNat

/-- The line directive before a piece of code (lines 54-61). -/
def directive (E : Env) (line : Nat) : List Nat :=
  bytes "\n#" ++ (if E.policy = .compat then bytes "line" else []) ++ bytes " " ++ digits line ++ bytes " \"" ++ E.file ++ bytes "\"" ++
  (if E.policy = .full then bytes " 1" else []) ++ bytes "\n"

/-- `COPY_CODE_TO_YYLVAL` (lines 47-68). -/
def copyCode (E : Env) (st : St) (c : List Nat) : List Nat :=
  if E.policy = .beautiful then c else directive E st.firstLine ++ List.replicate st.firstColumn 32 ++ c

/-- What an action does: go on, return a token with its text, `REJECT`, end the program, or undefined behaviour. -/
inductive Res where
  | go (st : St)
  | ret (t : Tok) (text : List Nat) (st : St)
  | reject (st : St)
  | stop
  | undefined
deriving DecidableEq, Repr

/-- The loop of `typeEnd` that should strip white space (lines 285-297) runs for `i = length - 1; i < 1; i--`: not at all if the text has two
characters or more; otherwise it reads `yytext[i - 1]` for `i = 0, -1, ..`, before the beginning of the text. -/
def stripped (t : List Nat) : Option (List Nat) := if 2 ≤ t.length then some t else none

/-- The actions, with `yytext` (what `yymore` kept and the match). -/
def run (E : Env) (yytext : List Nat) (st : St) : Act → Res
  | .skip => .go st
  | .newline => .go (newline st)
  | .ret t => .ret t [] st
  | .enter c t => .ret t [] { st with cond := c }
  | .place p t => .ret t [] { st with place := p }
  | .arrow => .ret (.named "T_ARROW") [] (if st.place = .lexer then { st with cond := .lexer } else { st with place := .footer })
  | .bracket => match st.place with
    | .body => .go { st with firstLine := st.line, opened := 0, cond := .args }
    | .footer => .ret (.ch 91) [] { st with cond := .header }
    | .lexer => .go st
  | .reject => .reject { st with cond := .initial }
  | .opening t => .ret t [] { st with opened := st.opened + 1 }
  | .closing t => .ret t [] { st with opened := st.opened - 1 }
  | .separator => .ret (.ch 59) [] { st with line := st.line + yytext.count 10, place := .body, cond := .initial }
  | .text t => .ret (.named t) yytext st
  | .inner t => .ret (.named t) (yytext.drop 1).dropLast st
  | .codeStart => .go { st with firstLine := st.line, firstColumn := st.offset + 2, cond := .code }
  | .codeEnd => .ret (.named "T_CODE") (copyCode E st (yytext.take (yytext.length - 2))) { st with cond := if st.place = .lexer then .lexer else .initial }
  | .more => .go { st with moreFlag := true, kept := yytext }
  | .moreNewline => .go { newline st with moreFlag := true, kept := yytext }
  | .moreOpen => .go { st with opened := st.opened + 1, moreFlag := true, kept := yytext }
  | .argsEnd =>
    if st.opened - 1 < 0 then .ret (.named "T_RULE_ARGUMENTS") (copyCode E st yytext.dropLast) { st with opened := st.opened - 1, cond := .initial }
    else .go { st with opened := st.opened - 1 }
  | .typeEnd => match stripped yytext.dropLast with
    | none => .undefined
    | some t => .ret (.named "T_IDENTIFIER") t { st with cond := .header }
  | .unexpected => .stop
  | .echo => .go st

/-- Result of one match: go on with a state and the rest of the input, a token, end of the program by an error, undefined behaviour, the end
of the file. -/
inductive Step where
  | go (st : St) (rest : List Nat)
  | ret (t : Tok) (text : List Nat) (st : St) (rest : List Nat)
  | stop
  | undefined
  | eof (st : St)
deriving DecidableEq, Repr

/-- Carry out the rule that was matched, and other rules while it is rejected. -/
def apply (E : Env) (rules : List Rule) (s : List Nat) : Nat → St → Option Match → Step
  | 0, _, _ => .stop
  | f + 1, st, r => match select rules s r with
    | none => .stop
    | some m => match rules[m.2.1]? with
      | none => .stop
      | some rule =>
        let yytext := st.kept ++ s.take m.2.2
        match run E yytext { append st yytext with kept := [] } rule.act with
        | .go st => .go st (s.drop m.2.2)
        | .ret t x st => .ret t x st (s.drop m.2.2)
        | .reject st' => apply E rules s f { st' with kept := st.kept } (some m)
        | .stop => .stop
        | .undefined => .undefined

/-- One match of the scanner.  At the end of the file `<CODE>`, `<RULE_ARGUMENTS>` and `<RULE_LEXER>` are errors (lines 232, 254, 319). -/
def step (E : Env) (st : St) (s : List Nat) : Step :=
  if s = [] then if st.cond = .code ∨ st.cond = .args ∨ st.cond = .lexer then .stop else .eof st
  else apply E (rulesOf st.cond) s 4 st none

/-- `yylex`: go on until there is something to return. -/
def lex (E : Env) : Nat → St → List Nat → Option Step
  | 0, _, _ => none
  | f + 1, st, s => match step E st s with
    | .go st s => lex E f st s
    | r => some r

/-- All tokens of a file: their names and texts, and how the scanner ends. -/
def scan (E : Env) : Nat → St → List Nat → Option (List (Tok × List Nat) × Step)
  | 0, _, _ => none
  | f + 1, st, s => match lex E (s.length + 1) st s with
    | none => none
    | some (.ret t x st s) => (scan E f st s).map fun r => ((t, x) :: r.1, r.2)
    | some r => some ([], r)

end Verif.GLex
