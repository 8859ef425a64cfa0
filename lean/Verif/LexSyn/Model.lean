/-!
# Model of the syntax of lexer sections in grammar files

Source: `/repo/src/kdev-pg-parser.yy` lines 185-186, 189-300 (declarations), 302-361 (regular expressions), 363-445 (regular expressions in brackets), 576-579 (`code_opt`).

As in `Verif/Syntax/Model.lean`, the productions are transcribed one by one as the clauses of a relation between lists of tokens and values.  The value of a regular expression is
the tree of operations its actions perform on automata; the automata are in `Verif/LexSyn/Build.lean`.  Texts are lists of bytes.
-/

namespace Verif.LexSyn

abbrev Text := List Nat

/-- The tokens the scanner returns in lexer sections (kdev-pg-lexer.ll lines 198-238). -/
inductive Tok
  | bar | amp | hat | tilde | opt | at_ | star | plus | lp | rp | lb | rb | dot
  /-- `T_STRING`, `T_UNQUOTED_STRING`, `T_RANGE`, `T_NAMED_REGEXP` -/
  | str (s : Text) | unq (s : Text) | range (s : Text) | named (s : Text)
  | semi | arrow | la | ba | fail | enter | leave | continue_
  | ident (s : Text) | term (s : Text) | code (s : Text)
deriving DecidableEq, Repr

/-- Regular expressions: the operations the actions of lines 302-445 perform. -/
inductive E
  /-- `GNFA::emptyWord()`, `GNFA::anyChar()` -/
  | eps | dot
  /-- `GNFA::word` of a string in quotes or not, `GNFA::collection`, `GNFA::range` -/
  | str (s : Text) | word (s : Text) | coll (s : Text) | range (s : Text)
  /-- a copy of the expression of that name -/
  | named (s : Text)
  /-- `|=`, `&=`, `^=`, `<<=` -/
  | alt (a b : E) | and (a b : E) | but (a b : E) | cat (a b : E)
  /-- `negate()`, `|= emptyWord()` -/
  | neg (a : E) | opt (a : E)
  | sepBy (a b : E) | star (a : E) | plus (a : E)
deriving DecidableEq, Repr

/-- `regexp`, `regexp1`, ..., `regexp7`, and the same with `aregexp`. -/
inductive Lv | alt | and | but | pre | seq | sep | rep | atom
deriving DecidableEq, Repr

/-- A token that begins a `regexp7` (`aregexp7` if `b`). -/
def begins (b : Bool) : List Tok → Bool
  | .lp :: _ | .lb :: _ | .dot :: _ | .str _ :: _ | .unq _ :: _ | .named _ :: _ => true
  | .range _ :: _ => b
  | _ => false

/-- The tokens are those of an expression with nothing at its end: none, or a separator without expression behind it. -/
def open_ (ts : List Tok) : Bool := match ts.getLast? with
  | none => true
  | some t => t == .at_

/-- Bison's choices, as they show in sequences.  As `regexp7` may be empty (line 360), there are conflicts: (1) in front of a token that begins a `regexp7`, of shifting it and of reducing
the empty production: Bison shifts, so no empty expression is put in front of another one in a sequence; (2) behind a `regexp7`, `regexp6` or `regexp5`, of shifting `*`, `+`, `@` and of
beginning another element of the sequence with an empty expression: Bison shifts; (3) behind a `regexp4`, of two reductions, to `regexp3` and of the empty production:
Bison takes the one that comes first in the file, the former.  So a sequence is continued exactly by tokens that begin a `regexp7`. -/
def joins (b : Bool) (ts us : List Tok) : Prop := open_ ts = false ∧ begins b us = true

/-- The productions of lines 302-445.  `bison` says whether Bison's choices are respected; `b` is `true` for `aregexp`. -/
inductive D (bison : Bool) : Bool → Lv → List Tok → E → Prop
  -- regexp, aregexp
  | alt {b ts us x y} : D bison b .alt ts x → D bison b .and us y → D bison b .alt (ts ++ .bar :: us) (.alt x y)
  | altOne {b ts x} : D bison b .and ts x → D bison b .alt ts x
  -- regexp1
  | and {b ts us x y} : D bison b .and ts x → D bison b .but us y → D bison b .and (ts ++ .amp :: us) (.and x y)
  | andOne {b ts x} : D bison b .but ts x → D bison b .and ts x
  -- regexp2
  | but {b ts us x y} : D bison b .pre ts x → D bison b .but us y → D bison b .but (ts ++ .hat :: us) (.but x y)
  | butOne {b ts x} : D bison b .pre ts x → D bison b .but ts x
  -- regexp3
  | neg {b ts x} : D bison b .pre ts x → D bison b .pre (.tilde :: ts) (.neg x)
  | opt {b ts x} : D bison b .pre ts x → D bison b .pre (.opt :: ts) (.opt x)
  | preOne {b ts x} : D bison b .seq ts x → D bison b .pre ts x
  -- regexp4: a concatenation; aregexp4: a union
  | cat {ts us x y} : D bison false .seq ts x → D bison false .sep us y → (bison = true → joins false ts us) → D bison false .seq (ts ++ us) (.cat x y)
  | union {ts us x y} : D bison true .seq ts x → D bison true .sep us y → (bison = true → joins true ts us) → D bison true .seq (ts ++ us) (.alt x y)
  | seqOne {b ts x} : D bison b .sep ts x → D bison b .seq ts x
  -- regexp5
  | sep {b ts us x y} : D bison b .sep ts x → D bison b .rep us y → D bison b .sep (ts ++ .at_ :: us) (.sepBy x y)
  | sepOne {b ts x} : D bison b .rep ts x → D bison b .sep ts x
  -- regexp6
  | star {b ts x} : D bison b .rep ts x → D bison b .rep (ts ++ [.star]) (.star x)
  | plus {b ts x} : D bison b .rep ts x → D bison b .rep (ts ++ [.plus]) (.plus x)
  | repOne {b ts x} : D bison b .atom ts x → D bison b .rep ts x
  -- regexp7
  | paren {b ts x} : D bison false .alt ts x → D bison b .atom (.lp :: ts ++ [.rp]) x
  | bracket {b ts x} : D bison true .alt ts x → D bison b .atom (.lb :: ts ++ [.rb]) x
  | dot {b} : D bison b .atom [.dot] .dot
  | str {b s} : D bison b .atom [.str s] (.str s)
  | word {s} : D bison false .atom [.unq s] (.word s)
  | range {s} : D bison true .atom [.range s] (.range s)
  | coll {s} : D bison true .atom [.unq s] (.coll s)
  | named {b s} : D bison b .atom [.named s] (.named s)
  | eps {b} : D bison b .atom [] .eps

/-- `opt_lexer_action` (lines 292-300). -/
inductive Act | terminal (s : Text) | continue_ | skip
deriving DecidableEq, Repr

inductive ActOpt : List Tok → Act → Prop
  | terminal {s} : ActOpt [.term s] (.terminal s)
  | continue_ : ActOpt [.continue_] .continue_
  | skip : ActOpt [] .skip

/-- `code_opt` (lines 576-579). -/
inductive CodeOpt : List Tok → Text → Prop
  | none : CodeOpt [] []
  | some {c} : CodeOpt [.code c] c

/-- What follows the expression of a rule (lines 193, 203, 235). -/
inductive Behind | nothing | lookahead (x : E) | barrier (x : E)
deriving DecidableEq, Repr

/-- The declarations of a lexer section, one for each production of `lexer_declaration_rest`. -/
inductive Decl
  | define (s : Text) (x : E)
  | rule (x : E) (y : Behind) (code : Text) (act : Act)
  | fail (c : Text) | enter (c : Text) | leave (c : Text)
deriving DecidableEq, Repr

/-- `lexer_declaration_rest` (lines 189-290), a list.  Where it could end (`;` to come) or go on with a rule with nothing in it, there are two reductions, and the end comes first in the
file. -/
inductive Ds (bison : Bool) : List Tok → List Decl → Prop
  | define {ts x s us ds} : D bison false .alt ts x → Ds bison us ds → Ds bison (ts ++ .arrow :: .ident s :: .semi :: us) (.define s x :: ds)
  | rule {ts x cs c as a us ds} : D bison false .alt ts x → CodeOpt cs c → ActOpt as a → (bison = true → ts ++ cs ++ as ≠ []) → Ds bison us ds →
      Ds bison (ts ++ cs ++ as ++ .semi :: us) (.rule x .nothing c a :: ds)
  | lookahead {ts x vs y cs c as a us ds} : D bison false .alt ts x → D bison false .alt vs y → CodeOpt cs c → ActOpt as a → Ds bison us ds →
      Ds bison (ts ++ .la :: .lp :: vs ++ .rp :: cs ++ as ++ .semi :: us) (.rule x (.lookahead y) c a :: ds)
  | barrier {ts x vs y cs c as a us ds} : D bison false .alt ts x → D bison false .alt vs y → CodeOpt cs c → ActOpt as a → Ds bison us ds →
      Ds bison (ts ++ .ba :: .lp :: vs ++ .rp :: cs ++ as ++ .semi :: us) (.rule x (.barrier y) c a :: ds)
  | fail {c us ds} : Ds bison us ds → Ds bison (.fail :: .code c :: us) (.fail c :: ds)
  | enter {c us ds} : Ds bison us ds → Ds bison (.enter :: .code c :: us) (.enter c :: ds)
  | leave {c us ds} : Ds bison us ds → Ds bison (.leave :: .code c :: us) (.leave c :: ds)
  | nil : Ds bison [] []

end Verif.LexSyn
