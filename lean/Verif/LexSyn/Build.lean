import Verif.LexSyn.Model
import Verif.Auto.Rx
import Verif.Enc.Model
import Verif.Text.Model
import Verif.Utf.Spec
import Verif.Lexer.Lookahead

/-!
# Model of the actions of lexer sections

Source: `/repo/src/kdev-pg-parser.yy` lines 185-445; `/repo/src/kdev-pg.h` (`regexpById`, `dfaForNfa`, `lexerEnvs`, `lexerActions`, `enteringCode`, `leavingCode`).

Warnings are not modelled.  The automata are those of `Verif/Auto` and `Verif/Enc`; the automaton type is fixed when the section is read.  `GNFA *` values in `regexpById` are each made by
`new` and never deleted, so the set of keys of `dfaForNfa` is modelled by a flag at each definition.
-/

namespace Verif.LexSyn

open Verif.Auto

variable {C : Type} [CharSetLike C]

/-! ### Outcomes -/

/-- `exit` is `exit(-1)` for an unknown name; `stuck` is a failed assertion, undefined behaviour or too little fuel in the construction of an automaton. -/
inductive Out (α : Type) | ok (a : α) | exit | stuck

def Out.bind {α β : Type} : Out α → (α → Out β) → Out β
  | .ok a, f => f a
  | .exit, _ => .exit
  | .stuck, _ => .stuck

def lift {α : Type} : Option α → Out α
  | some a => .ok a
  | none => .stuck

/-! ### Characters -/

/-- The functions of the selected automaton type. -/
structure Chars (C : Type) where
  word : Text → Option (NFA C)
  coll : Text → Option (NFA C)
  range : Text → Option (NFA C)
  dot : Option (NFA C)

/-- `QString::toUtf8` of Qt: the encoding of the Unicode Standard, with `?` for a surrogate without partner. -/
def toUtf8 : List Nat → List Nat
  | [] => []
  | [h] => if 0xd800 ≤ h ∧ h < 0xe000 then [63] else Utf.Spec.utf8 h
  | h :: l :: s =>
    if 0xd800 ≤ h ∧ h < 0xdc00 ∧ 0xdc00 ≤ l ∧ l < 0xe000 then Utf.Spec.utf8 (0x10000 + (h - 0xd800) * 1024 + (l - 0xdc00)) ++ toUtf8 s
    else (if 0xd800 ≤ h ∧ h < 0xe000 then [63] else Utf.Spec.utf8 h) ++ toUtf8 (l :: s)

/-- The automata of words, collections and ranges (lines 342-343, 400-430) from `GNFA::word`, `GNFA::collection`, `GNFA::range`; `end+1` is computed in 32 bits. -/
def chars [Enc.RangeSet C] (next : List Nat → Option (Nat × List Nat)) (range : Nat → Nat → Option (NFA C)) (dot : Option (NFA C)) : Chars C where
  word s := Enc.word next (toUtf8 (Text.unescaped s))
  coll s := Enc.collection range (Text.unescaped s)
  range s := do
    let (b, e) ← Text.rangeBounds (Text.unescaped s)
    range b ((e + 1) % 2 ^ 32)
  dot := dot

/-! ### Expressions -/

/-- A definition: its automaton, and whether `dfaForNfa` contains it. -/
structure Def (C : Type) where
  nfa : NFA C
  ready : Bool

/-- `regexpById`. -/
abbrev Store (C : Type) := Text → Option (Def C)

def Store.set (st : Store C) (s : Text) (d : Def C) : Store C := fun t => if t = s then some d else st t

/-- `T_NAMED_REGEXP` (lines 344-358, 432-446): the first use makes the automaton deterministic and minimal, in place. -/
def useNamed (order : List Bits → List Bits) (fuel : Nat) (s : Text) (st : Store C) : Out (NFA C × Store C) :=
  match st s with
  | none => .exit
  | some ⟨n, true⟩ => .ok (n, st)
  | some ⟨n, false⟩ =>
    (lift (do (← (← n.dfa order fuel).minimize fuel).nfa)).bind fun r => .ok (r, st.set s ⟨r, true⟩)

/-- A unary action. -/
def one (f : NFA C → Option (NFA C)) (r : Out (NFA C × Store C)) : Out (NFA C × Store C) :=
  r.bind fun p => (lift (f p.1)).bind fun n => .ok (n, p.2)

/-- A binary action; the operands are read from left to right. -/
def two (f : NFA C → NFA C → Option (NFA C)) (r : Out (NFA C × Store C)) (g : Store C → Out (NFA C × Store C)) : Out (NFA C × Store C) :=
  r.bind fun p => (g p.2).bind fun q => (lift (f p.1 q.1)).bind fun n => .ok (n, q.2)

/-- The actions of `regexp` and `aregexp` (lines 302-445). -/
def build (A : Chars C) (order : List Bits → List Bits) (fuel : Nat) : E → Store C → Out (NFA C × Store C)
  | .eps, st => .ok (.emptyWord, st)
  | .dot, st => (lift A.dot).bind fun n => .ok (n, st)
  | .str s, st => (lift (A.word s)).bind fun n => .ok (n, st)
  | .word s, st => (lift (A.word s)).bind fun n => .ok (n, st)
  | .coll s, st => (lift (A.coll s)).bind fun n => .ok (n, st)
  | .range s, st => (lift (A.range s)).bind fun n => .ok (n, st)
  | .named s, st => useNamed order fuel s st
  | .alt a b, st => two NFA.alt (build A order fuel a st) (build A order fuel b)
  | .and a b, st => two (NFA.and order fuel) (build A order fuel a st) (build A order fuel b)
  | .but a b, st => two (NFA.but order fuel) (build A order fuel a st) (build A order fuel b)
  | .cat a b, st => two NFA.concat (build A order fuel a st) (build A order fuel b)
  | .neg a, st => one (NFA.negate order fuel) (build A order fuel a st)
  | .opt a, st => one NFA.opt (build A order fuel a st)
  | .sepBy a b, st => two NFA.sepBy (build A order fuel a st) (build A order fuel b)
  | .star a, st => one NFA.star (build A order fuel a st)
  | .plus a, st => one NFA.plus (build A order fuel a st)

/-! ### Declarations -/

/-- The entries of `lexerEnvs`, `lexerActions`, `enteringCode` and `leavingCode` for one rule set. -/
structure Env (C : Type) where
  rules : List (NFA C)
  actions : List Text
  enter : Text
  leave : Text

/-- The global state. -/
structure Sys (C : Type) where
  store : Store C
  envs : Text → Env C
  loaded : Bool

def Sys.setEnv (sys : Sys C) (s : Text) (e : Env C) : Sys C := { sys with envs := fun t => if t = s then e else sys.envs t }

def txt (s : String) : Text := s.toList.map Char.toNat

/-- The value of `r` (lines 292-300). -/
def actText : Act → Text
  | .terminal s => txt "\nlxRETURN(" ++ s ++ txt ")\n"
  | .continue_ => txt "\nlxCONTINUE;\n"
  | .skip => txt "\nlxSKIP\n"

/-- The code of a rule (lines 199, 222, 228, 254, 265, 272). -/
def ruleText (rewind : Option Int) (code : Text) (a : Act) : Text :=
  match rewind with
  | none => code ++ actText a
  | some k => txt "Iterator::plain() -= " ++ txt (toString k) ++ txt "; " ++ code ++ actText a

/-- What follows an expression is read behind it. -/
def buildBehind (A : Chars C) (order : List Bits → List Bits) (fuel : Nat) (r : NFA C) : Behind → Store C → Out (List (Lexer.Rule C) × Store C)
  | .nothing, st => .ok ([⟨r, none⟩], st)
  | .lookahead y, st => (build A order fuel y st).bind fun p => (lift (Lexer.lookaheadRule fuel r p.1)).bind fun rs => .ok (rs, p.2)
  | .barrier y, st => (build A order fuel y st).bind fun p => (lift A.dot).bind fun any =>
      (lift (Lexer.barrierRule order fuel any r p.1)).bind fun rs => .ok (rs, p.2)

/-- `push_back` on `lexerEnvs[lexerEnv]` and `lexerActions[lexerEnv]`. -/
def Env.push (e : Env C) (code : Text) (a : Act) (r : Lexer.Rule C) : Env C :=
  { e with rules := e.rules ++ [r.nfa], actions := e.actions ++ [ruleText r.rewind code a] }

/-- One declaration (lines 190-288) in the rule set `s`.  Assigning to element 0 of an empty list is undefined. -/
def exec (A : Chars C) (order : List Bits → List Bits) (fuel : Nat) (s : Text) (sys : Sys C) : Decl → Out (Sys C)
  | .define t x => (build A order fuel x sys.store).bind fun p => .ok { sys with store := p.2.set t ⟨p.1, false⟩ }
  | .rule x y code a => (build A order fuel x sys.store).bind fun p => (buildBehind A order fuel p.1 y p.2).bind fun q =>
      .ok ({ sys with store := q.2 }.setEnv s (q.1.foldl (fun e r => e.push code a r) (sys.envs s)))
  | .fail c => match (sys.envs s).actions with
    | [] => .stuck
    | _ :: as => .ok (sys.setEnv s { sys.envs s with actions := c :: as })
  | .enter c => .ok (sys.setEnv s { sys.envs s with enter := c })
  | .leave c => .ok (sys.setEnv s { sys.envs s with leave := c })

def execAll (A : Chars C) (order : List Bits → List Bits) (fuel : Nat) (s : Text) : Sys C → List Decl → Out (Sys C)
  | sys, [] => .ok sys
  | sys, d :: ds => (exec A order fuel s sys d).bind fun sys => execAll A order fuel s sys ds

/-- The action used where no rule matches, if the file gives none. -/
def failText : Text := txt "qDebug() << \"error\"; exit(-1);"

/-- `if(lexerActions[lexerEnv].empty()) lexerActions[lexerEnv].push_back(..)` -/
def openEnv (s : Text) (sys : Sys C) : Sys C :=
  if (sys.envs s).actions = [] then sys.setEnv s { sys.envs s with actions := [failText] } else sys

/-- A section `%lexer` with or without a name (lines 185-186).  `uni` is the first call of `loadUnicodeData`. -/
def execSection (A : Chars C) (order : List Bits → List Bits) (fuel : Nat) (uni : Store C → Out (Store C)) (sys : Sys C) : Option Text × List Decl → Out (Sys C)
  | (some s, ds) => execAll A order fuel s (openEnv s sys) ds
  | (none, ds) =>
    (if sys.loaded then .ok sys else (uni sys.store).bind fun st => .ok { sys with store := st, loaded := true }).bind fun sys =>
      execAll A order fuel (txt "start") (openEnv (txt "start") sys) ds

/-- All sections of a file. -/
def execFile (A : Chars C) (order : List Bits → List Bits) (fuel : Nat) (uni : Store C → Out (Store C)) : Sys C → List (Option Text × List Decl) → Out (Sys C)
  | sys, [] => .ok sys
  | sys, s :: ss => (execSection A order fuel uni sys s).bind fun sys => execFile A order fuel uni sys ss

/-- The state in the beginning. -/
def Sys.init : Sys C := ⟨fun _ => none, fun _ => ⟨[], [], [], []⟩, false⟩

end Verif.LexSyn
