import Verif.LexSyn.Build
import Verif.Read.Model
import Verif.Auto.Minimize

/-!
# Model: from the rules of a file to the generated lexer

Source: `/repo/src/kdev-pg-main.cpp` lines 448-454 (the automata of the rule sets); `/repo/src/kdev-pg-regexp.cpp` lines 90-94 (`setActions`), 109-115 (the
`switch` with the actions); `/repo/src/kdev-pg-generate.cpp` lines 655-678 (the macros), 572-580 (numbers of rule sets), 640-646 (the constructor).

Simplifications: of the meaning of C++ only this much is modelled: a text that consists of the macros of the lexer, of `Iterator::plain() -= ` with a number, and of blanks, newlines and
semicolons, stands for the sequence of these statements (`Read.Stmt`).  Other code has no meaning here.
-/

namespace Verif.LexFile

open Verif.Auto Verif.LexSyn Verif.Read

variable {C : Type} [CharSetLike C]

/-- main.cpp lines 450-453: `GNFA(envs)`, `dfa()`, `minimize()`, `setActions`. -/
def automaton (order : List Bits → List Bits) (fuel : Nat) (rules : List (NFA C)) (actions : List Text) : Option (DFA C) := do
  let c ← NFA.ofList rules
  let d ← c.dfa order fuel
  let m ← d.minimize fuel
  return { m with numActions := actions.length - 1 }

/-! ### The statements of an action -/

def isBlank (c : Nat) : Bool := c = 10 || c = 32 || c = 59
def isDigit (c : Nat) : Bool := 48 ≤ c && c ≤ 57
/-- Characters that may go on an identifier. -/
def isIdent (c : Nat) : Bool := isDigit c || (65 ≤ c && c ≤ 90) || (97 ≤ c && c ≤ 122) || c = 95

/-- The rest behind a word. -/
def behind (p t : Text) : Option Text := if p.isPrefixOf t then some (t.drop p.length) else none

/-- A macro without an argument. -/
def plainMacro (p : String) (x : Stmt) (t : Text) : Option (Stmt × Text) :=
  (behind (txt p) t).bind fun t' => if t'.head?.any isIdent then none else some (x, t')

/-- A macro with an argument, up to the parenthesis. -/
def argMacro (p : String) (x : Text → Stmt) (t : Text) : Option (Stmt × Text) :=
  (behind (txt p) t).bind fun t' => match t'.dropWhile (· != 41) with
    | [] => none
    | _ :: t'' => some (x (t'.takeWhile (· != 41)), t'')

/-- Stepping back. -/
def stepMacro (t : Text) : Option (Stmt × Text) :=
  (behind (txt "Iterator::plain() -= ") t).bind fun t' =>
    if t'.takeWhile isDigit = [] then none else some (.back ((t'.takeWhile isDigit).foldl (fun a c => 10 * a + (c - 48)) 0), t'.dropWhile isDigit)

/-- The first statement (generate.cpp lines 659-678); `tok s` is the number `Token_s`, `num s` is `State_s`. -/
def statement (tok num : Text → Nat) (t : Text) : Option (Stmt × Text) :=
  (argMacro "lxRETURN(" (.ret ∘ tok) t).or <| (argMacro "lxTOKEN(" (.token ∘ tok) t).or <| (argMacro "lxSET_RULE_SET(" (.ruleSet ∘ num) t).or <|
    (plainMacro "lxCONTINUE" .cont t).or <| (plainMacro "lxSKIP" .skip t).or <| (plainMacro "lxDONE" .done t).or <| (plainMacro "lxEOF" .eof t).or <|
    (plainMacro "lxFINISH" .finish t).or <| (plainMacro "lxFAIL" .fail t).or <| stepMacro t

def statements (tok num : Text → Nat) : Nat → Text → Option (List Stmt)
  | 0, _ => none
  | _ + 1, [] => some []
  | f + 1, c :: t => if isBlank c then statements tok num f t else
      (statement tok num (c :: t)).bind fun r => (statements tok num f r.2).map (r.1 :: ·)

/-- The statements of a text (every statement has at least one character, so this is enough fuel). -/
def meaning (tok num : Text → Nat) (t : Text) : Option (List Stmt) := statements tok num (t.length + 1) t

/-! ### The generated lexer -/

/-- The names and numbers of the generated lexer: `tok s` is `Token_s`, `num s` is `State_s`, and `name r` the rule set with number `r`.  Rule set 0 is that the
constructor starts with (see `Read.St.init`). -/
structure Numbers where
  tok : Text → Nat
  num : Text → Nat
  name : Nat → Text
  start : name 0 = txt "start"

/-- `L` is the lexer on the code units `buf` with the automata `d` of the rule sets; its actions are those of `lexerActions`, as far as their meaning is known. -/
structure Generated (I : Numbers) (step : List (C × Nat) → Nat → Option Nat) (d : Nat → DFA C) (sys : Sys C) (buf : List Nat) (L : Lx) : Prop where
  n : L.n = buf.length
  scan : L.scan = scanOf step d buf
  code : ∀ (r a : Nat) t ss, (sys.envs (I.name r)).actions[a]? = some t → meaning I.tok I.num t = some ss → ∀ s, L.code r a s = ss

end Verif.LexFile
