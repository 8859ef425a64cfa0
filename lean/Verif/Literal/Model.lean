import Verif.Top.Model
import Verif.Tables.Model

/-!
# Model of the texts of tokens in generated code

Sources: `/repo/src/kdev-pg-code-gen.cpp` lines 130-163 (`generateTokenTest`), 1252-1268 (`GenerateTokenTexts`), `/repo/src/kdev-pg.h` lines 164-173, 208-216, `/repo/src/kdev-pg-follow.cpp` line 75,
`/repo/src/kdev-pg-generate.cpp` (`tokentext.h`).

Texts are lists of characters as numbers.  That the characters go from UTF-8 to UTF-16 and back is left out.
-/

namespace Verif.Literal

open Verif.Top (Text txt)

/-- The name of a token. -/
abbrev Name := Tables.Text

/-- `QString::replace` of a character by a text. -/
def replace (c : Nat) (by_ : Text) (t : Text) : Text := t.flatMap fun x => if x = c then by_ else [x]

/-- kdev-pg-code-gen.cpp line 1260: a backslash before backslashes, then one before quotes. -/
def escape (t : Text) : Text := replace 34 [92, 34] (replace 92 [92, 92] t)

/-- `World::pushTerminal` (kdev-pg.h lines 208-216): the first description stays.  (The order of the entries is that of `Tables.terminals`.) -/
def push (ts : List (Name × Text)) (n : Name) (d : Text) : List (Name × Text) := if ts.any (·.1 = n) then ts else ts ++ [(n, d)]

/-- The descriptions of the declared tokens, and of `EOF` (kdev-pg-follow.cpp line 75). -/
def described (decls : List (Name × Text)) : List (Name × Text) := push (decls.foldl (fun ts p => push ts p.1 p.2) []) Tables.eof (txt "end of file")

/-- `mDescription` of a registered terminal. -/
def descriptionOf (ts : List (Name × Text)) (n : Name) : Option Text := (ts.find? (·.1 = n)).map (·.2)

/-- `GenerateTokenTexts` (lines 1252-1268): the cases, with what stands between the quotes. -/
def cases (le : Name → Name → Bool) (decls : List (Name × Text)) : List (Name × Text) :=
  (Tables.terminals le (decls.map (·.1))).map fun n => (n, escape ((descriptionOf (described decls) n).getD []))

/-- Lines 1264-1265. -/
def default : Text := txt "unknown token"

/-- The generated `tokenText` for a number: between which quotes the result stands.  The labels are the enumerators of `TokenType`. -/
def tokenText (le : Name → Name → Bool) (decls : List (Name × Text)) (number : Nat) : Text :=
  match (cases le decls).find? fun c => (Tables.tokenType (Tables.terminals le (decls.map (·.1)))).lookup c.1 == some number with
  | some c => c.2
  | none => default

/-- `World::terminal` (kdev-pg.h lines 164-173): the description of the node for a token in a rule.  All declarations come before the rules. -/
def used (decls : List (Name × Text)) (n : Name) (own : Text) : Text := (descriptionOf (decls.foldl (fun ts p => push ts p.1 p.2) []) n).getD own

/-- `generateTokenTest` (lines 140-141): what stands between the quotes of the third argument of `expectedToken`. -/
def message (decls : List (Name × Text)) (n : Name) (own : Text) : Text := used decls n own

end Verif.Literal
