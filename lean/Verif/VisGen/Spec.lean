import Verif.Top.Model

/-!
# Specification: classes and definitions of methods in C++

As much of the grammar of C++ as is needed for visitors, on tokens.
-/

namespace Verif.VisGen.Spec

open Verif.Top (Text txt)

/-- Part of a statement: without semicolons and braces. -/
def Plain (e : List Text) : Prop := e ≠ [] ∧ ∀ t ∈ e, t ≠ txt ";" ∧ t ≠ txt "{" ∧ t ≠ txt "}"

/-- A series of statements. -/
inductive Stmts : List Text → Prop
  | nil : Stmts []
  | expr {e r} : Plain e → Stmts r → Stmts (e ++ txt ";" :: r)
  | if_ {c b r} : Plain c → Stmts b → Stmts r → Stmts ([txt "if", txt "("] ++ c ++ [txt ")", txt "{"] ++ b ++ txt "}" :: r)
  | do_ {b c r} : Stmts b → Plain c → Stmts r → Stmts ([txt "do", txt "{"] ++ b ++ [txt "}", txt "while", txt "("] ++ c ++ [txt ")", txt ";"] ++ r)

/-- A definition of a method: class, name, type that the parameter points to. -/
structure Fun where
  cls : Text
  method : Text
  param : Text
deriving DecidableEq, Repr

/-- The tokens are definitions of methods without result, with one parameter which may be left without name; its name is `node` if it is used. -/
inductive Defines : List Text → List Fun → Prop
  | nil : Defines [] []
  | cons {c m t b r fs} (n : Option Text) : Stmts b → (txt "node" ∈ b → n = some (txt "node")) → Defines r fs →
      Defines ([txt "void", c, txt "::", m, txt "(", t, txt "*"] ++ n.toList ++ [txt ")", txt "{"] ++ b ++ txt "}" :: r) (⟨c, m, t⟩ :: fs)

/-- Declarations of overriding methods: name, type that the parameter points to. -/
inductive Methods : List Text → List (Text × Text) → Prop
  | nil : Methods [] []
  | cons {m t n r ms} : Methods r ms → Methods ([txt "void", m, txt "(", t, txt "*", n, txt ")", txt "override", txt ";"] ++ r) ((m, t) :: ms)

/-- The tokens are a class with these methods. -/
inductive Declares (mac : List Text) (name base : Text) (ms : List (Text × Text)) : List Text → Prop
  | mk {b} : Methods b ms → Declares mac name base ms ([txt "class"] ++ mac ++ [name, txt ":", txt "public", base, txt "{", txt "public", txt ":"] ++ b ++ [txt "}", txt ";"])

/-- Names: letters, digits and underscores. -/
def Ident (t : Text) : Prop := t ≠ [] ∧ ∀ c ∈ t, 48 ≤ c ∧ c ≤ 57 ∨ 65 ≤ c ∧ c ≤ 90 ∨ 97 ≤ c ∧ c ≤ 122 ∨ c = 95

end Verif.VisGen.Spec
