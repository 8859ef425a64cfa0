import Verif.LexSyn.Model
import Verif.Auto.Spec

/-!
# Specification: what regular expressions mean, and which definition a name refers to
-/

namespace Verif.LexSyn.Spec

open Verif.LexSyn Verif.Auto

/-- What the texts stand for: the characters a text denotes, which numbers are characters, the encoding of a character, and the words for a dot. -/
structure Reading where
  chars : Text → List Nat
  char : Nat → Prop
  enc : Nat → List Nat
  dot : Lang

/-- The words of an expression, for given words of the names.  Complements are relative to the words over `size` units. -/
def den (K : Reading) (size : Nat) (N : Text → Lang) : E → Lang
  | .eps => fun w => w = []
  | .dot => K.dot
  | .str s | .word s => fun w => w = (K.chars s).flatMap K.enc
  | .coll s => fun w => ∃ c ∈ K.chars s, w = K.enc c
  | .range s => fun w => ∃ b e c, K.chars s = [b, '-'.toNat, e] ∧ b ≤ c ∧ c ≤ e ∧ K.char c ∧ w = K.enc c
  | .named s => N s
  | .alt a b => fun w => den K size N a w ∨ den K size N b w
  | .and a b => fun w => den K size N a w ∧ den K size N b w
  | .but a b => fun w => den K size N a w ∧ ¬ den K size N b w
  | .cat a b => Cat (den K size N a) (den K size N b)
  | .neg a => fun w => (∀ x ∈ w, x < size) ∧ ¬ den K size N a w
  | .opt a => fun w => den K size N a w ∨ w = []
  | .sepBy a b => Cat (den K size N a) (Star (Cat (den K size N b) (den K size N a)))
  | .star a => Star (den K size N a)
  | .plus a => Cat (den K size N a) (Star (den K size N a))

/-- A name defined again. -/
def redefine (N : Text → Lang) (s : Text) (L : Lang) : Text → Lang := fun t => if t = s then L else N t

/-- The words of the rules of a section, in order.  A name refers to its last definition in front of the place where it is used. -/
def ruleLangs (K : Reading) (size : Nat) : (Text → Lang) → List Decl → List Lang
  | _, [] => []
  | N, .define s x :: ds => ruleLangs K size (redefine N s (den K size N x)) ds
  | N, .rule x _ _ _ :: ds => den K size N x :: ruleLangs K size N ds
  | N, _ :: ds => ruleLangs K size N ds

/-- The names at the end of a section. -/
def finalNames (K : Reading) (size : Nat) : (Text → Lang) → List Decl → Text → Lang
  | N, [] => N
  | N, .define s x :: ds => finalNames K size (redefine N s (den K size N x)) ds
  | N, _ :: ds => finalNames K size N ds

/-! ### Which expressions are built rightly -/

/-- The expression does not begin with an iteration, a complement, an intersection, a difference or a name; a collection or range standing first is not empty. -/
def Fresh (K : Reading) : E → Prop
  | .eps | .dot | .str _ | .word _ | .alt _ _ | .opt _ => True
  | .coll s => K.chars s ≠ []
  | .range s => ∃ b e c, K.chars s = [b, '-'.toNat, e] ∧ b ≤ c ∧ c ≤ e ∧ K.char c
  | .cat a _ => Fresh K a
  | .sepBy a _ => Fresh K a
  | _ => False

/-- What may be iterated: see `C15_expression_partial`. -/
def Iter (K : Reading) (size : Nat) (N : Text → Lang) (x : E) : Prop := Fresh K x ∨ den K size N x [] ∨ ∃ y, x = .plus y

/-- All iterations are of that kind; of each name used, some word that does not match can be continued to one that does. -/
def Safe (K : Reading) (size : Nat) (N : Text → Lang) : E → Prop
  | .eps | .dot | .str _ | .word _ | .coll _ | .range _ => True
  | .named s => ∃ w v, ¬ N s w ∧ N s (w ++ v)
  | .alt a b | .and a b | .but a b | .cat a b => Safe K size N a ∧ Safe K size N b
  | .neg a | .opt a => Safe K size N a
  | .star a | .plus a => Safe K size N a ∧ Iter K size N a
  | .sepBy a b => Safe K size N a ∧ Safe K size N b ∧ (Fresh K b ∨ Iter K size N b ∧ den K size N a [])

def SafeAll (K : Reading) (size : Nat) : (Text → Lang) → List Decl → Prop
  | _, [] => True
  | N, .define s x :: ds => Safe K size N x ∧ SafeAll K size (redefine N s (den K size N x)) ds
  | N, .rule x _ _ _ :: ds => Safe K size N x ∧ SafeAll K size N ds
  | N, _ :: ds => SafeAll K size N ds

/-- All names in the expression are known. -/
def Closed (kn : Text → Prop) : E → Prop
  | .eps | .dot | .str _ | .word _ | .coll _ | .range _ => True
  | .named s => kn s
  | .alt a b | .and a b | .but a b | .cat a b | .sepBy a b => Closed kn a ∧ Closed kn b
  | .neg a | .opt a | .star a | .plus a => Closed kn a

/-- The names known after a declaration. -/
def learn (kn : Text → Prop) : Decl → Text → Prop
  | .define s _ => fun t => t = s ∨ kn t
  | _ => kn

/-- Names are defined before they are used. -/
def ClosedAll : (Text → Prop) → List Decl → Prop
  | _, [] => True
  | kn, d :: ds => (∀ s x, d = .define s x → Closed kn x) ∧ (∀ x y c t, d = .rule x y c t → Closed kn x) ∧ ClosedAll (learn kn d) ds

/-- Neither lookahead nor barriers. -/
def PlainAll (ds : List Decl) : Prop := ∀ d ∈ ds, ∀ x y c t, d = .rule x y c t → y = .nothing

/-! ### Files -/

/-- The rule set of a section. -/
def target (s : Option Text) : Text := s.getD ("start".toList.map Char.toNat)

/-- The words of the rules of rule set `e` in a file, in order.  Names stay defined from one section to the next. -/
def fileLangs (K : Reading) (size : Nat) (e : Text) : (Text → Lang) → List (Option Text × List Decl) → List Lang
  | _, [] => []
  | N, (s, ds) :: ss => (if target s = e then ruleLangs K size N ds else []) ++ fileLangs K size e (finalNames K size N ds) ss

def SafeFile (K : Reading) (size : Nat) : (Text → Lang) → List (Option Text × List Decl) → Prop
  | _, [] => True
  | N, (_, ds) :: ss => SafeAll K size N ds ∧ SafeFile K size (finalNames K size N ds) ss

def ClosedFile : (Text → Prop) → List (Option Text × List Decl) → Prop
  | _, [] => True
  | kn, (_, ds) :: ss => ClosedAll kn ds ∧ ClosedFile (ds.foldl learn kn) ss

/-- The declarations of all sections for rule set `e`. -/
def ofEnv (e : Text) (ss : List (Option Text × List Decl)) : List Decl := (ss.filter fun p => target p.1 = e).flatMap (·.2)

/-- The codes behind `%fail`, `%enter`, `%leave`. -/
def failCode : Decl → Option Text
  | .fail c => some c
  | _ => none
def enterCode : Decl → Option Text
  | .enter c => some c
  | _ => none
def leaveCode : Decl → Option Text
  | .leave c => some c
  | _ => none

/-- The last of the codes. -/
def last (f : Text) (g : Decl → Option Text) (ds : List Decl) : Text := (ds.filterMap g).getLast?.getD f

/-- The rules, without their expressions. -/
def ruleOf : Decl → Option (Behind × Text × Act)
  | .rule _ y c t => some (y, c, t)
  | _ => none

def bytes (s : String) : Text := s.toList.map Char.toNat

/-- The code for an action. -/
def ending : Act → Text
  | .terminal s => bytes "\nlxRETURN(" ++ s ++ bytes ")\n"
  | .continue_ => bytes "\nlxCONTINUE;\n"
  | .skip => bytes "\nlxSKIP\n"

/-- Stepping back by `k`. -/
def back (k : Int) : Text := bytes "Iterator::plain() -= " ++ bytes (toString k) ++ bytes "; "

/-- The texts of the entries a rule makes: the code of the rule and then its action; where a lookahead or barrier is used, stepping back in front.  A barrier
that is used makes two entries. -/
inductive Gives : Behind × Text × Act → List Text → Prop
  | plain {y c t} : Gives (y, c, t) [c ++ ending t]
  | lookahead {x c t k} : Gives (.lookahead x, c, t) [back k ++ c ++ ending t]
  | barrier {x c t k} : Gives (.barrier x, c, t) [c ++ ending t, back k ++ c ++ ending t]

/-- The words for a dot and for characters are bounded in length, and there is a dot. -/
def Reading.Bounded (K : Reading) : Prop := (∃ B, (∀ c, (K.enc c).length ≤ B) ∧ ∀ w, K.dot w → w.length ≤ B) ∧ ∃ w, K.dot w

end Verif.LexSyn.Spec
