import Verif.Vars.Model

/-!
# Visitors of syntax trees

Source: `/repo/src/kdev-pg-default-visitor-bits-gen.cpp`, `/repo/src/kdev-pg-debug-visitor-gen.cpp`.  Rules, declarations and
trees are those of `Verif.Vars`; that `visitNode` calls the method of the node's kind is C45 (`Verif.Tables`).

Simplifications:
* the generated methods are lists of the members they visit; the loop over a sequence (`front`, then `next` until the start is reached again) gives the elements
  in order (`Verif.RtList`);
* trees consist of nodes of ordinary rules; of operator rules there are the lists of visited members;
* a node in the output of the debug visitor is given by the way to it; the text in brackets (positions) is left out.
-/

namespace Verif.Visit

open Verif.Vars

/-! ## The default visitor -/

/-- `GenerateDefaultVisitorBitsRule::visitVariableDeclaration` (default-visitor-bits-gen lines 64-102) for a series of declarations: the members to be
visited; `names` is `mNames`. -/
def stepLoop : List String → List Decl → List Decl
  | _, [] => []
  | names, d :: t => if d.temp = false ∧ d.kind = .node ∧ d.name ∉ names then d :: stepLoop (d.name :: names) t else stepLoop names t

/-- The declarations `DefaultVisitor` comes across in all rules of a symbol. -/
def allVisited (G : Grammar) (f : Nat) : List Rule → Option (List Decl)
  | [] => some []
  | r :: t => (visited G f r.item).bind fun v => (allVisited G f t).map fun w => r.decls ++ v ++ w

/-- `isOperatorSymbol` (kdev-pg.cpp lines 296-300). -/
def isOp (G : Grammar) (s : Nat) : Bool := match G.rules s with
  | [] => false
  | r :: _ => r.item = .op

/-- The visit method of an ordinary symbol (lines 47-58): the members visited. -/
def steps (G : Grammar) (f s : Nat) : Option (List Decl) := (allVisited G f (G.rules s)).map (stepLoop [])

/-- The visit methods of an operator symbol (lines 32-45): prefix of the name, and the members visited. -/
def opSteps : List (String × List String) :=
  [("Prefix", ["first"]), ("Postfix", ["first"]), ("Binary", ["first", "second"]), ("Ternary", ["first", "second", "third"])]

/-- The declarations `HasMemberNodes` comes across (lines 105-135): it does not follow `mNext`. -/
def allSeen (G : Grammar) (f : Nat) : List Rule → Option (List Decl)
  | [] => some []
  | r :: t => (initVisited G f r.item).bind fun v => (allSeen G f t).map fun w => r.decls.take 1 ++ v ++ w

/-- `HasMemberNodes` (lines 105-135): whether the parameter is named. -/
def hasMembers (G : Grammar) (f s : Nat) : Option Bool :=
  if isOp G s then some true else (allSeen G f (G.rules s)).map fun v => v.any fun d => !d.temp && d.kind = .node

/-- A way from a node to one below it: members, whether they are sequences, and numbers of elements. -/
abbrev Path := List (String × Bool × Nat)

mutual
/-- `visitNode`: all nodes visited, as ways from the first one.  `none`: a token number is taken for a node, or there is no method, or fuel is out. -/
def visit (G : Grammar) (d : Nat) : Nat → Tree → Option (List Path)
  | 0, _ => none
  | _, .tok _ => none
  | f + 1, .node s _ _ vars => (steps G d s).bind fun ms => (visitMembers G d f vars ms).map ([] :: ·)

/-- The body of a visit method: one member after the other; a plain member may be null. -/
def visitMembers (G : Grammar) (d : Nat) : Nat → Store → List Decl → Option (List Path)
  | 0, _, _ => none
  | _, _, [] => some []
  | f + 1, vars, m :: ms => (visitList G d f m 0 (look vars m.name m.seq)).bind fun a => (visitMembers G d f vars ms).map (a ++ ·)

/-- The elements of a sequence from number `k` on, or the value of a plain member. -/
def visitList (G : Grammar) (d : Nat) : Nat → Decl → Nat → List Tree → Option (List Path)
  | 0, _, _, _ => none
  | _, _, _, [] => some []
  | f + 1, m, k, t :: ts => (visit G d f t).bind fun a => (visitList G d f m (k + 1) ts).map fun b => a.map ((m.name, m.seq, k) :: ·) ++ b
end

/-! ## The debug visitor -/

/-- A printed line: indentation, the name of the member (`none`: the line for the node itself), and which node. -/
structure Line where
  indent : Int
  label : Option String
  path : Path
deriving DecidableEq, Repr

/-- `printToken(.., QStringLiteral("x[]"))` or `"x"` (debug-visitor-gen lines 163-180) for the elements from number `k` on. -/
def memberLines (ind : Int) (at_ : Path) (m : Decl) : Nat → List Tree → List Line
  | _, [] => []
  | k, _ :: ts => ⟨ind, some (if m.seq then m.name ++ "[]" else m.name), at_ ++ [(m.name, m.seq, k)]⟩ :: memberLines ind at_ m (k + 1) ts

mutual
/-- `DebugVisitor::visitX` (lines 82-147): the lines printed and `m_indent` afterwards.  The members printed are chosen as in `stepLoop` (lines 149-186).  `at_`
is the way to the node. -/
def debug (G : Grammar) (d : Nat) : Nat → Path → Int → Tree → Option (List Line × Int)
  | 0, _, _, _ => none
  | _, _, _, .tok _ => none
  | f + 1, at_, ind, .node s _ _ vars => (steps G d s).bind fun ms =>
      (debugMembers G d f at_ (ind + 1) vars ms).map fun r =>
        (⟨ind, none, at_⟩ :: ms.flatMap (fun m => memberLines ind at_ m 0 (look vars m.name m.seq)) ++ r.1, r.2 - 1)

/-- `DefaultVisitor::visitX(node)`, with the methods of the debug visitor for the nodes below. -/
def debugMembers (G : Grammar) (d : Nat) : Nat → Path → Int → Store → List Decl → Option (List Line × Int)
  | 0, _, _, _, _ => none
  | _, _, ind, _, [] => some ([], ind)
  | f + 1, at_, ind, vars, m :: ms => (debugList G d f at_ ind m 0 (look vars m.name m.seq)).bind fun a =>
      (debugMembers G d f at_ a.2 vars ms).map fun b => (a.1 ++ b.1, b.2)

def debugList (G : Grammar) (d : Nat) : Nat → Path → Int → Decl → Nat → List Tree → Option (List Line × Int)
  | 0, _, _, _, _, _ => none
  | _, _, ind, _, _, [] => some ([], ind)
  | f + 1, at_, ind, m, k, t :: ts => (debug G d f (at_ ++ [(m.name, m.seq, k)]) ind t).bind fun a =>
      (debugList G d f at_ a.2 m (k + 1) ts).map fun b => (a.1 ++ b.1, b.2)
end

end Verif.Visit
