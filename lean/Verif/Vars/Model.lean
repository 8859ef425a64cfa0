/-!
# Variables of rules, and the syntax trees the generated parser builds

Source: `/repo/src/kdev-pg-code-gen.cpp` (annotations, local declarations, signatures, initialisation), `/repo/src/kdev-pg-ast-gen.cpp` (members of the
structures), `/repo/src/kdev-pg-default-visitor.cpp` (order of visits), `/repo/src/kdev-pg.cpp` lines 112-187 (annotations and declarations).

Simplifications:
* items are trees, not nodes with pointers to each other: the generators in question visit an item once per mention, sharing makes no difference to them;
  a null pointer below an action is the empty item;
* the conditions of emitted tests (FIRST sets and user conditions, see `Verif.Gen`) are left open: each test may give either result at any time;
* user code does not change annotated variables;
* `try_startToken_N` is part of the statement for `try` (that the emitted variables work is in `Verif.Gen`);
* operator rules have declarations but no statements here (see `Verif.Ops`).
-/

namespace Verif.Vars

/-- `VariableType` (kdev-pg-ast.h). -/
inductive Kind
  | tok
  | node
  | var
deriving DecidableEq, Repr

/-- `VariableDeclarationItem` (kdev-pg-ast.h), without `mNext`: chains of declarations are lists. -/
structure Decl where
  /-- `mDeclarationType == DeclarationArgument` -/
  arg : Bool := false
  /-- `mStorageType == StorageTemporary` -/
  temp : Bool := false
  kind : Kind
  /-- `mIsSequence` -/
  seq : Bool := false
  name : String
  /-- `mType` -/
  type : String := ""
deriving DecidableEq, Repr

/-- What an annotation may stand before (kdev-pg.cpp lines 129-144). -/
inductive Atom
  | tok (t : Nat)
  | sym (s : Nat)
deriving DecidableEq, Repr

/-- Items of rules. -/
inductive Item
  | zero
  | atom (a : Atom)
  /-- `inline s` -/
  | inl (s : Nat)
  | ann (d : Decl) (a : Atom)
  | cons (l r : Item)
  | alt (l r : Item)
  | star (i : Item)
  | plus (i : Item)
  | act (i : Item)
  | cond (i : Item)
  /-- `try/recover(i)` with the tokens that may follow it -/
  | recover (i : Item) (follow : List Nat)
  /-- `try/rollback(i) catch(j)` -/
  | rollback (i j : Item)
  | op
deriving DecidableEq, Repr

/-- `EvolveItem`: the declarations in brackets and the item. -/
structure Rule where
  decls : List Decl := []
  item : Item
deriving DecidableEq, Repr

/-- A grammar: the rules of each symbol in the order of `env.find(sym)`, the start symbols, the capitalised names of the symbols. -/
structure Grammar where
  rules : Nat → List Rule
  start : Nat → Bool := fun _ => false

/-! ## Declarations -/

/-- All declarations `DefaultVisitor` comes across below an item, in its order (kdev-pg-default-visitor.cpp lines 35-104): an annotation's own declaration
(`annotation`, kdev-pg.cpp line 147, makes it without successor), and for inlined symbols those of the first rule.  `none`: endless recursion (refused by the
inline checker) or an inlined symbol without rule. -/
def visited (G : Grammar) : Nat → Item → Option (List Decl)
  | 0, _ => none
  | f + 1, i => match i with
    | .zero => some []
    | .atom _ => some []
    | .op => some []
    | .inl s => match G.rules s with
      | [] => none
      | r :: _ => (visited G f r.item).map (r.decls ++ ·)
    | .ann d _ => some [d]
    | .cons l r => (visited G f l).bind fun a => (visited G f r).map (a ++ ·)
    | .alt l r => (visited G f l).bind fun a => (visited G f r).map (a ++ ·)
    | .star i => visited G f i
    | .plus i => visited G f i
    | .act i => visited G f i
    | .cond i => visited G f i
    | .recover i _ => visited G f i
    | .rollback i j => (visited G f i).bind fun a => (visited G f j).map (a ++ ·)

/-- `printName` (code-gen lines 1039-1045): the identifier in the generated code. -/
def Decl.ident (d : Decl) : String := if d.seq then d.name ++ "Sequence" else d.name

/-- `printType` (code-gen lines 1020-1037), as data: sequence or not, kind, and the name that goes into the type (tokens: none). -/
def Decl.ctype (d : Decl) : Bool × Kind × String := (d.seq, d.kind, if d.kind = .tok then "" else d.type)

/-- `GenerateAstRule::visitVariableDeclaration` (ast-gen lines 191-205) for a series of declarations; `names` is `mNames`. -/
def memberLoop : List String → List Decl → List Decl
  | _, [] => []
  | names, d :: t => if d.temp = false ∧ d.name ∉ names then d :: memberLoop (d.name :: names) t else memberLoop names t

/-- The names in `mNames` afterwards. -/
def namesAfter : List String → List Decl → List String
  | names, [] => names
  | names, d :: t => if d.temp = false ∧ d.name ∉ names then namesAfter (d.name :: names) t else namesAfter names t

/-- A structure of the AST: its prefix (`Prefix` and so on for operators) and the members. -/
structure Struct where
  pre : String
  members : List Decl
deriving DecidableEq, Repr

/-- `GenerateAstRule::visitEvolve` (ast-gen lines 115-189): the structures for one rule, and `mNames` afterwards.  The item of an operator rule has no
declarations (`DefaultVisitor::visitOperator`). -/
def ruleStructs (G : Grammar) (f : Nat) (names : List String) (r : Rule) : Option (List Struct × List String) :=
  if r.item = .op then
    some ([⟨"", []⟩, ⟨"Prefix", memberLoop names r.decls⟩, ⟨"Postfix", memberLoop (namesAfter names r.decls) r.decls⟩,
      ⟨"Binary", memberLoop (namesAfter names r.decls) r.decls⟩, ⟨"Ternary", memberLoop (namesAfter names r.decls) r.decls⟩], namesAfter names r.decls)
  else (visited G f r.item).map fun v => ([⟨"", memberLoop names (r.decls ++ v)⟩], namesAfter names (r.decls ++ v))

/-- `GenerateAstRule::operator()` (ast-gen lines 84-113): all rules of a symbol, with one `mNames`. -/
def structLoop (G : Grammar) (f : Nat) : List String → List Rule → Option (List Struct)
  | _, [] => some []
  | names, r :: t => (ruleStructs G f names r).bind fun p => (structLoop G f p.2 t).map (p.1 ++ ·)

/-- The structures emitted for symbol `s`. -/
def structs (G : Grammar) (f s : Nat) : Option (List Struct) := structLoop G f [] (G.rules s)

/-- `GenerateParseMethodSignature` (code-gen lines 959-976 and 996-1016): the parameters; those of the first rule only. -/
def params (ast : Bool) (G : Grammar) (s : Nat) : List Decl := match G.rules s with
  | [] => []
  | r :: _ => r.decls.filter fun d => d.arg && (ast || d.temp)

/-- The declarations `GenerateLocalDeclarations` emits (code-gen lines 892-957, without those for arguments that are members) for a series of declarations; `names` is `mNames`. -/
def localLoop : List String → List Decl → List Decl
  | _, [] => []
  | names, d :: t => if d.temp = true ∧ d.arg = false ∧ d.name ∉ names then d :: localLoop (d.name :: names) t else localLoop names t

/-- The names in `mNames` afterwards. -/
def localNames : List String → List Decl → List String
  | names, [] => names
  | names, d :: t => if d.temp = true ∧ d.arg = false ∧ d.name ∉ names then localNames (d.name :: names) t else localNames names t

/-- The block of one rule: what it declares. -/
def blockLoop (G : Grammar) (f : Nat) : List String → List Rule → Option (List (List Decl))
  | _, [] => some []
  | names, r :: t => (visited G f r.item).bind fun v => (blockLoop G f (localNames names v) t).map (localLoop names v :: ·)

/-- A parser function: parameters, declarations at its beginning, declarations in the block of each rule. -/
structure Function where
  params : List Decl
  top : List Decl
  blocks : List (List Decl)
deriving DecidableEq, Repr

/-- `GenerateParserRule` (code-gen lines 804-860) and `CodeGenerator::visitEvolve` (lines 344-345). -/
def function (ast : Bool) (G : Grammar) (f s : Nat) : Option Function :=
  let ps := params ast G s
  let names := ps.map (·.name)
  let ds := (G.rules s).flatMap (·.decls)
  (blockLoop G f (localNames names ds) (G.rules s)).map fun b => ⟨ps, localLoop names ds, b⟩

/-- The declarations `GenerateTokenVariableInitialization` comes across (code-gen lines 1228-1249): as `visited`, but it does not follow `mNext`, so of a
chain of declarations it sees the first only. -/
def initVisited (G : Grammar) : Nat → Item → Option (List Decl)
  | 0, _ => none
  | f + 1, i => match i with
    | .zero => some []
    | .atom _ => some []
    | .op => some []
    | .inl s => match G.rules s with
      | [] => none
      | r :: _ => (initVisited G f r.item).map (r.decls.take 1 ++ ·)
    | .ann d _ => some [d]
    | .cons l r => (initVisited G f l).bind fun a => (initVisited G f r).map (a ++ ·)
    | .alt l r => (initVisited G f l).bind fun a => (initVisited G f r).map (a ++ ·)
    | .star i => initVisited G f i
    | .plus i => initVisited G f i
    | .act i => initVisited G f i
    | .cond i => initVisited G f i
    | .recover i _ => initVisited G f i
    | .rollback i j => (initVisited G f i).bind fun a => (initVisited G f j).map (a ++ ·)

/-- The identifiers of `(*yynode)->x = -1;` (code-gen lines 1242-1249), for the first rule of a symbol. -/
def initialised (G : Grammar) (f s : Nat) : Option (List String) := match G.rules s with
  | [] => some []
  | r :: _ => (initVisited G f r.item).map fun v => (v.filter fun d => d.kind = .tok && !d.seq).map (·.name)

/-- The number of arguments after `yynode` in the call `visitOperator` emits for parentheses and ternary operators (code-gen lines 571-577):
`GenerateRecursiveDelegation` is constructed, but its `operator()` is not called. -/
def recursiveArgs (_ : Grammar) (_ : Nat) : Nat := 0

/-! ## Emitted code -/

/-- Emitted statements that matter for the tree.  Catch number 0 is "no catch": `return false`. -/
inductive Code
  | skip
  | seq (a b : Code)
  /-- `if (yytoken != Token_t) fail` -/
  | test (t c : Nat)
  /-- `yylex();` -/
  | lex
  /-- `x = tokenStream->index() - 1;` -/
  | setTok (d : Decl)
  /-- `xSequence = snoc(xSequence, tokenStream->index() - 1, memoryPool);` -/
  | snocTok (d : Decl)
  /-- `if (!parseS(&__node_N)) fail` -/
  | call (s c : Nat)
  /-- the same and `x = __node_N;` -/
  | callSet (s c : Nat) (d : Decl)
  /-- the same and `xSequence = snoc(xSequence, __node_N, memoryPool);` -/
  | callSnoc (s c : Nat) (d : Decl)
  | ite (a b : Code)
  | while (b : Code)
  | doWhile (b : Code)
  | fail (c : Nat)
  /-- `if (Token_EOF != yytoken) { return false; }` -/
  | eof
  /-- `try_startToken_i = ..; { body } if (false) { __catch_i: skip to a token that may follow }` -/
  | recover (i : Nat) (body : Code) (follow : List Nat)
  /-- `try_startToken_i = ..; { body } if (false) { __catch_i: rewind(try_startToken_i); handler }` -/
  | rollback (i : Nat) (body handler : Code)
deriving DecidableEq, Repr

/-- `visitAlternative` (code-gen lines 256-315): `if .. else if .. else fail`. -/
def chain (c : Nat) : List Code → Code
  | [] => .fail c
  | a :: t => .ite a (chain c t)

mutual
/-- `CodeGenerator::visitNode` (code-gen lines 202-559) with `mCurrentCatchId = c` and `tryCatch_counter = k`. -/
def emit (G : Grammar) : Nat → Item → Nat → Nat → Option (Code × Nat)
  | 0, _, _, _ => none
  | f + 1, i, c, k => match i with
    | .zero => some (.skip, k)
    | .atom (.tok t) => some (.seq (.test t c) .lex, k)
    | .atom (.sym s) => some (.call s c, k)
    -- `DefaultVisitor::visitInlinedNonTerminal`, then `visitEvolve` (lines 322-355): no `else`
    | .inl s => match G.rules s with
      | [] => none
      | r :: _ => (emit G f r.item c k).map fun p => (.ite (.seq p.1 (if G.start s then .eof else .skip)) .skip, p.2)
    -- lines 438-559
    | .ann d (.tok t) => some (.seq (.test t c) (.seq (if d.seq then .snocTok d else .setTok d) .lex), k)
    | .ann d (.sym s) => some (if d.seq then .callSnoc s c d else .callSet s c d, k)
    | .cons l r => (emit G f l c k).bind fun p => (emit G f r c p.2).map fun q => (.seq p.1 q.1, q.2)
    | .alt l r => (emitAlts G f l c k).bind fun p => (emitAlts G f r c p.2).map fun q => (chain c (p.1 ++ q.1), q.2)
    | .star i => (emit G f i c k).map fun p => (.while p.1, p.2)
    | .plus i => (emit G f i c k).map fun p => (.doWhile p.1, p.2)
    | .act i => emit G f i c k
    | .cond i => emit G f i c k
    -- lines 357-430
    | .recover i follow => (emit G f i (k + 1) (k + 1)).map fun p => (.recover (k + 1) p.1 follow, p.2)
    | .rollback i j => (emit G f i (k + 1) (k + 1)).bind fun p => (emit G f j c p.2).map fun q => (.rollback (k + 1) p.1 q.1, q.2)
    | .op => none

/-- The alternatives of a choice, flattened (code-gen lines 256-280). -/
def emitAlts (G : Grammar) : Nat → Item → Nat → Nat → Option (List Code × Nat)
  | 0, _, _, _ => none
  | f + 1, i, c, k => match i with
    | .alt l r => (emitAlts G f l c k).bind fun p => (emitAlts G f r c p.2).map fun q => (p.1 ++ q.1, q.2)
    | i => (emit G f i c k).map fun p => ([p.1], p.2)
end

/-- The body of a parser function (code-gen lines 845-863): `if (..) {..} else if (..) {..} else { return false; }`. -/
def emitRules (G : Grammar) (f s : Nat) : List Rule → Nat → Option Code
  | [], _ => some (.fail 0)
  | r :: t, k => (emit G f r.item 0 k).bind fun p => (emitRules G f s t p.2).map fun q => .ite (.seq p.1 (if G.start s then .eof else .skip)) q

/-! ## Trees and execution -/

/-- A value of a variable: a token number or a node.  `vars` has the members that have been assigned: the elements of a sequence in the order of the list
(`Verif.RtList`: `snoc` adds at the end), or the one value of a plain member. -/
inductive Tree
  | tok (i : Int)
  | node (sym : Nat) (startToken endToken : Int) (vars : List (String × Bool × List Tree))

/-- A store of variables. -/
abbrev Store := List (String × Bool × List Tree)

/-- The value of a variable. -/
def look (st : Store) (n : String) (seq : Bool) : List Tree := match st with
  | [] => []
  | (m, b, v) :: t => if m = n ∧ b = seq then v else look t n seq

/-- Changing a variable. -/
def update (st : Store) (n : String) (seq : Bool) (g : List Tree → List Tree) : Store := match st with
  | [] => [(n, seq, g [])]
  | (m, b, v) :: t => if m = n ∧ b = seq then (m, b, g v) :: t else (m, b, v) :: update t n seq g

/-- A running function: the position (`tokenStream->index() - 1`), the number of tests so far, the members of `*yynode`, the local variables. -/
structure St where
  pos : Nat
  asked : Nat
  members : Store := []
  locals : Store := []

/-- `x = v;`, with `(*yynode)->` before it for members (code-gen lines 451-475 and 537-555). -/
def St.assign (st : St) (d : Decl) (v : Tree) : St :=
  let g := fun old : List Tree => if d.seq then old ++ [v] else [v]
  if d.temp then { st with locals := update st.locals d.name d.seq g } else { st with members := update st.members d.name d.seq g }

/-- How a statement ends. -/
inductive Res
  | ok
  | ret
  | jump (c : Nat)
deriving DecidableEq, Repr

/-- `return false` or `goto __catch_c`. -/
def failed (c : Nat) : Res := if c = 0 then .ret else .jump c

/-- Where a parser runs: the grammar, the kinds of the tokens, the number of EOF, the results of tests, and the number of the first `try` of a function. -/
structure World where
  G : Grammar
  toks : Nat → Nat
  eof : Nat
  oracle : Nat → Bool
  count : Nat → Nat := fun _ => 0
  /-- depth of items, for `emit` -/
  depth : Nat

/-- Recovery (code-gen lines 160-192): to a token that may follow, or the end. -/
def skipTo (W : World) (follow : List Nat) : Nat → Nat → Option Nat
  | 0, _ => none
  | f + 1, p => if W.toks p = W.eof ∨ W.toks p ∈ follow then some p else skipTo W follow f (p + 1)

mutual
/-- Running a statement. -/
def exec (W : World) : Nat → Code → St → Option (Res × St)
  | 0, _, _ => none
  | f + 1, code, st => match code with
    | .skip => some (.ok, st)
    | .seq a b => match exec W f a st with
      | some (.ok, st') => exec W f b st'
      | r => r
    | .test t c => some (if W.toks st.pos = t then .ok else failed c, st)
    | .lex => some (.ok, { st with pos := st.pos + 1 })
    | .setTok d => some (.ok, st.assign d (.tok st.pos))
    | .snocTok d => some (.ok, st.assign d (.tok st.pos))
    | .call s c => match parse W f s st with
      | some (some _, p, n) => some (.ok, { st with pos := p, asked := n })
      | some (none, p, n) => some (failed c, { st with pos := p, asked := n })
      | none => none
    | .callSet s c d => match parse W f s st with
      | some (some t, p, n) => some (.ok, { st with pos := p, asked := n }.assign d t)
      | some (none, p, n) => some (failed c, { st with pos := p, asked := n })
      | none => none
    | .callSnoc s c d => match parse W f s st with
      | some (some t, p, n) => some (.ok, { st with pos := p, asked := n }.assign d t)
      | some (none, p, n) => some (failed c, { st with pos := p, asked := n })
      | none => none
    | .ite a b => if W.oracle st.asked then exec W f a { st with asked := st.asked + 1 } else exec W f b { st with asked := st.asked + 1 }
    | .while b => if W.oracle st.asked then
        match exec W f b { st with asked := st.asked + 1 } with
        | some (.ok, st') => exec W f (.while b) st'
        | r => r
      else some (.ok, { st with asked := st.asked + 1 })
    | .doWhile b => match exec W f b st with
      | some (.ok, st') => if W.oracle st'.asked then exec W f (.doWhile b) { st' with asked := st'.asked + 1 } else some (.ok, { st' with asked := st'.asked + 1 })
      | r => r
    | .fail c => some (failed c, st)
    | .eof => some (if W.toks st.pos = W.eof then .ok else .ret, st)
    | .recover i body follow => match exec W f body st with
      | some (.jump j, st') =>
        if j = i then
          let p := if st'.pos = st.pos ∧ W.toks st'.pos ≠ W.eof then st'.pos + 1 else st'.pos
          (skipTo W follow f p).map fun q => (.ok, { st' with pos := q })
        else some (.jump j, st')
      | r => r
    | .rollback i body handler => match exec W f body st with
      | some (.jump j, st') => if j = i then exec W f handler { st' with pos := st.pos } else some (.jump j, st')
      | r => r

/-- Calling `parseS` (code-gen lines 804-890): the node or failure, the new position, the number of tests. -/
def parse (W : World) : Nat → Nat → St → Option (Option Tree × Nat × Nat)
  | 0, _, _ => none
  | f + 1, s, st => match emitRules W.G W.depth s (W.G.rules s) (W.count s) with
    | none => none
    | some code => match exec W f code { pos := st.pos, asked := st.asked } with
      | none => none
      | some (.ok, st') => some (some (.node s st.pos ((st'.pos : Int) - 1) st'.members), st'.pos, st'.asked)
      | some (_, st') => some (none, st'.pos, st'.asked)
end

end Verif.Vars
