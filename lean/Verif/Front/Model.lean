import Verif.Syntax.Model
import Verif.Clone.Model

/-!
# Model of the semantic actions of the grammar of grammar files

Sources: `/repo/src/kdev-pg-parser.yy` lines 462-653, `/repo/src/kdev-pg.h` lines 158-183 and 205-230, `/repo/src/kdev-pg.cpp` lines 15-200 (the constructors of nodes),
`/repo/src/kdev-pg-follow.cpp` line 75, `/repo/src/kdev-pg-bnf-visitor.cpp`.

The productions are those of `Syntax.D`; here each clause also carries the nodes which its action makes: the state before, the state after, and the node `$$`.  Bison runs the actions in the order in which
the productions end, from left to right; so the state goes through the parts of a production in this order.

Simplifications: texts (code, arguments, names of labels) are not kept in nodes (as in `Grammar.World`); flags (`needStateManagement`, `needOperatorStack`) are left out; `astBaseClasses` and the
texts of operators are in `Verif/OpRule/Model.lean`; the node of an operator rule is made before its base (line 571), here it has a number behind it; with `--no-ast` operator rules end the program; bytes instead of `QString` (`fromUtf8` keeps different valid texts apart); nodes have the numbers in which they are made; `EOF` is made and declared directly behind the rules, not when FOLLOW sets are begun.
-/

namespace Verif.Front

open Verif.Grammar (Tables pushSymbol pushTerminal terminal find World OpItem)
open Verif.Syntax (Name Tok Nt Rule Dvs CodeOpt codeFirst OpDecl DeclsR)

/-- The part of `KDevPG::World` filled by the actions. -/
structure St where
  heap : List Grammar.Item := []
  /-- `symbols`, `start`, `terminals` -/
  tab : Tables Name := {}
  /-- `mZero` -/
  zero : Option Nat := none
  /-- `rules` -/
  rules : List Nat := []

/-- `createNode`. -/
def St.new (st : St) (it : Grammar.Item) : St × Nat := ({ st with heap := st.heap ++ [it] }, st.heap.length)

/-- The heap after a function on the tables, which makes at most one node. -/
def St.grow (st : St) (p : Tables Name × Nat) (it : Grammar.Item) : St × Nat :=
  ({ st with tab := p.1, heap := st.heap ++ List.replicate (p.1.next - st.heap.length) it }, p.2)

/-- `globalSystem.pushSymbol(name)` (kdev-pg.h lines 216-230). -/
def St.symbol (st : St) (s : Name) : St × Nat := st.grow (pushSymbol { st.tab with next := st.heap.length } s) .sym

/-- `globalSystem.pushTerminal(name, description)` (lines 206-214). -/
def St.declare (st : St) (s d : Name) : St × Nat := st.grow (pushTerminal { st.tab with next := st.heap.length } s d) .term

/-- `globalSystem.terminal(name)` (lines 164-172). -/
def St.term (st : St) (s : Name) : St × Nat := st.grow (terminal { st.tab with next := st.heap.length } s) .term

/-- `globalSystem.zero()` (lines 157-162). -/
def St.zeroItem (st : St) : St × Nat :=
  match st.zero with
  | some z => (st, z)
  | none => ({ st with heap := st.heap ++ [.zero], zero := some st.heap.length }, st.heap.length)

/-- The actions of lines 474-552: the tokens, the value as in `Syntax.D`, the state before and after, the node. -/
inductive Act : Nt → List Tok → Syntax.Item → St → St → Nat → Prop
  -- primary_item
  | zero {st} : Act .primary [.zero] .zero st st.zeroItem.1 st.zeroItem.2
  | paren {ts i st st' n} : Act .option ts i st st' n → Act .primary (.lp :: ts ++ [.rp]) i st st' n
  | tryIt {ts i st st' n} : Act .tryItem ts i st st' n → Act .primary ts i st st' n
  | atom {ts i st st' n} : Act .atom ts i st st' n → Act .primary ts i st st' n
  | inl {s st st' k} : st.symbol s = (st', k) → Act .primary [.inline, .ident s] (.inl s) st (st'.new (.inlined (some k))).1 (st'.new (.inlined (some k))).2
  | annEq {l ts i st st' n} : Act .atom ts i st st' n → Act .primary (.ident l :: .eq :: ts) (.ann ⟨l, false, false⟩ i) st (st'.new (.annot n)).1 (st'.new (.annot n)).2
  | annColon {l ts i st st' n} : Act .atom ts i st st' n → Act .primary (.ident l :: .colon :: ts) (.ann ⟨l, false, true⟩ i) st (st'.new (.annot n)).1 (st'.new (.annot n)).2
  | seqEq {l ts i st st' n} : Act .atom ts i st st' n →
      Act .primary (.hash :: .ident l :: .eq :: ts) (.ann ⟨l, true, false⟩ i) st (st'.new (.annot n)).1 (st'.new (.annot n)).2
  | seqColon {l ts i st st' n} : Act .atom ts i st st' n →
      Act .primary (.hash :: .ident l :: .colon :: ts) (.ann ⟨l, true, true⟩ i) st (st'.new (.annot n)).1 (st'.new (.annot n)).2
  -- primary_atom
  | nonterm {s st st' k} : st.symbol s = (st', k) → Act .atom [.ident s] (.nonterm s []) st (st'.new (.nonterm k)).1 (st'.new (.nonterm k)).2
  | call {s a st st' k} : st.symbol s = (st', k) → Act .atom [.ident s, .args a] (.nonterm s a) st (st'.new (.nonterm k)).1 (st'.new (.nonterm k)).2
  | term {s st} : Act .atom [.term s] (.term s) st (st.term s).1 (st.term s).2
  -- try_item
  | recover {ts i st st' n} : Act .option ts i st st' n → Act .tryItem (.recover :: .lp :: ts ++ [.rp]) (.recover i) st (st'.new (.tryc n none)).1 (st'.new (.tryc n none)).2
  | rollback {ts us i j st st1 st2 n m} : Act .option ts i st st1 n → Act .option us j st1 st2 m →
      Act .tryItem (.rollback :: .lp :: ts ++ .rp :: .catch_ :: .lp :: us ++ [.rp]) (.rollback i j) st (st2.new (.tryc n (some m))).1 (st2.new (.tryc n (some m))).2
  -- unary_item
  | plus {ts i st st' n} : Act .primary ts i st st' n → Act .unary (ts ++ [.plus]) (.plus i) st (st'.new (.plus n)).1 (st'.new (.plus n)).2
  | star {ts i st st' n} : Act .primary ts i st st' n → Act .unary (ts ++ [.star]) (.star i) st (st'.new (.star n)).1 (st'.new (.star n)).2
  | primary {ts i st st' n} : Act .primary ts i st st' n → Act .unary ts i st st' n
  | opt {ts i st st1 st2 n z} : Act .primary ts i st st1 n → st1.zeroItem = (st2, z) →
      Act .unary (.opt :: ts) (.alt i .zero) st (st2.new (.alt n z)).1 (st2.new (.alt n z)).2
  -- postfix_item
  | unary {ts i st st' n} : Act .unary ts i st st' n → Act .postfix ts i st st' n
  -- lines 530-534: `CloneTree` makes nodes but enters nothing into the tables
  | sep {ts us i j st st1 st2 n m h k} : Act .postfix ts i st st1 n → Act .primary us j st1 st2 m → Clone.sepList st2.heap n m = some (h, k) →
      Act .postfix (ts ++ .at_ :: us) (Syntax.sep i j) st { st2 with heap := h } k
  | act {ts i c st st' n} : Act .postfix ts i st st' n → Act .postfix (ts ++ [.code c]) (.act i c) st (st'.new (.action (some n))).1 (st'.new (.action (some n))).2
  | code {c st} : Act .postfix [.code c] (.code c) st (st.new (.action none)).1 (st.new (.action none)).2
  -- item_sequence
  | one {ts i st st' n} : Act .postfix ts i st st' n → Act .seq ts i st st' n
  | seq {ts us i j st st1 st2 n m} : Act .seq ts i st st1 n → Act .postfix us j st1 st2 m → codeFirst us = false →
      Act .seq (ts ++ us) (.cons i j) st (st2.new (.cons n m)).1 (st2.new (.cons n m)).2
  -- conditional_item
  | sequence {ts i st st' n} : Act .seq ts i st st' n → Act .cond ts i st st' n
  | cond {c ts i st st' n} : Act .seq ts i st st' n → Act .cond (.opt :: .code c :: ts) (.cond c i) st (st'.new (.cond n)).1 (st'.new (.cond n)).2
  -- option_item
  | single {ts i st st' n} : Act .cond ts i st st' n → Act .option ts i st st' n
  | alt {ts us i j st st1 st2 n m} : Act .option ts i st st1 n → Act .cond us j st1 st2 m →
      Act .option (ts ++ .bar :: us) (.alt i j) st (st2.new (.alt n m)).1 (st2.new (.alt n m)).2

/-- `evolve` and `pushRule` (lines 471 and 555-566): the symbol on the left hand side is entered behind those of the item. -/
def St.rule (st : St) (n : Nat) (s : Name) : St :=
  let (st, k) := st.symbol s
  let (st, e) := st.new (.evolve n k)
  { st with rules := st.rules ++ [e] }

/-- `operatorDeclaration` (lines 614-621) with `operator` (lines 648-653): `pushBin`, `pushTern`, `pushPre`, `pushPost`, `pushParen` (kdev-pg-ast.h lines 199-263).  `none` is undefined behaviour: without
associativity of a postfix operator the text of the priority is passed to `free`; for `0` that is a string literal (lines 618, 625). -/
def St.decl (st : St) (o : OpItem) : OpDecl → Option (St × OpItem)
  | .bin q _ _ => some ((st.term q.tok).1, { o with bin := o.bin ++ [(st.term q.tok).2] })
  | .tern q q' _ _ => some (((st.term q.tok).1.term q'.tok).1, { o with tern := o.tern ++ [((st.term q.tok).2, ((st.term q.tok).1.term q'.tok).2)] })
  | .pre q _ => some ((st.term q.tok).1, { o with pre := o.pre ++ [(st.term q.tok).2] })
  | .post _ .zero none => none
  | .post q _ _ => some ((st.term q.tok).1, { o with post := o.post ++ [(st.term q.tok).2] })
  | .paren q q' => some (((st.term q.tok).1.term q'.tok).1, { o with paren := o.paren ++ [((st.term q.tok).2, ((st.term q.tok).1.term q'.tok).2)] })

/-- `operatorDeclarations` (lines 582-585): the actions run from left to right. -/
def St.decls (st : St) (o : OpItem) : List OpDecl → Option (St × OpItem)
  | [] => some (st, o)
  | d :: ds => (st.decl o d).bind fun p => p.1.decls p.2 ds

/-- `evolve` for an operator rule (lines 587-612). -/
def St.opRule (st : St) (o : OpItem) (s : Name) : St := (st.new (.op o)).1.rule (st.new (.op o)).2 s

/-- `rules: rules item ';'`.  For operator rules only the case that the base is a symbol has a clause: a terminal is cast to `NonTerminalItem` and its `mSymbol` is read (lines 590-592). -/
inductive ActR : List Tok → Rule → St → St → Prop
  | codeFirst {ts i s c vs ds st st' n} : Act .option ts i st st' n → Dvs vs ds → ActR (ts ++ .arrow :: .ident s :: .code c :: .lbr :: vs ++ [.rbr]) ⟨i, s, ds, c⟩ st (st'.rule n s)
  | declsFirst {ts i s cs c vs ds st st' n} : Act .option ts i st st' n → Dvs vs ds → CodeOpt cs c →
      ActR (ts ++ .arrow :: .ident s :: .lbr :: vs ++ .rbr :: cs) ⟨i, s, ds, c⟩ st (st'.rule n s)
  | plain {ts i s cs c st st' n} : Act .option ts i st st' n → CodeOpt cs c → ActR (ts ++ .arrow :: .ident s :: cs) ⟨i, s, [], c⟩ st (st'.rule n s)
  | opDecls {bs us vs cs s' a s c ds os st st1 st2 n o} : Act .atom bs (.nonterm s' a) st st1 n → DeclsR us os → st1.decls { base := n } os = some (st2, o) → Dvs vs ds → CodeOpt cs c →
      ActR (.lopr :: (bs ++ (us ++ .ropr :: .ident s :: .lbr :: (vs ++ .rbr :: cs)))) ⟨.op ⟨.sym s' a, os⟩, s, ds, c⟩ st (st2.opRule o s)
  | opCode {bs us vs s' a s c ds os st st1 st2 n o} : Act .atom bs (.nonterm s' a) st st1 n → DeclsR us os → st1.decls { base := n } os = some (st2, o) → Dvs vs ds →
      ActR (.lopr :: (bs ++ (us ++ .ropr :: .ident s :: .code c :: .lbr :: (vs ++ [.rbr])))) ⟨.op ⟨.sym s' a, os⟩, s, ds, c⟩ st (st2.opRule o s)
  | opPlain {bs us cs s' a s c os st st1 st2 n o} : Act .atom bs (.nonterm s' a) st st1 n → DeclsR us os → st1.decls { base := n } os = some (st2, o) → CodeOpt cs c →
      ActR (.lopr :: (bs ++ (us ++ .ropr :: .ident s :: cs))) ⟨.op ⟨.sym s' a, os⟩, s, [], c⟩ st (st2.opRule o s)

inductive ActRs : List Tok → List Rule → St → St → Prop
  | nil {st} : ActRs [] [] st st
  | more {ts us rs r st st1 st2} : ActRs ts rs st st1 → ActR us r st1 st2 → ActRs (ts ++ us ++ [.semi]) (rs ++ [r]) st st2

/-- `declared_tokens` (lines 462-467): names with descriptions. -/
def St.tokens (st : St) (ts : List (Name × Name)) : St := ts.foldl (fun st t => (st.declare t.1 t.2).1) st

/-- `EOF` -/
def eofName : Name := GLex.bytes "EOF"

/-- What is added behind the rules: the zero node (`BnfVisitor` asks for it, kdev-pg-bnf-visitor.cpp) and `EOF` (kdev-pg-follow.cpp line 75). -/
def St.finish (st : St) : St × Nat := st.zeroItem.1.declare eofName (GLex.bytes "end of file")

/-- What the analyses and the generators then use.  `rules` is the list left by `finishedParsing`, which sorts by the addresses of the symbols. -/
def St.world (st : St) (rules : List Nat) : World :=
  { heap := st.heap, parsed := st.heap.length, rules, zero := st.zero.getD 0, terminals := st.tab.terminals.map (·.2), start := st.tab.start, bnf := fun _ => none }

/-- `W` is the world that the analyses and generators get: the rules in some order, and the nodes that `BnfVisitor` makes for `+` and `*` (`Grammar.rewrite`), whatever the order in which it comes to them. -/
def Handed (st : St) (W : World) : Prop := ∃ rules ns, rules.Perm st.rules ∧ ns.Nodup ∧ (∀ n ∈ ns, n < st.heap.length) ∧
  (∀ (n : Nat) (it : Grammar.Item), st.heap[n]? = some it → (∃ i, it = .plus i) ∨ (∃ i, it = .star i) ∨ (∃ o, it = .op o) → n ∈ ns) ∧ W = Grammar.rewrite (st.world rules) ns

end Verif.Front
