import Verif.GenText.OpModel
import Verif.GenText.ScopeMain

/-! # Names in the text of operator rules: lemmas -/

namespace Verif.GenText

open Verif.Grammar
open Verif.Gen (Ctx Row OpKind isCond rulesOf rows1 rows2 symOf)
open Spec

section
variable {o : Opts} {K : Ctx}

/-- A state given by its parts. -/
def At (a : List Var) (l : List (List Var)) (p : List (Nat × List Var)) (b : List Nat) : Sc := ⟨a :: l, p, b⟩

variable {l : List (List Var)} {p : List (Nat × List Var)} {b : List Nat} {x : Tok}

def In (v : Var) (l : List (List Var)) : Prop := v ∈ l.flatten

theorem scan_nil {st} : Sc.scan x st [] = some st := rfl

theorem scan_lb {a ts} : Sc.scan x (At a l p b) (.lb :: ts) = Sc.scan .lb (At [] (a :: l) p b) ts := rfl
theorem scan_rb {a a' ts} : Sc.scan x (At a' (a :: l) p b) (.rb :: ts) = Sc.scan .rb (At a l p b) ts := rfl
theorem scan_calm {st t ts} (h : neutral t = true) : Sc.scan x st (t :: ts) = Sc.scan t st ts := by rw [Sc.scan, step_neutral h]; rfl
theorem scan_decl {a v i ts} (hx : declares x = true) (hv : v ≠ .«__catch_») (h : (v, i) ∉ a) : Sc.scan x (At a l p b) (.num v i :: ts) = Sc.scan (.num v i) (At ((v, i) :: a) l p b) ts := by
  have : Sc.step x (At a l p b) (.num v i) = some (At ((v, i) :: a) l p b) := by
    cases v <;> first | exact absurd rfl hv | (simp [Sc.step, hx, At, Sc.declare]; simpa using h)
  rw [Sc.scan, this]
  rfl
theorem scan_use {a v i ts} (hx : declares x = false) (hv : v ≠ .«__catch_») (h : (v, i) ∈ a ∨ In (v, i) l) : Sc.scan x (At a l p b) (.num v i :: ts) = Sc.scan (.num v i) (At a l p b) ts := by
  have h' : (v, i) ∈ (At a l p b).visible := by
    rw [At, Sc.visible, List.flatten_cons, List.mem_append]
    exact h
  have : Sc.step x (At a l p b) (.num v i) = some (At a l p b) := by
    cases v <;> first | exact absurd rfl hv | simp [Sc.step, hx, h']
  rw [Sc.scan, this]
  rfl
theorem in_cons {v a} : In v (a :: l) ↔ v ∈ a ∨ In v l := by simp only [In, List.flatten_cons, List.mem_append]

/-- The variables of the function are in force. -/
def Ready (a : List Var) (l : List (List Var)) : Prop := ((.«opStack», 0) ∈ a ∨ In (.«opStack», 0) l) ∧ ((.«expectOperator», 0) ∈ a ∨ In (.«expectOperator», 0) l)

/-- The text changes nothing, from any state with the variables of the function. -/
def Closed' (ts : Toks) : Prop := ∀ a l p b, Ready a l → Goes (At a l p b) ts (At a l p b)

theorem Closed'.append {ts ts'} (h : Closed' ts) (h' : Closed' ts') : Closed' (ts ++ ts') := fun a l p b r => (h a l p b r).append (h' a l p b r)
theorem Closed'.calm {ts} (h : Calm ts) : Closed' ts := fun _ _ _ _ _ => goes_neutral h

theorem calm_opTest (t : Nat) (ask : Bool) : Calm (opTest o K t ask) := by
  unfold opTest
  refine (calm_test t).append ?_
  split
  · simp [Calm, neutral]
  · exact .nil

set_option hygiene false in
/-- Goes on by one token at a time. -/
local macro "walk" : tactic => `(tactic| repeat (first
  | refine (scan_calm (by rfl)).trans ?_ | refine scan_lb.trans ?_ | refine scan_rb.trans ?_
  | refine (scan_use (by rfl) (by simp) (by simp [in_cons, h1, h2])).trans ?_
  | refine (scan_decl (by rfl) (by simp) (by simp)).trans ?_))

/-- `if (test)` and something behind it. -/
theorem closed_if {ts test : Toks} (ht : Calm test) (h : Closed' (.rp :: ts)) : Closed' ([.kIf, .lp] ++ test ++ .rp :: ts) :=
  (Closed'.calm (Calm.append (by simp [Calm, neutral]) ht)).append h

theorem scan_app {st st1 : Sc} {r : Option Sc} {ts ts' : Toks} {y : Tok} (h : Sc.scan x st ts = some st1) (hy : ts.getLastD x = y) (h' : Sc.scan y st1 ts' = r) : Sc.scan x st (ts ++ ts') = r := by
  rw [scan_append, h, Option.bind_some, hy, h']

theorem last_cons (t : Tok) (a : Toks) (y : Tok) : (t :: a).getLastD y = a.getLastD t := by cases a <;> rfl

theorem last_app (a b : Toks) (y : Tok) : (a ++ b).getLastD y = b.getLastD (a.getLastD y) := by
  induction a generalizing y with
  | nil => rfl
  | cons t a ih => rw [List.cons_append, last_cons, last_cons, ih]

theorem last_push (w : Word) (v q : Toks) (y : Tok) : (pushItem w v q).getLastD y = .semi := by
  unfold pushItem
  rw [last_app]
  rfl

theorem last_start (v : Toks) (y : Tok) : (startAs v).getLastD y = .semi := by
  unfold startAs
  rw [last_app]
  rfl

/-- The variables of an operator's block. -/
def inBlock : List Var := [(.«br», 0), (.«last», 0), (.«priority», 0)]

theorem head_scan {a : List Var} (h1 : (.«opStack», 0) ∈ a ∨ In (.«opStack», 0) l) (r : Row) : Sc.scan x (At [] (a :: l) p b) (opHead r) = some (At [] ([] :: inBlock :: a :: l) p b) := by
  have h2 := True.intro
  simp only [nm, opHead, lastN, popBack, endOf, List.cons_append, List.nil_append]
  walk
  rfl

theorem close_scan {V a : List Var} (h1 : (.«opStack», 0) ∈ a ∨ In (.«opStack», 0) l) : Sc.scan .semi (At V ([] :: inBlock :: a :: l) p b) opClose = some (At inBlock (a :: l) p b) := by
  have h2 := True.intro
  simp only [nm, opClose, lastN, popBack, endOf, inBlock, List.cons_append, List.nil_append]
  walk
  rfl

/-- Expressions about `opStack`. -/
theorem field_scan {a : List Var} (h1 : (.«opStack», 0) ∈ a ∨ In (.«opStack», 0) l) (hx : declares x = false) (n : Nat) : Sc.scan x (At a l p b) (binaryField n) = some (At a l p b) ∧ Sc.scan x (At a l p b) (anyField n) = some (At a l p b) := by
  have h2 := True.intro
  constructor
  · simp only [nm, binaryField, kindIs, fieldOf, lastN, List.cons_append, List.nil_append]
    refine (scan_use hx (by simp) (by simp [h1])).trans ?_
    walk
    rfl
  · simp only [nm, anyField, binaryField, kindIs, fieldOf, lastN, List.cons_append, List.nil_append]
    refine (scan_use hx (by simp) (by simp [h1])).trans ?_
    walk
    rfl

theorem below_scan {a : List Var} (h1 : (.«opStack», 0) ∈ a ∨ In (.«opStack», 0) l) (k : Word) (n : Nat) {field q : Toks} (hf : field = binaryField n ∨ field = anyField n) (hq : q = [.w .«-2»] ∨ q = [nm .«priority»]) :
    Sc.scan x (At inBlock (a :: l) p b) (opBelow k n field q) = some (At [(.«ref», 0)] (inBlock :: a :: l) p b) := by
  have h2 := True.intro
  unfold opBelow
  simp only [List.append_assoc]
  have e1 : Sc.scan x (At inBlock (a :: l) p b) ([.kIf, .lp, .w .«!», nm .«br», .rp, .lb] ++ (lastN ++ ([.w .«->», .w .«endToken», .w .«=»] ++ (endOf (nm .«last») ++ [.semi, .w .«AstNode», .w .«*&», nm .«ref», .w .«=»])))) = some (At [(.«ref», 0)] (inBlock :: a :: l) p b) := by
    simp only [nm, lastN, endOf, inBlock, List.cons_append, List.nil_append]
    walk
    rfl
  have e2 : Sc.scan (.w .«=») (At [(.«ref», 0)] (inBlock :: a :: l) p b) field = some (At [(.«ref», 0)] (inBlock :: a :: l) p b) := by
    have h := field_scan (x := .w .«=») (a := [(.«ref», 0)]) (l := inBlock :: a :: l) (p := p) (b := b) (by simp [in_cons, h1]) rfl n
    rcases hf with rfl | rfl
    · exact h.1
    · exact h.2
  have e3 : Sc.scan (field.getLastD (.w .«=»)) (At [(.«ref», 0)] (inBlock :: a :: l) p b) (.semi :: pushItem .«push_back» (nm .«ref» :: .w .«=» :: createOn k n) q) = some (At [(.«ref», 0)] (inBlock :: a :: l) p b) := by
    rcases hq with rfl | rfl <;>
    · simp only [nm, pushItem, createOn, inBlock, List.cons_append, List.nil_append]
      walk
      rfl
  have := scan_app e1 rfl (scan_app e2 rfl e3)
  simpa only [List.append_assoc] using this

/-- A block of a postfix, binary or ternary operator: `m` is written if the stack is emptied, `t` behind the last push. -/
theorem op_closed {r : Row} (V : List Var) {m t field q test : Toks} {k : Word} {n : Nat} (ht : Calm test) (hf : field = binaryField n ∨ field = anyField n) (hq : q = [.w .«-2»] ∨ q = [nm .«priority»]) (hm' : m.getLastD .semi = .semi)
    (hm : ∀ a l p b, Ready a l → Sc.scan .semi (At [] ([] :: inBlock :: a :: l) p b) m = some (At V ([] :: inBlock :: a :: l) p b))
    (hl : ∀ a l p b, Ready a l → Sc.scan .semi (At [(.«ref», 0)] (inBlock :: a :: l) p b) t = some (At a l p b)) :
    Closed' ([.kIf, .lp] ++ test ++ [.rp, .lb] ++ opHead r ++ m ++ opClose ++ opBelow k n field q ++ t) := by
  have : Closed' (.rp :: .lb :: (opHead r ++ (m ++ (opClose ++ (opBelow k n field q ++ t))))) := by
    intro a l p b hr x
    refine (scan_calm (by rfl)).trans (scan_lb.trans ?_)
    refine scan_app (head_scan hr.1 r) (y := .semi) rfl (scan_app (hm a l p b hr) hm' (scan_app (close_scan hr.1) (y := .rb) rfl (scan_app (below_scan hr.1 k n hf hq) (y := .semi) ?_ (hl a l p b hr))))
    rw [opBelow, last_app, last_cons, last_push]
  have := closed_if ht this
  simpa only [List.append_assoc, List.cons_append, List.nil_append] using this

theorem post_closed (n : Nat) (r : Row) : Closed' (postToks o K n r) := by
  have := op_closed (r := r) [] (k := .«Postfix») (n := n) (calm_opTest (o := o) (K := K) r.tok r.ask) (.inl rfl) (.inl rfl)
    (m := pushItem .«push_front» ([.lp, .w .«*», .w .«yynode», .rp, .w .«=»] ++ createOn .«Postfix» n) [.w .«-2»] ++ yynode ++ [.w .«endToken», .w .«=»] ++ endOf (nm .«last») ++ [.w .«+», .w .«1», .semi] ++ startAs yynode)
    (t := endOf (nm .«ref») ++ .w .«=» :: endOf (nm .«last») ++ [.w .«+», .w .«1», .semi] ++ startAs [nm .«ref», .w .«->»] ++ .rb :: lexToks ++ [.rb]) (by rw [last_app, last_start])
    (by
      intro a l p b hr
      obtain ⟨h1, h2⟩ := hr
      simp only [nm, pushItem, createOn, endOf, startAs, yynode, inBlock, List.cons_append, List.nil_append]
      walk
      rfl)
    (by
      intro a l p b hr
      obtain ⟨h1, h2⟩ := hr
      simp only [nm, endOf, startAs, lexToks, inBlock, List.cons_append, List.nil_append]
      walk
      rfl)
  simpa only [postToks, List.append_assoc, List.cons_append, List.nil_append] using this

theorem bin_closed (n : Nat) (r : Row) : Closed' (binToks o K n r) := by
  have := op_closed (r := r) [] (k := .«Binary») (n := n) (calm_opTest (o := o) (K := K) r.tok r.ask) (.inr rfl) (.inr rfl)
    (m := pushItem .«push_front» ([.lp, .w .«*», .w .«yynode», .rp, .w .«=»] ++ createOn .«Binary» n) [nm .«priority»] ++ startAs yynode)
    (t := startAs [nm .«ref», .w .«->»] ++ [.rb, nm .«expectOperator», .w .«=», .w .«false», .semi] ++ lexToks ++ [.rb]) (by rw [last_app, last_start])
    (by
      intro a l p b hr
      obtain ⟨h1, h2⟩ := hr
      simp only [nm, pushItem, createOn, startAs, yynode, inBlock, List.cons_append, List.nil_append]
      walk
      rfl)
    (by
      intro a l p b hr
      obtain ⟨h1, h2⟩ := hr
      simp only [nm, startAs, lexToks, inBlock, List.cons_append, List.nil_append]
      walk
      rfl)
  simpa only [binToks, List.append_assoc, List.cons_append, List.nil_append] using this

/-- A call declares its variable. -/
theorem call_scan (ha : o.ast = true) {a : List Var} {n s d : Nat} (hd : (.«__node_», d) ∉ a) : Sc.scan x (At a l p b) (callToks o n s 0 d) = some (At ((.«__node_», d) :: a) l p b) := by
  have h1 := True.intro
  have h2 := True.intro
  unfold callToks guarded
  rw [if_pos ha]
  refine (scan_calm (by rfl)).trans ((scan_calm (by rfl)).trans ((scan_decl (by rfl) (by simp) hd).trans ?_))
  cases o.args n <;> cases o.mgmt <;>
  · simp only [if_true, if_false, Bool.false_eq_true, List.cons_append, List.nil_append, List.append_nil]
    walk
    rfl

theorem last_call (n s d : Nat) (y : Tok) : (callToks o n s 0 d).getLastD y = .rb := by
  unfold callToks
  rw [last_app, if_pos rfl, last_cons, last_app]
  rfl

theorem scan_calms {st : Sc} {ts ts' : Toks} {r : Option Sc} (h : Calm ts) (h' : Sc.scan (ts.getLastD x) st ts' = r) : Sc.scan x st (ts ++ ts') = r := scan_app (goes_neutral h x) rfl h'

theorem tern_closed (ha : o.ast = true) (self n : Nat) (r : Row) (d : Nat) : Closed' (ternToks o K self n r d) := by
  have hv : varToks o d = [.num .«__node_» d] := by rw [varToks, if_pos ha]
  have := op_closed (r := r) [(.«__node_», d)] (k := .«Ternary») (n := n) (calm_opTest (o := o) (K := K) r.tok r.ask) (.inr rfl) (.inr rfl)
    (m := (pushItem .«push_front» ([.lp, .w .«*», .w .«yynode», .rp, .w .«=»] ++ createOn .«Ternary» n) [nm .«priority»] ++ startAs yynode ++ lexToks) ++
      (callToks o n self 0 d ++ (([.kIf, .lp, .w .«!», .lp] ++ opTest o K r.tok2 r.ask2) ++ ([.rp, .rp, .kReturn, .w .«false», .semi, .lp, .lp, .sym .«Ternary» n, .w .«*», .rp, .w .«*», .w .«yynode», .rp, .w .«->», .w .«second», .w .«=»] ++
      varToks o d ++ [.semi]))))
    (t := startAs [nm .«ref», .w .«->»] ++ [.rb, nm .«expectOperator», .w .«=», .w .«false», .semi] ++ lexToks ++ [.rb]) (by
      rw [last_app, last_app, last_app, last_app]
      rfl)
    (by
      intro a l p b hr
      obtain ⟨h1, h2⟩ := hr
      refine scan_app (st1 := At [] ([] :: inBlock :: a :: l) p b) ?_ rfl (scan_app (call_scan ha (by simp)) (last_call _ _ _ _) (scan_calms (Calm.append (by simp [Calm, neutral]) (calm_opTest _ _)) ?_))
      · simp only [nm, pushItem, createOn, startAs, yynode, lexToks, inBlock, List.cons_append, List.nil_append]
        walk
        rfl
      · rw [hv]
        simp only [List.cons_append, List.nil_append]
        walk
        rfl)
    (by
      intro a l p b hr
      obtain ⟨h1, h2⟩ := hr
      simp only [nm, startAs, lexToks, inBlock, List.cons_append, List.nil_append]
      walk
      rfl)
  simpa only [ternToks, List.append_assoc, List.cons_append, List.nil_append] using this

/-- The free field of the last node is filled; `v` is a variable. -/
theorem fill_scan {a : List Var} (h1 : (.«opStack», 0) ∈ a ∨ In (.«opStack», 0) l) {w : Word} {i : Nat} (hw : w ≠ .«__catch_») (hv : (w, i) ∈ a ∨ In (w, i) l) (n : Nat) :
    Sc.scan x (At a l p b) (fillField n [.num w i]) = some (At a l p b) := by
  have h2 := hv
  simp only [nm, fillField, castField, lastN, List.cons_append, List.nil_append]
  repeat (first
    | refine (scan_calm (by rfl)).trans ?_ | refine scan_lb.trans ?_ | refine scan_rb.trans ?_
    | refine (scan_use (by rfl) (by simp [hw]) (by simp [in_cons, h1, h2])).trans ?_
    | refine (scan_decl (by rfl) (by simp) (by simp)).trans ?_)
  rfl

theorem last_fill (n : Nat) (v : Toks) (y : Tok) : (fillField n v).getLastD y = .rb := by
  unfold fillField
  rw [last_app]
  rfl

theorem unary_scan {a : List Var} (h1 : (.«opStack», 0) ∈ a ∨ In (.«opStack», 0) l) {w : Word} {i : Nat} (hw : w ≠ .«__catch_») (hv : (w, i) ∈ a ∨ In (w, i) l) (n : Nat) :
    Sc.scan x (At a l p b) (pushUnary n [.num w i]) = some (At a l p b) := by
  have h2 := hv
  unfold pushUnary
  rw [List.append_assoc, List.append_assoc, List.append_assoc]
  refine scan_app (st1 := At a l p b) (y := .rp) ?_ rfl (scan_app (fill_scan h1 hw hv n) (last_fill _ _ _) ?_)
  · simp only [nm]
    walk
    rfl
  · simp only [nm, pushItem, List.cons_append, List.nil_append]
    repeat (first
      | refine (scan_calm (by rfl)).trans ?_
      | refine (scan_use (by rfl) (by simp [hw]) (by simp [h1, h2])).trans ?_)
    rfl

theorem last_unary (n : Nat) (v : Toks) (y : Tok) : (pushUnary n v).getLastD y = .semi := by
  unfold pushUnary
  rw [last_app, last_cons, last_push]

theorem pre_closed (n : Nat) (r : Row) : Closed' (preToks o K n r) := by
  have : Closed' (.rp :: ([.lb, .w .«const», .w .«unsigned», .w .«int», nm .«priority», .w .«=», .sym .«literal» r.prio, .semi, .code r.tok,
    .sym .«Prefix» n, .w .«*», nm .«node», .w .«=», .w .«create», .w .«<», .sym .«Prefix» n, .w .«>», .lp, .rp, .semi,
    .kIf, .lp, nm .«opStack», .w .«.», .w .«empty», .lp, .rp, .rp, .lp, .w .«*», .w .«yynode», .rp, .w .«=», nm .«node», .semi, .kElse] ++ (fillField n [nm .«node»] ++
  (pushItem .«push_back» [nm .«node»] [nm .«priority»] ++ [nm .«node», .w .«->», .w .«startToken», .w .«=»] ++ here ++ .semi :: lexToks ++ [.rb])))) := by
    intro a l p b hr x
    obtain ⟨h1, h2⟩ := hr
    refine (scan_calm (by rfl)).trans (scan_app (st1 := At [(.«node», 0), (.«priority», 0)] (a :: l) p b) ?_ rfl (scan_app (st1 := At [(.«node», 0), (.«priority», 0)] (a :: l) p b) (fill_scan ?_ (by simp) (by simp) n) (last_fill _ _ _) ?_))
    · simp only [nm]
      walk
      rfl
    · simp [in_cons, h1]
    · simp only [nm, pushItem, here, lexToks, List.cons_append, List.nil_append]
      walk
      rfl
  have := closed_if (calm_opTest (o := o) (K := K) r.tok r.ask) this
  simpa only [preToks, List.append_assoc, List.cons_append, List.nil_append] using this

theorem paren_closed (ha : o.ast = true) (self n : Nat) (r : Row) (d : Nat) : Closed' (parenToks o K self n r d) := by
  have hv : varToks o d = [.num .«__node_» d] := by rw [varToks, if_pos ha]
  have : Closed' (.rp :: .lb :: ((lexToks ++ [.kIf, .lp] ++ testToks o K self ++ [.rp]) ++ (.lb :: (callToks o n self 0 d ++ (([.kIf, .lp, .w .«!», .lp] ++ opTest o K r.tok2 r.ask2) ++
  ([.rp, .rp, .lb, .kReturn, .w .«false», .semi, .rb, .w .«--»] ++ varToks o d ++ [.w .«->», .w .«startToken», .semi, .w .«++»] ++ varToks o d ++ [.w .«->», .w .«endToken», .semi] ++ lexToks ++
  (pushUnary n (varToks o d) ++ (expectTrue ++ [.rb, .kElse, .kReturn, .w .«false», .semi, .rb])))))))) := by
    intro a l p b hr x
    obtain ⟨h1, h2⟩ := hr
    refine (scan_calm (by rfl)).trans (scan_lb.trans ?_)
    refine scan_calms (Calm.append (Calm.append (Calm.append calm_lex (by simp [Calm, neutral])) (calm_test _)) (by simp [Calm, neutral])) (scan_lb.trans ?_)
    refine scan_app (call_scan ha (by simp)) (last_call _ _ _ _) (scan_calms (Calm.append (by simp [Calm, neutral]) (calm_opTest _ _)) ?_)
    rw [hv]
    refine scan_app (st1 := At [(.«__node_», d)] ([] :: a :: l) p b) (y := .semi) ?_ (by rw [last_app]; rfl) (scan_app (st1 := At [(.«__node_», d)] ([] :: a :: l) p b) (unary_scan ?_ (by simp) (by simp) n) (last_unary _ _ _) ?_)
    · simp only [lexToks, List.cons_append, List.nil_append]
      walk
      rfl
    · simp [in_cons, h1]
    · simp only [expectTrue, nm, List.cons_append, List.nil_append]
      walk
      rfl
  have := closed_if (calm_opTest (o := o) (K := K) r.tok r.ask) this
  simpa only [parenToks, List.append_assoc, List.cons_append, List.nil_append] using this

theorem base_closed (ha : o.ast = true) (n base sym d : Nat) : Closed' (baseToks o K n base sym d) := by
  have hv : varToks o d = [.num .«__node_» d] := by rw [varToks, if_pos ha]
  have : Closed' (.rp :: .lb :: (callToks o base sym 0 d ++ (pushUnary n (varToks o d) ++ (expectTrue ++
  [.rb, .kElse, .lb, .w .«expectedSymbol», .lp, .w .«AstNode», .w .«::», .sym .«Kind» n, .w .«,», .lit n, .rp, .semi, .kReturn, .w .«false», .semi, .rb])))) := by
    intro a l p b hr x
    obtain ⟨h1, h2⟩ := hr
    refine (scan_calm (by rfl)).trans (scan_lb.trans ?_)
    rw [hv]
    refine scan_app (call_scan ha (by simp)) (last_call _ _ _ _) (scan_app (st1 := At [(.«__node_», d)] (a :: l) p b) (unary_scan ?_ (by simp) (by simp) n) (last_unary _ _ _) ?_)
    · simp [in_cons, h1]
    · simp only [expectTrue, nm, List.cons_append, List.nil_append]
      walk
      rfl
  have := closed_if (calm_test (o := o) (K := K) sym) this
  simpa only [baseToks, List.append_assoc, List.cons_append, List.nil_append] using this

theorem row_closed (ha : o.ast = true) (self n : Nat) (r : Row) (d : Nat) : Closed' (rowToks o K self n r d).1 := by
  unfold rowToks
  split
  · exact post_closed n r
  · exact bin_closed n r
  · exact tern_closed ha self n r d
  · exact pre_closed n r
  · exact paren_closed ha self n r d

theorem rows_closed (ha : o.ast = true) (self n : Nat) : ∀ (rs : List Row) (d : Nat), Closed' (rowsToks o K self n rs d).1
  | [], _ => .calm .nil
  | r :: rs, d => (row_closed ha self n r d).append ((Closed'.calm (ts := [.kElse]) (by simp [Calm, neutral])).append (rows_closed ha self n rs _))

/-- The loop declares `expectOperator`. -/
theorem op_scan (ha : o.ast = true) {self n : Nat} {q : OpItem} {d : Nat} {ts : Toks} {d' : Nat} (h : opToks o K self n q d = some (ts, d')) {a : List Var} (h1 : (.«opStack», 0) ∈ a ∨ In (.«opStack», 0) l)
    (hn : (.«expectOperator», 0) ∉ a) : Sc.scan x (At a l p b) ts = some (At ((.«expectOperator», 0) :: a) l p b) := by
  have h2 := True.intro
  unfold opToks at h
  split at h
  · cases h
  obtain ⟨sym, -, h⟩ := Option.map_eq_some_iff.1 h
  cases h
  simp only [List.append_assoc]
  have R : ∀ l', Ready [] (l' :: ((.«expectOperator», 0) :: a) :: l) := fun l' => ⟨by simp [in_cons, h1], by simp [in_cons]⟩
  refine scan_app (st1 := At [] ([] :: ((.«expectOperator», 0) :: a) :: l) p b) (y := .lb) ?_ rfl (scan_app (rows_closed ha _ _ _ _ _ _ _ _ (R _) _) rfl (scan_app (st1 := At [] ([] :: ((.«expectOperator», 0) :: a) :: l) p b) (y := .lb) ?_ rfl
    (scan_app (rows_closed ha _ _ _ _ _ _ _ _ (R _) _) rfl (scan_app (base_closed ha _ _ _ _ _ _ _ _ (R _) _) rfl ?_))))
  · simp only [nm]
    refine (scan_calm (by rfl)).trans ((scan_decl (by rfl) (by simp) hn).trans ?_)
    walk
    rfl
  · walk
    rfl
  · walk
    rfl

end
end Verif.GenText
