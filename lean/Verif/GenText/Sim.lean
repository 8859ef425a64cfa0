import Verif.GenText.SimLemmas

/-! # The text of parse functions and the statements of `Gen` -/

namespace Verif.GenText

open Verif.Grammar
open Verif.Gen (Env Ctx Stmt State Out Test exec step andThen lookup leave complain parseFun ofSet testOf altTest ruleTest isCond flatten gen genAlts genRule genRules rulesOf)
open Spec

/-! ### Conditions -/

def sorted (o : Opts) (W : World) (s : List Nat) : List Nat := (s.filter (isTerm W)).mergeSort o.le

def setTree (o : Opts) (W : World) (s : List Nat) : Tree := if s.all fun x => W.node x = some .zero then .const true else orTree (sorted o W s)
def setTo (o : Opts) (W : World) (s : List Nat) (e : Tree) : Tree := if s.all fun x => W.node x = some .zero then .or (.const true) e else orTo (sorted o W s) e
def testTree (o : Opts) (K : Ctx) (n : Nat) : Tree := if K.W.node n = some .term then .is n else setTree o K.W (K.F.of n)
def testTo (o : Opts) (K : Ctx) (n : Nat) (e : Tree) : Tree := if K.W.node n = some .term then .or (.is n) e else setTo o K.W (K.F.of n) e
def altTree (o : Opts) (K : Ctx) (n : Nat) : Tree := if isCond K.W n then .and (testTree o K n) (.ask n) else testTree o K n

/-- The set has only terminals and the empty word. -/
def Terms (W : World) (s : List Nat) : Prop := ∀ x ∈ s, isTerm W x = true ∨ W.node x = some .zero

theorem sorted_ne {o : Opts} {W : World} {s : List Nat} (hs : Terms W s) (h : ¬ (s.all fun x => W.node x = some .zero) = true) : sorted o W s ≠ [] := by
  intro e
  refine h (List.all_eq_true.2 fun x hx => ?_)
  rcases hs x hx with h1 | h1
  · have : x ∈ sorted o W s := (List.mergeSort_perm _ _).mem_iff.2 (List.mem_filter.2 ⟨hx, h1⟩)
    rw [e] at this
    cases this
  · simpa using h1

theorem read_set {o : Opts} {W : World} {s : List Nat} (hs : Terms W s) {r : Toks} (hr : Closed r) : Reads .disj (setToks o W s ++ r) (setTree o W s) r := by
  unfold setToks setTree
  split
  · exact prim_disj .true hr
  · next h => exact read_is (sorted_ne hs h) hr

theorem read_setTo {o : Opts} {W : World} {s : List Nat} (hs : Terms W s) {r r' : Toks} {e : Tree} (h : Reads .disj r e r') : Reads .disj (setToks o W s ++ .w .«||» :: r) (setTo o W s e) r' := by
  unfold setToks setTo
  split
  · exact prim_or .true h
  · next hz => exact read_isTo (sorted_ne hs hz) h

theorem read_test {o : Opts} {K : Ctx} {n : Nat} (hs : Terms K.W (K.F.of n)) {r : Toks} (hr : Closed r) : Reads .disj (testToks o K n ++ r) (testTree o K n) r := by
  unfold testToks testTree
  split
  · exact read_is (ns := [n]) (by simp) hr
  · exact read_set hs hr

theorem read_testTo {o : Opts} {K : Ctx} {n : Nat} (hs : Terms K.W (K.F.of n)) {r r' : Toks} {e : Tree} (h : Reads .disj r e r') : Reads .disj (testToks o K n ++ .w .«||» :: r) (testTo o K n e) r' := by
  unfold testToks testTo
  split
  · exact read_isTo (ns := [n]) (by simp) h
  · exact read_setTo hs h

/-- `(t) && (ask)` -/
theorem read_user {ts : Toks} {t : Tree} {n : Nat} (h : ∀ r, Closed r → Reads .disj (ts ++ r) t r) {r : Toks} (hr : Closed r) :
    Reads .disj (.lp :: (ts ++ [.rp, .w .«&&», .lp, .ask n, .rp]) ++ r) (.and t (.ask n)) r := by
  have h1 : Reads .prim (.lp :: (ts ++ .rp :: .w .«&&» :: .lp :: .ask n :: .rp :: r)) t (.w .«&&» :: .lp :: .ask n :: .rp :: r) := .paren (h _ closed_rp)
  have h2 : Reads .prim (.lp :: .ask n :: .rp :: r) (.ask n) r := .paren (prim_disj .ask closed_rp)
  have := Reads.disj1 (.conj2 h1 (.conj1 h2 hr.1)) hr.2
  simpa only [List.append_assoc, List.cons_append, List.nil_append] using this

theorem read_alt {o : Opts} {K : Ctx} {n : Nat} (hs : Terms K.W (K.F.of n)) {r : Toks} (hr : Closed r) : Reads .disj (altToks o K n ++ r) (altTree o K n) r := by
  unfold altToks altTree
  split
  · exact read_user (fun r hr => read_test hs hr) hr
  · exact read_test hs hr

section
variable {E : Env} {F : Nat → Option Tree} {X : Nat → CState → Bool → CState → Prop}

theorem run_or {σ : CState} : ∀ {ns : List Nat}, ns ≠ [] → Run E F X (.cond (orTree ns)) σ (.val (decide (E.inp σ.pos ∈ ns))) σ
  | [n], _ => by
    have : Run E F X (.cond (.is n)) σ (.val (E.inp σ.pos = n)) σ := .is
    rw [show decide (E.inp σ.pos ∈ [n]) = decide (E.inp σ.pos = n) by simp]
    exact this
  | n :: m :: ns, _ => by
    have h : Run E F X (.cond (.is n)) σ (.val (E.inp σ.pos = n)) σ := .is
    have h' := run_or (σ := σ) (ns := m :: ns) (by simp)
    by_cases e : E.inp σ.pos = n
    · rw [show decide (E.inp σ.pos ∈ n :: m :: ns) = true by simp [e]]
      exact .orStop (by simpa [e] using h)
    · rw [show decide (E.inp σ.pos ∈ n :: m :: ns) = decide (E.inp σ.pos ∈ m :: ns) by simp [e]]
      exact .orGo (by simpa [e] using h) h'

theorem run_orTo {σ : CState} {b : Bool} {σ' : CState} {e : Tree} (he : Run E F X (.cond e) σ (.val b) σ') : ∀ {ns : List Nat}, (E.inp σ.pos ∈ ns → Run E F X (.cond (orTo ns e)) σ (.val true) σ) ∧ (E.inp σ.pos ∉ ns → Run E F X (.cond (orTo ns e)) σ (.val b) σ')
  | [] => ⟨nofun, fun _ => he⟩
  | n :: ns => by
    have h : Run E F X (.cond (.is n)) σ (.val (E.inp σ.pos = n)) σ := .is
    obtain ⟨h1, h2⟩ := run_orTo he (ns := ns)
    by_cases e : E.inp σ.pos = n
    · exact ⟨fun _ => .orStop (by simpa [e] using h), fun h => absurd (by simp [e]) h⟩
    · refine ⟨fun h' => .orGo (by simpa [e] using h) (h1 ?_), fun h' => .orGo (by simpa [e] using h) (h2 ?_)⟩
      · simpa [e] using h'
      · simpa [e] using h'

theorem mem_sorted {o : Opts} {W : World} {s : List Nat} {x : Nat} : x ∈ sorted o W s ↔ x ∈ s.filter (isTerm W) := (List.mergeSort_perm _ _).mem_iff

theorem cond_set {o : Opts} {W : World} {s : List Nat} (hs : Terms W s) : CondOk E F X (ofSet W s) (setTree o W s) := by
  intro σ
  unfold ofSet setTree
  split
  · exact .const
  · next h =>
    have := run_or (E := E) (F := F) (X := X) (σ := σ) (sorted_ne (o := o) hs h)
    rw [show decide (E.inp σ.pos ∈ sorted o W s) = decide (E.inp σ.pos ∈ s.filter (isTerm W)) from decide_eq_decide.2 mem_sorted] at this
    exact this

theorem cond_or {a b : Test} {e : Tree} (hb : CondOk E F X b e) {ts ns : List Nat} (ha : a = .toks ts) (h : ∀ x, x ∈ ns ↔ x ∈ ts) : CondOk E F X (.or a b) (orTo ns e) := by
  subst ha
  intro σ
  obtain ⟨h1, h2⟩ := run_orTo (hb σ) (ns := ns)
  by_cases hm : E.inp σ.pos ∈ ts
  · have := h1 ((h _).2 hm)
    simpa [Test.eval, hm] using this
  · have := h2 fun h' => hm ((h _).1 h')
    simpa [Test.eval, hm] using this

theorem cond_setTo {o : Opts} {W : World} {s : List Nat} {b : Test} {e : Tree} (hb : CondOk E F X b e) : CondOk E F X (.or (ofSet W s) b) (setTo o W s e) := by
  unfold ofSet setTo
  split
  · intro σ
    exact .orStop .const
  · exact cond_or hb rfl fun x => mem_sorted

theorem cond_test {o : Opts} {K : Ctx} {n : Nat} (hs : Terms K.W (K.F.of n)) : CondOk E F X (testOf K n) (testTree o K n) := by
  unfold testOf testTree
  split
  · intro σ
    have := run_or (E := E) (F := F) (X := X) (σ := σ) (ns := [n]) (by simp)
    exact this
  · exact cond_set hs

theorem cond_testTo {o : Opts} {K : Ctx} {n : Nat} {b : Test} {e : Tree} (hb : CondOk E F X b e) : CondOk E F X (.or (testOf K n) b) (testTo o K n e) := by
  unfold testOf testTo
  split
  · exact cond_or (ns := [n]) hb rfl fun x => Iff.rfl
  · exact cond_setTo hb

theorem cond_user {a : Test} {e : Tree} {n : Nat} (ha : CondOk E F X a e) : CondOk E F X (.user a) (.and e (.ask n)) := by
  intro σ
  have h := ha σ
  cases hv : a.eval E σ.pos σ.asked with
  | mk v k =>
    rw [hv] at h
    have e1 : Test.eval E σ.pos (.user a) σ.asked = match (v, k) with
      | (true, k') => (E.oracle k', k' + 1)
      | (false, k') => (false, k') := by rw [← hv]; rfl
    rw [e1]
    cases v with
    | true => exact .andGo h .ask
    | false => exact .andStop h

theorem cond_alt {o : Opts} {K : Ctx} {n : Nat} (hs : Terms K.W (K.F.of n)) : CondOk E F X (altTest K n) (altTree o K n) := by
  unfold altTest altTree
  split
  · exact cond_user (cond_test hs)
  · exact cond_test hs

theorem cond_rule {o : Opts} {K : Ctx} {r i s : Nat} {t : Toks} (hs : ∀ n, Terms K.W (K.F.of n)) (hs' : ∀ n, Terms K.W (K.S.of n)) (h : ruleToks o K r i s = some t) :
    ∃ a e, ruleTest K r i s = some a ∧ (∀ r, Closed r → Reads .disj (t ++ r) e r) ∧ CondOk E F X a e := by
  simp only [ruleToks, Option.map_eq_some_iff] at h
  obtain ⟨z, hz, rfl⟩ := h
  simp only [ruleTest, hz, Option.map_some]
  have key : ∃ e, (∀ q, Closed q → Reads .disj ((testToks o K r ++ if z = true then .w .«||» :: setToks o K.W (K.S.of s) else []) ++ q) e q) ∧
      CondOk E F X (if z = true then .or (testOf K r) (ofSet K.W (K.S.of s)) else testOf K r) e := by
    cases z with
    | false => exact ⟨testTree o K r, fun q hq => by simpa using read_test (hs r) hq, cond_test (hs r)⟩
    | true =>
      refine ⟨testTo o K r (setTree o K.W (K.S.of s)), fun q hq => ?_, cond_testTo (cond_set (hs' s))⟩
      simpa only [if_true, List.append_assoc, List.cons_append] using read_testTo (hs r) (read_set (hs' s) hq)
  obtain ⟨e, h1, h2⟩ := key
  by_cases hc : isCond K.W i = true
  · refine ⟨_, .and e (.ask i), rfl, fun q hq => ?_, ?_⟩
    · rw [if_pos hc]
      exact read_user h1 hq
    · rw [if_pos hc]
      exact cond_user h2
  · refine ⟨_, e, rfl, fun q hq => ?_, ?_⟩
    · rw [if_neg hc]
      exact h1 q hq
    · rw [if_neg hc]
      exact h2

end

/-! ### Pieces of text -/

theorem Series.simple {t : Tok} {e : Toks} (h : ∀ x ∈ t :: e, plain x = true) : Series (t :: e ++ [.semi]) [.simple (t :: e)] := (One.simple h).series

theorem Series.silent {e : Toks} (h : Silent e) : Series (e ++ [.semi]) [.simple e] := by
  have hh : ∀ x ∈ here, plain x = true := by decide
  have hy : ∀ x ∈ yynode, plain x = true := by decide
  have key : ∀ {e : Toks}, e ≠ [] → (∀ x ∈ e, plain x = true) → Series (e ++ [.semi]) [.simple e] := fun {e} h0 h => by
    cases e with
    | nil => exact absurd rfl h0
    | cons => exact Series.simple h
  have hx : ∀ {x : Toks}, x = [] ∨ x = yynode → ∀ t ∈ x, plain t = true := fun h t ht => by
    rcases h with rfl | rfl
    · cases ht
    · exact hy t ht
  have hv : ∀ {v : Toks}, (v = here ∨ ∃ i, v = [.num .«__node_» i]) → ∀ t ∈ v, plain t = true := fun h t ht => by
    rcases h with rfl | ⟨i, rfl⟩
    · exact hh t ht
    · cases List.mem_singleton.1 ht; rfl
  cases h with
  | put h1 h2 n =>
    refine key (by simp) fun t ht => ?_
    simp only [List.mem_append, List.mem_cons] at ht
    rcases ht with ht | rfl | rfl | ht
    · exact hx h1 t ht
    · rfl
    · rfl
    · exact hv h2 t ht
  | add h1 h2 n =>
    refine key (by simp) fun t ht => ?_
    simp only [List.mem_append, List.mem_cons, List.not_mem_nil, or_false] at ht
    rcases ht with (((((ht | ht) | ht) | ht) | ht) | ht) | ht
    · exact hx h1 t ht
    · rcases ht with rfl | rfl | rfl <;> rfl
    · rcases ht with rfl | rfl <;> rfl
    · exact hx h1 t ht
    · rcases ht with rfl | rfl | rfl <;> rfl
    · exact hv h2 t ht
    · rcases ht with rfl | rfl | rfl <;> rfl
  | _ => exact key (by simp [yynode]) (by simp [yynode, here, plain])

theorem lex_one : One lexToks (.simple [.w .yylex, .lp, .rp]) := One.simple (t := .w .yylex) (e := [.lp, .rp]) (by simp [plain])

/-- What is done if a part is missing. -/
def guardTrees (o : Opts) (e : Toks) : List Tree := if o.mgmt then [.ite .loud (body [.simple e]) .skip] else [.simple e]

theorem guard_series {o : Opts} {t : Tok} {e : Toks} (h : ∀ x ∈ t :: e, plain x = true) : Series (guarded o (t :: e)) (guardTrees o (t :: e)) := by
  unfold guarded guardTrees
  split
  · have := One.ifOnly (c := [.w .«!», .w .«mBlockErrors»]) (fun r => prim_disj .loud closed_rp) (One.block (Series.simple h))
    simpa only [List.append_assoc, List.cons_append, List.nil_append] using this.series
  · exact Series.simple h

def errTree (o : Opts) (e : Toks) : Tree := body (guardTrees o e ++ [.ret false])

theorem err_one {o : Opts} {t : Tok} {e : Toks} (h : ∀ x ∈ t :: e, plain x = true) : One (.lb :: (guarded o (t :: e) ++ [.kReturn, .w .«false», .semi, .rb])) (errTree o (t :: e)) := by
  have := One.block ((guard_series (o := o) h).append One.ret.series)
  simpa only [errTree, List.append_assoc, List.cons_append, List.nil_append] using this

def tokMsg (n : Nat) : Toks := [.w .«expectedToken», .lp, .w .«yytoken», .w .«,», .sym .«Token_» n, .w .«,», .w .«QStringLiteral», .lp, .lit n, .rp, .rp]
def symMsg (s : Nat) : Toks := [.w .«expectedSymbol», .lp, .w .«AstNode», .w .«::», .sym .«Kind» s, .w .«,», .w .«QStringLiteral», .lp, .lit s, .rp, .rp]

def tokErr (o : Opts) (n c : Nat) : Tree := if c = 0 then errTree o (tokMsg n) else .goto c
def callErr (o : Opts) (s c : Nat) : Tree := if c = 0 then errTree o (symMsg s) else body [.goto c]

theorem tok_one (o : Opts) (n c : Nat) : One (tokToks o n c) (.ite (.isNot n) (tokErr o n c) .skip) := by
  unfold tokToks tokErr
  split
  · have := One.ifOnly (c := [.w .«yytoken», .w .«!=», .sym .«Token_» n]) (fun r => prim_disj .isNot closed_rp) (err_one (o := o) (e := (tokMsg n).tail) (t := .w .«expectedToken») (by simp [tokMsg, plain]))
    simpa only [tokMsg, List.tail_cons, List.append_assoc, List.cons_append, List.nil_append] using this
  · have := One.ifOnly (c := [.w .«yytoken», .w .«!=», .sym .«Token_» n]) (fun r => prim_disj .isNot closed_rp) (One.goto c)
    simpa only [List.append_assoc, List.cons_append, List.nil_append] using this

def callTrees (o : Opts) (s c d : Nat) : List Tree :=
  (if o.ast then [.simple [.sym .«Ast» s, .w .«*», .num .«__node_» d, .w .«=», .w .«nullptr»]] else []) ++ [.ite (.fails s) (callErr o s c) .skip]

theorem call_series (o : Opts) (n s c d : Nat) : Series (callToks o n s c d) (callTrees o s c d) := by
  have herr : One (if c = 0 then .lb :: (guarded o (symMsg s) ++ [.kReturn, .w .«false», .semi, .rb]) else [.lb, .kGoto, .num .«__catch_» c, .semi, .rb]) (callErr o s c) := by
    unfold callErr
    split
    · exact err_one (o := o) (e := (symMsg s).tail) (t := .w .«expectedSymbol») (by simp [symMsg, plain])
    · exact One.block (One.goto c).series
  have hif : ∀ a : Toks, (∀ t ∈ a, t ≠ .lp ∧ t ≠ .rp) → Series ([.kIf, .lp, .w .«!», .sym .«parse» s, .lp] ++ a ++ [.rp, .rp] ++
      if c = 0 then .lb :: (guarded o (symMsg s) ++ [.kReturn, .w .«false», .semi, .rb]) else [.lb, .kGoto, .num .«__catch_» c, .semi, .rb]) [.ite (.fails s) (callErr o s c) .skip] := fun a ha => by
    have := One.ifOnly (c := [.w .«!», .sym .«parse» s, .lp] ++ a ++ [.rp]) (tc := .fails s) (fun r => prim_disj (by
      simpa only [List.append_assoc, List.cons_append, List.nil_append] using Reads.fails (r := .rp :: r) ha rfl) closed_rp) herr
    simpa only [List.append_assoc, List.cons_append, List.nil_append] using this.series
  unfold callToks callTrees
  by_cases h : o.ast = true
  · rw [if_pos h, if_pos h]
    have := (Series.silent (Silent.result (s := s) (i := d))).append (hif ([.w .«&», .num .«__node_» d] ++ if o.args n then [.w .«,», .args n] else []) (by
      split <;> simp))
    simpa only [List.append_assoc, List.cons_append, List.nil_append, symMsg] using this
  · rw [if_neg h, if_neg h]
    have := hif (if o.args n then [.args n] else []) (by split <;> simp)
    simpa only [List.append_assoc, List.cons_append, List.nil_append, symMsg] using this

def assign (o : Opts) (n : Nat) (v : Toks) : Toks :=
  let x := if o.member n then yynode else []
  if o.seq n then x ++ [.mem n, .w .«Sequence», .w .«=»] ++ [.w .«snoc», .lp] ++ x ++ [.mem n, .w .«Sequence», .w .«,»] ++ v ++ [.w .«,», .w .«memoryPool», .rp] else x ++ .mem n :: .w .«=» :: v

theorem assign_silent {o : Opts} {n : Nat} {v : Toks} (hv : v = here ∨ ∃ i, v = [.num .«__node_» i]) : Silent (assign o n v) := by
  unfold assign
  have hx : (if o.member n then yynode else []) = [] ∨ (if o.member n then yynode else []) = yynode := by split <;> simp
  simp only
  split
  · exact .add hx hv n
  · exact .put hx hv n

theorem local_series : ∀ l : List (Nat × Bool), ∃ es : List Toks, (∀ e ∈ es, Silent e) ∧ Series (localToks l) (es.map .simple)
  | [] => ⟨[], nofun, .nil⟩
  | (n, z) :: l => by
    obtain ⟨es, h1, h2⟩ := local_series l
    have h : ∃ e, Silent e ∧ ([.ty n, .mem n] ++ (if z then [.w .«=», .w .«0»] else []) ++ [.semi] : Toks) = e ++ [.semi] := by
      cases z
      · exact ⟨_, .declare, rfl⟩
      · exact ⟨_, .declare0, rfl⟩
    obtain ⟨e, h3, h4⟩ := h
    refine ⟨e :: es, fun x hx => ?_, ?_⟩
    · cases hx with
      | head => exact h3
      | tail _ hx => exact h1 x hx
    · show Series (([.ty n, .mem n] ++ (if z then [.w .«=», .w .«0»] else []) ++ [.semi]) ++ localToks l) _
      rw [h4]
      exact (Series.silent h3).append h2

theorem leave_one (c : Nat) : One (.lb :: leaveToks c ++ [.rb]) (if c = 0 then body [.ret false] else body [.goto c]) := by
  unfold leaveToks
  split
  · exact One.block One.ret.series
  · exact One.block (One.goto c).series

/-! ### Try blocks -/

theorem read_and {n : Nat} {ms : List Nat} {r : Toks} (hr : Closed r) :
    Reads .conj (.w .«yytoken» :: .w .«!=» :: .sym .«Token_» n :: (ms.flatMap (fun t => [.w .«&&», .w .«yytoken», .w .«!=», .sym .«Token_» t]) ++ r)) (andTree n ms) r := by
  induction ms generalizing n with
  | nil => exact .conj1 .isNot hr.1
  | cons m ms ih => exact .conj2 .isNot (ih (n := m))

theorem recover_series (o : Opts) (K : Ctx) (n i : Nat) : Series (recoverToks o K n i) [stepTree K.eofTok i, skipTree K.eofTok (sorted o K.W (K.S.of n))] := by
  have h1 : One ([.kIf, .lp] ++ (.num .«try_startToken_» i :: .w .«==» :: here ++ [.w .«&&», .w .«yytoken», .w .«!=», .sym .«Token_» K.eofTok]) ++ .rp :: lexToks) (stepTree K.eofTok i) :=
    One.ifOnly (fun r => .disj1 (.conj2 .same (.conj1 .isNot (by simp))) (by simp)) lex_one
  have h2 : One ([.kWhile, .lp] ++ (.w .«yytoken» :: .w .«!=» :: .sym .«Token_» K.eofTok :: (sorted o K.W (K.S.of n)).flatMap (fun t => [.w .«&&», .w .«yytoken», .w .«!=», .sym .«Token_» t])) ++
      .rp :: (.lb :: (lexToks ++ [.rb]))) (skipTree K.eofTok (sorted o K.W (K.S.of n))) :=
    One.while (fun r => .disj1 (by simpa only [List.cons_append] using read_and (r := .rp :: r) closed_rp) (by simp)) (One.block lex_one.series)
  have := h1.series.append h2.series
  simpa only [recoverToks, sorted, List.append_assoc, List.cons_append, List.nil_append] using this

theorem try_series {i : Nat} {tb ta th : Toks} {l la lh : List Tree} (hb : Series tb l) (ha : Series ta la) (hh : Series th lh) :
    Series (openToks i ++ tb ++ [.rb] ++ ta ++ deleteToks i ++ catchToks i ++ th ++ [.rb]) (tryTrees i l la (restoreTree i) lh) := by
  have h1 : Series (.w .«qint64» :: .num .«try_startToken_» i :: .w .«=» :: here ++ [.semi]) [saveTok i] := Series.simple (by simp [here, plain])
  have h2 : Series ([.w .«ParserState», .w .«*», .num .«try_startState_» i, .w .«=», .w .«copyCurrentState», .lp, .rp] ++ [.semi]) [saveState i] := Series.simple (by simp [plain])
  have hd : One ([.w .«delete», .num .«try_startState_» i] ++ [.semi]) (delTree i) := One.simple (by simp [plain])
  have hr : One ([.w .«restoreState», .lp, .num .«try_startState_» i, .rp] ++ [.semi]) (.simple [.w .«restoreState», .lp, .num .«try_startState_» i, .rp]) := One.simple (by simp [plain])
  have h3 := (One.ifOnly (c := [.num .«try_startState_» i]) (fun r => prim_disj .state closed_rp) hd).series
  have h4 := One.label i (One.ifOnly (c := [.num .«try_startState_» i]) (fun r => prim_disj .state closed_rp) (One.block (hr.series.append hd.series)))
  have h5 := (One.ifOnly (c := [.w .«false»]) (fun r => prim_disj .false closed_rp) (One.block (h4.series.append hh))).series
  have := h1.append (h2.append ((One.block hb).series.append (ha.append (h3.append h5))))
  simpa only [openToks, deleteToks, catchToks, tryTrees, restoreTree, List.append_assoc, List.cons_append, List.nil_append] using this

theorem block_series (i : Nat) : Series (blockToks i) [blockTree i] := Series.simple (t := .w .bool) (e := [.num .blockErrors_ i, .w .«=», .w .blockErrors, .lp, .w .true, .rp]) (by simp [plain])
theorem unblock_series (i : Nat) : Series (unblockToks i) [unblockTree i] := Series.simple (t := .w .blockErrors) (e := [.lp, .num .blockErrors_ i, .rp]) (by simp [plain])
theorem rewind_series (i : Nat) : Series (rewindToks i) [rewindTree i] := Series.simple (t := .w .rewind) (e := [.lp, .num .try_startToken_ i, .rp]) (by simp [plain])

end Verif.GenText
