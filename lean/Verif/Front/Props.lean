import Verif.Front.Simple

/-!
# C99: the rules as written and the nodes made for them
-/

namespace Verif.Front

open Verif.Grammar (Tables find World Der Wf)
open Verif.Syntax (Name Tok Rule)

/-- The terminals of the rules are declared. -/
def DeclaredIn (toks : List (Name × Name)) (rs : List Rule) : Prop := ∀ r ∈ rs, Terms (fun s => s ∈ toks.map (·.1)) r.item

theorem built_of {toks : List (Name × Name)} {ts : List Tok} {rs : List Rule} {st : St} (h : ActRs ts rs (({} : St).tokens toks) st) (hd : DeclaredIn toks rs) :
    Built st rs ∧ ∀ x, st.Knows x ↔ x ∈ toks.map (·.1) := by
  obtain ⟨h1, h2⟩ := tokens_built toks built_init
  have hk : ∀ x, (({} : St).tokens toks).Knows x ↔ x ∈ toks.map (·.1) := fun x => by rw [h2]; simp [St.Knows, find]
  have e : (({} : St).tokens toks).Knows = fun s => s ∈ toks.map (·.1) := funext fun x => propext (hk x)
  obtain ⟨h3, _, h4⟩ := actRs_built h h1 (by rw [e]; exact hd)
  exact ⟨h3, fun x => by rw [knows_eq h4]; exact hk x⟩

theorem handed_exists (st : St) : ∃ W, Handed st W :=
  ⟨_, st.rules, (List.range st.heap.length).filter fun n => match st.heap[n]? with | some (.plus _) => true | some (.star _) => true | some (.op _) => true | _ => false, .refl _,
    List.Pairwise.filter _ List.nodup_range, fun n hn => List.mem_range.1 (List.mem_filter.1 hn).1, fun n it hn hit => by
      refine List.mem_filter.2 ⟨List.mem_range.2 (get_lt hn), ?_⟩
      rw [hn]
      rcases hit with ⟨i, rfl⟩ | ⟨i, rfl⟩ | ⟨o, rfl⟩ <;> rfl, rfl⟩

theorem foldl_start (ns : List Nat) (W : World) : (ns.foldl Grammar.addBnf W).start = W.start := by
  induction ns generalizing W with
  | nil => rfl
  | cons n ns ih =>
    rw [List.foldl_cons, ih]
    unfold Grammar.addBnf; split <;> rfl

section
variable {toks : List (Name × Name)} {ts : List Tok} {rs : List Rule} {st : St} {W : World}

/-- C99: the actions can be run exactly if no bare code stands below `@`, the base of every operator rule is a symbol and no postfix operator has priority `0` without associativity: then no pointer is invalid
and only memory that was allocated is freed. -/
theorem C99_runs (h : Syntax.Rs true ts rs) (hd : DeclaredIn toks rs) : (∃ st, ActRs ts rs (({} : St).tokens toks) st) ↔ ∀ r ∈ rs, Valid r.item := by
  constructor
  · rintro ⟨st, h⟩ r hr
    obtain ⟨e, _, m, k, _, _, h3⟩ := (built_of h hd).1.rules.right r hr
    exact h3.valid
  · intro hv
    obtain ⟨h1, h2⟩ := tokens_built toks built_init
    have e : (({} : St).tokens toks).Knows = fun s => s ∈ toks.map (·.1) := funext fun x => propext (by rw [h2]; simp [St.Knows, find])
    exact actRs_exists h hv _ h1 (by rw [e]; exact hd)

/-- C99: the nodes are as the analyses expect them (the hypothesis `Wf` of C40 - C48). -/
theorem C99_well_formed (h : ActRs ts rs (({} : St).tokens toks) st) (hd : DeclaredIn toks rs) (hW : Handed st.finish.1 W) : Wf W := by
  obtain ⟨hb, _⟩ := built_of h hd
  obtain ⟨h1, _, h3, _, _, h6⟩ := finish_built hb
  obtain ⟨rules, ns, hp, hnd, hns, hall, rfl⟩ := hW
  refine Grammar.C43_well_formed (parsedOk h1.inv h3 fun r hr => ?_) ns hnd hns hall
  obtain ⟨_, _, m, k, h7, _⟩ := h1.rules.left r (hp.mem_iff.1 hr)
  exact ⟨m, k, h7⟩

/-- C99: the symbols of the rules are nodes, different for different names, and a word of terminals is derived from the node exactly if the names of the terminals are a sentence by the rules as written. -/
theorem C99_sentences (h : ActRs ts rs (({} : St).tokens toks) st) (hd : DeclaredIn toks rs) (hW : Handed st.finish.1 W) :
    (∀ r ∈ rs, ∃ k, find st.finish.1.tab.symbols r.sym = some k) ∧
    (∀ s s' k, find st.finish.1.tab.symbols s = some k → find st.finish.1.tab.symbols s' = some k → s = s') ∧
    (∀ s k, find st.finish.1.tab.symbols s = some k → W.node k = some .sym ∧ ∀ ω, Sentence rs s ω ↔ ∃ α, Names st.finish.1.tab α ω ∧ Der W k α) := by
  obtain ⟨hb, _⟩ := built_of h hd
  obtain ⟨h1, _, h3, _, _, h6⟩ := finish_built hb
  obtain ⟨rules, ns, hp, hnd, hns, hall, rfl⟩ := hW
  have S := stands h1 hp hnd hns hall
  refine ⟨fun r hr => ?_, S.symInj, fun s k hk => ⟨S.sym s k hk, sentence_der S hk⟩⟩
  obtain ⟨_, _, m, k, _, h7, _⟩ := h1.rules.right r hr
  exact ⟨k, h7⟩

/-- C99: the terminals of the world are the declared names and `EOF`, one node for each. -/
theorem C99_terminals (h : ActRs ts rs (({} : St).tokens toks) st) (hd : DeclaredIn toks rs) (hW : Handed st.finish.1 W) :
    (∀ s, s ∈ toks.map (·.1) ∨ s = eofName ↔ ∃ t, find st.finish.1.tab.terminals s = some t) ∧
    (∀ s s' t, find st.finish.1.tab.terminals s = some t → find st.finish.1.tab.terminals s' = some t → s = s') ∧
    (∀ t, (∃ s, find st.finish.1.tab.terminals s = some t) ↔ t ∈ W.terminals) ∧ (∀ t, t ∈ W.terminals ↔ W.node t = some .term) := by
  obtain ⟨hb, hk⟩ := built_of h hd
  have hwf := C99_well_formed h hd hW
  obtain ⟨h1, _, h3, h4, h5, h6⟩ := finish_built hb
  obtain ⟨rules, ns, hp, hnd, hns, hall, rfl⟩ := hW
  have S := stands h1 hp hnd hns hall
  refine ⟨fun s => by rw [← hk, ← h5]; rfl, S.termInj, fun t => (S.terminals t).symm, fun t => ⟨hwf.terminals t, fun ht => ?_⟩⟩
  rw [S.terminals]
  have hl : t < st.finish.1.heap.length := by
    rcases Nat.lt_or_ge t st.finish.1.heap.length with hl | hl
    · exact hl
    · have hpar : (Grammar.rewrite (st.finish.1.world rules) ns).parsed = st.finish.1.heap.length := (Grammar.foldl_addBnf ns hnd (st.finish.1.world rules) [] (Nat.le_refl _) (by simp)
        (fun m hm => ⟨st.finish.1.heap[m]'(hns m hm), List.getElem?_eq_getElem _⟩)).2.2
      rcases hwf.made t _ (by rw [hpar]; exact hl) ht with ⟨_, _, e⟩ | ⟨_, _, e⟩ <;> cases e
  refine h1.inv.decl t ?_
  rw [(Grammar.C43_nodes (st.finish.1.world rules) ns hnd hns hall).1 t hl] at ht
  exact ht

/-- C99: of the symbols with rules, the start symbols are those that have one rule and are not mentioned. -/
theorem C99_start (h : ActRs ts rs (({} : St).tokens toks) st) (hd : DeclaredIn toks rs) (hW : Handed st.finish.1 W) {r : Rule} (hr : r ∈ rs) :
    (∃ k, find st.finish.1.tab.symbols r.sym = some k ∧ k ∈ W.start) ↔ Alone rs r.sym := by
  obtain ⟨hb, _⟩ := built_of h hd
  obtain ⟨h1, _, h3, h4, h5, h6⟩ := finish_built hb
  obtain ⟨rules, ns, hp, hnd, hns, hall, rfl⟩ := hW
  have hs : (Grammar.rewrite (st.finish.1.world rules) ns).start = st.finish.1.tab.start := foldl_start ns _
  obtain ⟨_, _, m, k, _, hk, _⟩ := h1.rules.right r hr
  obtain ⟨c, h7, h8⟩ := h1.counts
  have hpos : 0 < (rs.filter fun r' => r'.sym = r.sym).length := List.length_pos_iff.2 (List.ne_nil_of_mem (List.mem_filter.2 ⟨hr, by simp⟩))
  have key : k ∈ st.finish.1.tab.start ↔ Alone rs r.sym := by
    rw [h8.start _ k hk]
    unfold Alone
    rw [← h7]
    omega
  rw [← key, hs]
  exact ⟨fun ⟨k', e, h⟩ => by rw [hk] at e; cases e; exact h, fun h => ⟨k, hk, h⟩⟩

end

/-! ### An example: `%token A, B;  item @ A -> list ;  B | (?item A)+ -> item ;` -/

def exToks : List (Name × Name) := [(GLex.bytes "A", GLex.bytes "A"), (GLex.bytes "B", GLex.bytes "b")]

def nA : Name := GLex.bytes "A"
def nB : Name := GLex.bytes "B"
def nItem : Name := GLex.bytes "item"
def nList : Name := GLex.bytes "list"

def exTokens : List Tok := [.ident nItem, .at_, .term nA, .arrow, .ident nList, .semi,
  .term nB, .bar, .lp, .opt, .ident nItem, .term nA, .rp, .plus, .arrow, .ident nItem, .semi]

def exRules : List Rule := [⟨Syntax.sep (.nonterm nItem []) (.term nA), nList, [], []⟩,
  ⟨.alt (.term nB) (.plus (.cons (.alt (.nonterm nItem []) .zero) (.term nA))), nItem, [], []⟩]

theorem ex_rs : Syntax.Rs true exTokens exRules := by
  have h1 : Syntax.D true .option [.ident nItem, .at_, .term nA] (Syntax.sep (.nonterm nItem []) (.term nA)) :=
    .single (.sequence (.one (.sep (.unary (.primary (.atom .nonterm))) (.atom .term))))
  have h2 : Syntax.D true .option [.opt, .ident nItem, .term nA] (.cons (.alt (.nonterm nItem []) .zero) (.term nA)) :=
    .single (.sequence (.seq (ts := [.opt, .ident nItem]) (us := [.term nA]) (.one (.unary (.opt (.atom .nonterm)))) (.unary (.primary (.atom .term))) fun _ => rfl))
  have h3 : Syntax.D true .option [.term nB, .bar, .lp, .opt, .ident nItem, .term nA, .rp, .plus]
      (.alt (.term nB) (.plus (.cons (.alt (.nonterm nItem []) .zero) (.term nA)))) :=
    .alt (ts := [.term nB]) (us := [.lp, .opt, .ident nItem, .term nA, .rp, .plus]) (.single (.sequence (.one (.unary (.primary (.atom .term))))))
      (.sequence (.one (.unary (.plus (ts := [.lp, .opt, .ident nItem, .term nA, .rp]) (.paren h2)))))
  have r1 := Syntax.R.plain (s := nList) h1 .none
  have r2 := Syntax.R.plain (s := nItem) h3 .none
  exact .more (.more .nil r1) r2

theorem ex_declared : DeclaredIn exToks exRules := by
  intro r hr
  simp only [exRules, List.mem_cons, List.not_mem_nil, or_false] at hr
  rcases hr with rfl | rfl
  · exact ⟨trivial, .head _, trivial⟩
  · exact ⟨.tail _ (.head _), ⟨trivial, trivial⟩, .head _⟩

theorem ex_valid : ∀ r ∈ exRules, Valid r.item := by
  intro r hr
  simp only [exRules, List.mem_cons, List.not_mem_nil, or_false] at hr
  rcases hr with rfl | rfl
  · exact ⟨trivial, trivial, trivial⟩
  · exact ⟨trivial, ⟨trivial, trivial⟩, trivial⟩

/-- The actions run, and the world derives `B A A` from the node of `list`; `list` is the start symbol, `item` is none. -/
example : ∃ st W k, ActRs exTokens exRules (({} : St).tokens exToks) st ∧ Handed st.finish.1 W ∧ Wf W ∧ find st.finish.1.tab.symbols nList = some k ∧ k ∈ W.start ∧
    (∃ α, Names st.finish.1.tab α [nB, nA, nA] ∧ Der W k α) ∧ ¬ ∃ k', find st.finish.1.tab.symbols nItem = some k' ∧ k' ∈ W.start := by
  obtain ⟨st, h⟩ := (C99_runs ex_rs ex_declared).2 ex_valid
  obtain ⟨W, hW⟩ := handed_exists st.finish.1
  have m1 : exRules[0] ∈ exRules := List.getElem_mem _
  have m2 : exRules[1] ∈ exRules := List.getElem_mem _
  obtain ⟨k, hk, hs⟩ := (C99_start h ex_declared hW m1).2 ⟨by decide +kernel, fun r hr => by
    simp only [exRules, List.mem_cons, List.not_mem_nil, or_false] at hr
    rcases hr with rfl | rfl
    · show ¬ (nItem = nList ∨ False ∨ nItem = nList); decide +kernel
    · show ¬ (False ∨ (nItem = nList ∨ False) ∨ False); decide +kernel⟩
  refine ⟨st, W, k, h, hW, C99_well_formed h ex_declared hW, hk, hs, ?_, fun hn => ?_⟩
  · refine ((C99_sentences h ex_declared hW).2.2 nList k hk).2 _ |>.1 ⟨_, m1, rfl, ?_⟩
    have hB : Sen exRules (.nonterm nItem []) [nB] := .nonterm m2 rfl (.left .term)
    have hA : Sen exRules (.nonterm nItem []) [nA] := .nonterm m2 rfl (.right (.once (.cons (α := []) (.right .zero) .term)))
    exact .cons (α := [nB]) (β := [nA, nA]) hB (.again (α := [nA, nA]) (β := []) (.cons (α := [nA]) .term hA) .none)
  · obtain ⟨_, h2⟩ := (C99_start h ex_declared hW m2).1 hn
    exact h2 _ m1 (.inl rfl)

/-- Code as separator: `A @ ([: c :]) -> list ;` is a rule of the grammar, but the actions follow an invalid pointer. -/
theorem C99_fails_at (c : Name) : Syntax.Rs true [.term nA, .at_, .lp, .code c, .rp, .arrow, .ident nList, .semi] [⟨Syntax.sep (.term nA) (.code c), nList, [], []⟩] ∧
    DeclaredIn exToks [⟨Syntax.sep (.term nA) (.code c), nList, [], []⟩] ∧
    ¬ ∃ st, ActRs [.term nA, .at_, .lp, .code c, .rp, .arrow, .ident nList, .semi] [⟨Syntax.sep (.term nA) (.code c), nList, [], []⟩] (({} : St).tokens exToks) st := by
  have h1 : Syntax.D true .option [.term nA, .at_, .lp, .code c, .rp] (Syntax.sep (.term nA) (.code c)) :=
    .single (.sequence (.one (.sep (ts := [.term nA]) (us := [.lp, .code c, .rp]) (.unary (.primary (.atom .term))) (.paren (ts := [.code c]) (.single (.sequence (.one .code)))))))
  have h2 : Syntax.Rs true [.term nA, .at_, .lp, .code c, .rp, .arrow, .ident nList, .semi] [⟨Syntax.sep (.term nA) (.code c), nList, [], []⟩] := .more .nil (.plain (s := nList) h1 .none)
  have h3 : DeclaredIn exToks [⟨Syntax.sep (.term nA) (.code c), nList, [], []⟩] := fun r hr => by
    cases List.mem_singleton.1 hr
    exact ⟨.head _, trivial, .head _⟩
  refine ⟨h2, h3, fun h => ?_⟩
  exact ((C99_runs h2 h3).1 h _ (.head _)).2.1

end Verif.Front
