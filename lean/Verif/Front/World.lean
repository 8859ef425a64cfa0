import Verif.Front.Oper
import Verif.Grammar.Rewrite

/-!
# Lemmas: rules, the world handed to the analyses, and its sentences
-/

namespace Verif.Front

open Verif.Grammar (Tables find World Der ParsedOk Part)
open Verif.Syntax (Name Tok Nt Rule)

/-- Node `e` is the rule. -/
def RuleRep (g : Nat → Option Grammar.Item) (T : Tables Name) (e : Nat) (r : Rule) : Prop := ∃ m k, g e = some (.evolve m k) ∧ find T.symbols r.sym = some k ∧ IRep g T m r.item

/-- The nodes are the rules, one by one. -/
def RuleReps (g : Nat → Option Grammar.Item) (T : Tables Name) : List Nat → List Rule → Prop
  | [], [] => True
  | e :: es, r :: rs => RuleRep g T e r ∧ RuleReps g T es rs
  | _, _ => False

theorem RuleReps.mono {g g' : Nat → Option Grammar.Item} {T T' : Tables Name} (h : ∀ e r, RuleRep g T e r → RuleRep g' T' e r) : ∀ {es : List Nat} {rs : List Rule}, RuleReps g T es rs → RuleReps g' T' es rs
  | [], [], _ => trivial
  | _ :: _, _ :: _, ⟨h1, h2⟩ => ⟨h _ _ h1, RuleReps.mono h h2⟩

theorem RuleReps.append {g : Nat → Option Grammar.Item} {T : Tables Name} : ∀ {es es' : List Nat} {rs rs' : List Rule}, RuleReps g T es rs → RuleReps g T es' rs' → RuleReps g T (es ++ es') (rs ++ rs')
  | [], _, [], _, _, h => h
  | _ :: _, _, _ :: _, _, ⟨h1, h2⟩, h => ⟨h1, RuleReps.append h2 h⟩

theorem RuleReps.left {g : Nat → Option Grammar.Item} {T : Tables Name} : ∀ {es : List Nat} {rs : List Rule}, RuleReps g T es rs → ∀ e ∈ es, ∃ r ∈ rs, RuleRep g T e r
  | [], [], _, _, h => by simp at h
  | _ :: _, _ :: _, ⟨h1, h2⟩, e, h => by
    rcases List.mem_cons.1 h with rfl | h
    · exact ⟨_, List.mem_cons_self, h1⟩
    · obtain ⟨r, h3, h4⟩ := RuleReps.left h2 e h
      exact ⟨r, List.mem_cons_of_mem _ h3, h4⟩

theorem RuleReps.right {g : Nat → Option Grammar.Item} {T : Tables Name} : ∀ {es : List Nat} {rs : List Rule}, RuleReps g T es rs → ∀ r ∈ rs, ∃ e ∈ es, RuleRep g T e r
  | [], [], _, _, h => by simp at h
  | _ :: _, _ :: _, ⟨h1, h2⟩, r, h => by
    rcases List.mem_cons.1 h with rfl | h
    · exact ⟨_, List.mem_cons_self, h1⟩
    · obtain ⟨e, h3, h4⟩ := RuleReps.right h2 r h
      exact ⟨e, List.mem_cons_of_mem _ h3, h4⟩

theorem Ext.rule {a b : St} (h : Ext a b) {e : Nat} {r : Rule} (hr : RuleRep (a.heap[·]?) a.tab e r) : RuleRep (b.heap[·]?) b.tab e r := by
  obtain ⟨m, k, h1, h2, h3⟩ := hr
  exact ⟨m, k, h.heap _ _ h1, h.sym _ _ h2, h.irep h3⟩

/-- What holds after the rules `rs`. -/
structure Built (st : St) (rs : List Rule) : Prop where
  inv : Inv st
  rules : RuleReps (st.heap[·]?) st.tab st.rules rs
  counts : ∃ m : Name → Nat, (∀ s, m s = 0 ↔ ∀ r ∈ rs, ¬ Mentions s r.item) ∧ Counts st fun s => (rs.filter fun r => r.sym = s).length + m s

theorem rule_built {st st1 : St} {rs : List Rule} {r : Rule} {n : Nat} (hb : Built st rs) (hd : DoneI st st1 n r.item) : Built (st1.rule n r.sym) (rs ++ [r]) ∧ Ext st (st1.rule n r.sym) ∧
    (st1.rule n r.sym).tab.terminals = st.tab.terminals := by
  obtain ⟨h1, h2, h3, h4, h5, h6⟩ := symbol_spec (st' := (st1.symbol r.sym).1) (k := (st1.symbol r.sym).2) hd.inv rfl
  have hi := inv_new h1 (it := .evolve n (st1.symbol r.sym).2) ⟨(h2.irep hd.rep).below, h1.sym _ _ h3⟩ (by simp)
  have he := ext_new (st1.symbol r.sym).1 (it := .evolve n (st1.symbol r.sym).2) (by simp)
  have hall : Ext st ((st1.symbol r.sym).1.new (.evolve n (st1.symbol r.sym).2)).1 := hd.ext.trans (h2.trans he)
  refine ⟨⟨⟨hi.items, hi.sym, hi.symInj, hi.term, hi.termInj, hi.termMem, hi.decl, hi.zero, hi.oneZero, hi.named⟩, ?_, ?_⟩, ⟨hall.heap, hall.sym, hall.term⟩, h5.trans hd.terms⟩
  · show RuleReps _ _ ((st1.symbol r.sym).1.rules ++ [_]) _
    rw [h4, hd.rules]
    exact (hb.rules.mono fun e r h => hall.rule h).append ⟨⟨n, _, get_new _ _, h3, he.irep (h2.irep hd.rep)⟩, trivial⟩
  · obtain ⟨m, hm, hc⟩ := hb.counts
    obtain ⟨d, e1, hc⟩ := hd.adds _ hc
    have hc := h6 _ hc
    refine ⟨fun s => m s + d s, fun s => ?_, ?_⟩
    · show m s + d s = 0 ↔ _
      rw [Nat.add_eq_zero_iff, hm, e1]
      simp [or_imp, forall_and]
    · have : (fun s => ((rs ++ [r]).filter fun r => r.sym = s).length + (m s + d s)) =
          fun x => (rs.filter fun r => r.sym = x).length + m x + d x + if x = r.sym then 1 else 0 := by
        funext s
        rw [List.filter_append, List.length_append]
        by_cases e : s = r.sym
        · subst e; simp; omega
        · have : ¬ r.sym = s := fun h => e h.symm
          simp [e, this]; omega
      rw [this]
      exact ⟨hc.none, hc.start⟩

theorem actR_built {ts : List Tok} {r : Rule} {st st' : St} {rs : List Rule} (h : ActR ts r st st') (hb : Built st rs) (ht : Terms st.Knows r.item) :
    Built st' (rs ++ [r]) ∧ Ext st st' ∧ st'.tab.terminals = st.tab.terminals := by
  cases h with
  | codeFirst h _ => exact rule_built (r := ⟨_, _, _, _⟩) hb (act_done h hb.inv ht).toI
  | declsFirst h _ _ => exact rule_built (r := ⟨_, _, _, _⟩) hb (act_done h hb.inv ht).toI
  | plain h _ => exact rule_built (r := ⟨_, _, _, _⟩) hb (act_done h hb.inv ht).toI
  | opDecls h _ hd _ _ => exact rule_built (r := ⟨_, _, _, _⟩) hb (op_done h hd hb.inv ht)
  | opCode h _ hd _ => exact rule_built (r := ⟨_, _, _, _⟩) hb (op_done h hd hb.inv ht)
  | opPlain h _ hd _ => exact rule_built (r := ⟨_, _, _, _⟩) hb (op_done h hd hb.inv ht)

theorem knows_eq {st st' : St} (h : st'.tab.terminals = st.tab.terminals) : st'.Knows = st.Knows := by
  funext s; unfold St.Knows; rw [h]

theorem actRs_built {ts : List Tok} {rs : List Rule} {st st' : St} (h : ActRs ts rs st st') : Built st [] → (∀ r ∈ rs, Terms st.Knows r.item) →
    Built st' rs ∧ Ext st st' ∧ st'.tab.terminals = st.tab.terminals := by
  induction h with
  | nil => exact fun hb _ => ⟨hb, .refl _, rfl⟩
  | more _ h ih =>
    intro hb ht
    obtain ⟨h1, h2, h3⟩ := ih hb fun r hr => ht r (List.mem_append_left _ hr)
    obtain ⟨h4, h5, h6⟩ := actR_built h h1 (by rw [knows_eq h3]; exact ht _ (by simp))
    exact ⟨h4, h2.trans h5, h6.trans h3⟩

theorem built_init : Built {} [] := by
  have hn : ∀ (s : Name) k, find ([] : List (Name × Nat)) s ≠ some k := fun s k => by simp [find]
  refine ⟨⟨?_, fun s k h => absurd h (hn s k), fun s _ k h => absurd h (hn s k), fun s k h => absurd h (hn s k), fun s _ k h => absurd h (hn s k), ?_, ?_, ?_, ?_, ?_⟩, trivial,
    fun _ => 0, by simp, ⟨fun s => by simp [find], fun s k h => absurd h (hn s k)⟩⟩
  · intro n it h; simp at h
  · intro p h; simp at h
  · intro n h; simp at h
  · intro z h; simp at h
  · intro n h; simp at h
  · intro n h; simp at h

theorem declare_built {st : St} {rs : List Rule} (hb : Built st rs) (s d : Name) : Built (st.declare s d).1 rs := by
  obtain ⟨h1, h2, _, _, h3, h4, h5, _⟩ := declare_spec (st' := (st.declare s d).1) (k := (st.declare s d).2) hb.inv rfl
  refine ⟨h1, by rw [h5]; exact hb.rules.mono fun e r h => h2.rule h, ?_⟩
  obtain ⟨m, hm, hc⟩ := hb.counts
  exact ⟨m, hm, ⟨fun s => by rw [h3]; exact hc.none s, fun s k hk => by rw [h3] at hk; rw [h4]; exact hc.start s k hk⟩⟩

theorem tokens_built (ts : List (Name × Name)) : ∀ {st : St}, Built st [] → Built (st.tokens ts) [] ∧ ∀ x, (st.tokens ts).Knows x ↔ st.Knows x ∨ x ∈ ts.map (·.1) := by
  induction ts with
  | nil => exact fun hb => ⟨hb, fun x => by simp [St.tokens]⟩
  | cons t ts ih =>
    intro st hb
    obtain ⟨h1, h2⟩ := ih (declare_built hb t.1 t.2)
    refine ⟨h1, fun x => (h2 x).trans ?_⟩
    obtain ⟨_, _, _, hk, _⟩ := declare_spec (st' := (st.declare t.1 t.2).1) (k := (st.declare t.1 t.2).2) hb.inv rfl
    rw [hk]
    simp [or_assoc]

theorem finish_built {st : St} {rs : List Rule} (hb : Built st rs) : Built st.finish.1 rs ∧ Ext st st.finish.1 ∧ (∃ z, st.finish.1.zero = some z) ∧ find st.finish.1.tab.terminals eofName = some st.finish.2 ∧
    (∀ x, st.finish.1.Knows x ↔ st.Knows x ∨ x = eofName) ∧ st.finish.1.rules = st.rules := by
  obtain ⟨h1, h2, h3, h4, h5, h6⟩ := zero_spec (st' := st.zeroItem.1) (z := st.zeroItem.2) hb.inv rfl
  have hz : Built st.zeroItem.1 rs := by
    refine ⟨h1, by rw [h6]; exact hb.rules.mono fun e r h => h2.rule h, ?_⟩
    obtain ⟨m, hm, hc⟩ := hb.counts
    exact ⟨m, hm, ⟨fun s => by rw [h5]; exact hc.none s, fun s k hk => by rw [h5] at hk ⊢; exact hc.start s k hk⟩⟩
  obtain ⟨g1, g2, g3, g4, g5, g6, g7, g8⟩ := declare_spec (st' := st.finish.1) (k := st.finish.2) h1 rfl
  exact ⟨declare_built hz _ _, h2.trans g2, ⟨_, g8.trans h4⟩, g3, fun x => by rw [g4]; unfold St.Knows; rw [h5], g7.trans h6⟩

/-! ### The actions do not fail -/

theorem valid_clone : ∀ {i : Syntax.Item}, Valid (Syntax.clone i) → Valid i := by
  intro i
  induction i with
  | alt i j ih jh => exact fun h => ⟨ih h.1, jh h.2⟩
  | cons i j ih jh => exact fun h => ⟨ih h.1, jh h.2⟩
  | rollback i j ih jh => exact fun h => ⟨ih h.1, jh h.2⟩
  | ann _ i ih => exact ih
  | plus i ih => exact ih
  | star i ih => exact ih
  | act i _ ih => exact ih
  | cond _ i ih => exact ih
  | recover i ih => exact ih
  | code _ => exact fun h => h.elim
  | op o => exact fun h => h
  | wild => exact fun h => h
  | _ => exact fun _ => trivial

theorem act_exists {nt : Nt} {ts : List Tok} {i : Syntax.Item} (h : Syntax.D true nt ts i) : Valid i → ∀ st : St, Inv st → Terms st.Knows i → ∃ st' n, Act nt ts i st st' n := by
  have next : ∀ {nt ts i j} {st st' : St} {n : Nat}, Act nt ts i st st' n → Inv st → Terms st.Knows i → Terms st.Knows j → Inv st' ∧ Terms st'.Knows j := by
    intro nt ts i j st st' n h hi ht hj
    have hd := act_done h hi ht
    exact ⟨hd.inv, by rw [knows_eq hd.terms]; exact hj⟩
  induction h with
  | zero => exact fun _ st _ _ => ⟨_, _, .zero⟩
  | paren _ ih => intro hv st hi ht; obtain ⟨st', n, h⟩ := ih hv st hi ht; exact ⟨_, _, .paren h⟩
  | tryIt _ ih => intro hv st hi ht; obtain ⟨st', n, h⟩ := ih hv st hi ht; exact ⟨_, _, .tryIt h⟩
  | atom _ ih => intro hv st hi ht; obtain ⟨st', n, h⟩ := ih hv st hi ht; exact ⟨_, _, .atom h⟩
  | inl => exact fun _ st _ _ => ⟨_, _, .inl rfl⟩
  | annEq _ ih => intro hv st hi ht; obtain ⟨st', n, h⟩ := ih hv st hi ht; exact ⟨_, _, .annEq h⟩
  | annColon _ ih => intro hv st hi ht; obtain ⟨st', n, h⟩ := ih hv st hi ht; exact ⟨_, _, .annColon h⟩
  | seqEq _ ih => intro hv st hi ht; obtain ⟨st', n, h⟩ := ih hv st hi ht; exact ⟨_, _, .seqEq h⟩
  | seqColon _ ih => intro hv st hi ht; obtain ⟨st', n, h⟩ := ih hv st hi ht; exact ⟨_, _, .seqColon h⟩
  | nonterm => exact fun _ st _ _ => ⟨_, _, .nonterm rfl⟩
  | call => exact fun _ st _ _ => ⟨_, _, .call rfl⟩
  | term => exact fun _ st _ _ => ⟨_, _, .term⟩
  | recover _ ih => intro hv st hi ht; obtain ⟨st', n, h⟩ := ih hv st hi ht; exact ⟨_, _, .recover h⟩
  | rollback _ _ ih jh =>
    intro hv st hi ht
    obtain ⟨st1, n, h⟩ := ih hv.1 st hi ht.1
    obtain ⟨hi1, ht1⟩ := next h hi ht.1 ht.2
    obtain ⟨st2, m, h'⟩ := jh hv.2 st1 hi1 ht1
    exact ⟨_, _, .rollback h h'⟩
  | plus _ ih => intro hv st hi ht; obtain ⟨st', n, h⟩ := ih hv st hi ht; exact ⟨_, _, .plus h⟩
  | star _ ih => intro hv st hi ht; obtain ⟨st', n, h⟩ := ih hv st hi ht; exact ⟨_, _, .star h⟩
  | primary _ ih => intro hv st hi ht; obtain ⟨st', n, h⟩ := ih hv st hi ht; exact ⟨_, _, .primary h⟩
  | opt _ ih => intro hv st hi ht; obtain ⟨st', n, h⟩ := ih hv.1 st hi ht.1; exact ⟨_, _, .opt h rfl⟩
  | unary _ ih => intro hv st hi ht; obtain ⟨st', n, h⟩ := ih hv st hi ht; exact ⟨_, _, .unary h⟩
  | sep _ _ ih jh =>
    intro hv st hi ht
    obtain ⟨st1, n, h⟩ := ih hv.1 st hi ht.1
    obtain ⟨hi1, ht1⟩ := next h hi ht.1 (terms_clone.1 ht.2.1)
    obtain ⟨st2, m, h'⟩ := jh (valid_clone hv.2.1) st1 hi1 ht1
    have d1 := act_done h hi ht.1
    have d2 := act_done h' hi1 ht1
    obtain ⟨⟨h3, k⟩, e⟩ := sepList_some d2.inv.items (d2.ext.rep d1.rep) d2.rep hv
    exact ⟨_, _, .sep h h' e⟩
  | act _ ih => intro hv st hi ht; obtain ⟨st', n, h⟩ := ih hv st hi ht; exact ⟨_, _, .act h⟩
  | code => exact fun _ st _ _ => ⟨_, _, .code⟩
  | one _ ih => intro hv st hi ht; obtain ⟨st', n, h⟩ := ih hv st hi ht; exact ⟨_, _, .one h⟩
  | seq _ _ hc ih jh =>
    intro hv st hi ht
    obtain ⟨st1, n, h⟩ := ih hv.1 st hi ht.1
    obtain ⟨hi1, ht1⟩ := next h hi ht.1 ht.2
    obtain ⟨st2, m, h'⟩ := jh hv.2 st1 hi1 ht1
    exact ⟨_, _, .seq h h' (hc rfl)⟩
  | sequence _ ih => intro hv st hi ht; obtain ⟨st', n, h⟩ := ih hv st hi ht; exact ⟨_, _, .sequence h⟩
  | cond _ ih => intro hv st hi ht; obtain ⟨st', n, h⟩ := ih hv st hi ht; exact ⟨_, _, .cond h⟩
  | single _ ih => intro hv st hi ht; obtain ⟨st', n, h⟩ := ih hv st hi ht; exact ⟨_, _, .single h⟩
  | alt _ _ ih jh =>
    intro hv st hi ht
    obtain ⟨st1, n, h⟩ := ih hv.1 st hi ht.1
    obtain ⟨hi1, ht1⟩ := next h hi ht.1 ht.2
    obtain ⟨st2, m, h'⟩ := jh hv.2 st1 hi1 ht1
    exact ⟨_, _, .alt h h'⟩

theorem actRs_exists {ts : List Tok} {rs : List Rule} (h : Syntax.Rs true ts rs) : (∀ r ∈ rs, Valid r.item) → ∀ st : St, Built st [] → (∀ r ∈ rs, Terms st.Knows r.item) → ∃ st', ActRs ts rs st st' := by
  induction h with
  | nil => exact fun _ st _ _ => ⟨st, .nil⟩
  | more _ h ih =>
    intro hv st hb ht
    obtain ⟨st1, h1⟩ := ih (fun r hr => hv r (List.mem_append_left _ hr)) st hb fun r hr => ht r (List.mem_append_left _ hr)
    obtain ⟨h4, _, h6⟩ := actRs_built h1 hb fun r hr => ht r (List.mem_append_left _ hr)
    have hv := hv _ (List.mem_append_right _ (List.mem_singleton.2 rfl))
    have ht := ht _ (List.mem_append_right _ (List.mem_singleton.2 rfl))
    rw [← knows_eq h6] at ht
    cases h with
    | codeFirst hd hs => obtain ⟨st2, n, h⟩ := act_exists hd hv st1 h4.inv ht; exact ⟨_, .more h1 (.codeFirst h hs)⟩
    | declsFirst hd hs hc => obtain ⟨st2, n, h⟩ := act_exists hd hv st1 h4.inv ht; exact ⟨_, .more h1 (.declsFirst h hs hc)⟩
    | plain hd hc => obtain ⟨st2, n, h⟩ := act_exists hd hv st1 h4.inv ht; exact ⟨_, .more h1 (.plain h hc)⟩
    | @opDecls bs us vs cs b s c ds os hd hu hs hc =>
      obtain ⟨⟨s', a, rfl⟩, hv⟩ := hv
      obtain ⟨st2, n, h⟩ := act_exists hd trivial st1 h4.inv trivial
      obtain ⟨⟨st3, o⟩, h3⟩ := decls_some st2 { base := n } hv
      exact ⟨_, .more h1 (.opDecls h hu h3 hs hc)⟩
    | @opCode bs us vs b s c ds os hd hu hs =>
      obtain ⟨⟨s', a, rfl⟩, hv⟩ := hv
      obtain ⟨st2, n, h⟩ := act_exists hd trivial st1 h4.inv trivial
      obtain ⟨⟨st3, o⟩, h3⟩ := decls_some st2 { base := n } hv
      exact ⟨_, .more h1 (.opCode h hu h3 hs)⟩
    | @opPlain bs us cs b s c os hd hu hc =>
      obtain ⟨⟨s', a, rfl⟩, hv⟩ := hv
      obtain ⟨st2, n, h⟩ := act_exists hd trivial st1 h4.inv trivial
      obtain ⟨⟨st3, o⟩, h3⟩ := decls_some st2 { base := n } hv
      exact ⟨_, .more h1 (.opPlain h hu h3 hc)⟩

/-- The actions are run for the productions of `Syntax.D`. -/
theorem act_d {nt : Nt} {ts : List Tok} {i : Syntax.Item} {st st' : St} {n : Nat} (h : Act nt ts i st st' n) : Syntax.D true nt ts i := by
  induction h with
  | zero => exact .zero
  | paren _ ih => exact .paren ih
  | tryIt _ ih => exact .tryIt ih
  | atom _ ih => exact .atom ih
  | inl => exact .inl
  | annEq _ ih => exact .annEq ih
  | annColon _ ih => exact .annColon ih
  | seqEq _ ih => exact .seqEq ih
  | seqColon _ ih => exact .seqColon ih
  | nonterm => exact .nonterm
  | call => exact .call
  | term => exact .term
  | recover _ ih => exact .recover ih
  | rollback _ _ ih jh => exact .rollback ih jh
  | plus _ ih => exact .plus ih
  | star _ ih => exact .star ih
  | primary _ ih => exact .primary ih
  | opt _ _ ih => exact .opt ih
  | unary _ ih => exact .unary ih
  | sep _ _ _ ih jh => exact .sep ih jh
  | act _ ih => exact .act ih
  | code => exact .code
  | one _ ih => exact .one ih
  | seq _ _ hc ih jh => exact .seq ih jh fun _ => hc
  | sequence _ ih => exact .sequence ih
  | cond _ ih => exact .cond ih
  | single _ ih => exact .single ih
  | alt _ _ ih jh => exact .alt ih jh

theorem actRs_rs {ts : List Tok} {rs : List Rule} {st st' : St} (h : ActRs ts rs st st') : Syntax.Rs true ts rs := by
  induction h with
  | nil => exact .nil
  | more _ h ih =>
    refine .more ih ?_
    cases h with
    | codeFirst h hs => exact .codeFirst (act_d h) hs
    | declsFirst h hs hc => exact .declsFirst (act_d h) hs hc
    | plain h hc => exact .plain (act_d h) hc
    | opDecls h hu _ hs hc => exact .opDecls (b := .sym _ _) (act_d h) hu hs hc
    | opCode h hu _ hs => exact .opCode (b := .sym _ _) (act_d h) hu hs
    | opPlain h hu _ hc => exact .opPlain (b := .sym _ _) (act_d h) hu hc

/-! ### The world -/

theorem part_below {st : St} (hi : Inv st) {rules : List Nat} {n m : Nat} : Part (st.world rules) n m → BelowR st.heap n m ∧ n < st.heap.length ∧
    ((∀ o, st.heap[m]? ≠ some (.op o)) ∨ ∃ s, st.heap[n]? = some (.evolve m s)) := by
  have key : ∀ {m}, Below st.heap n m → n < st.heap.length → BelowR st.heap n m ∧ n < st.heap.length ∧ ((∀ o, st.heap[m]? ≠ some (.op o)) ∨ ∃ s, st.heap[n]? = some (.evolve m s)) :=
    fun h h' => ⟨h.1, h', .inl h.2⟩
  intro h
  cases h with
  | evolve h => exact ⟨(hi.items _ _ h).1, get_lt h, .inr ⟨_, h⟩⟩
  | consL h => exact key (hi.items _ _ h).1 (get_lt h)
  | consR h => exact key (hi.items _ _ h).2 (get_lt h)
  | altL h => exact key (hi.items _ _ h).1 (get_lt h)
  | altR h => exact key (hi.items _ _ h).2 (get_lt h)
  | action h => exact key (hi.items _ (.action (some _)) h) (get_lt h)
  | cond h => exact key (hi.items _ _ h) (get_lt h)
  | annot h => exact key (hi.items _ _ h) (get_lt h)
  | @tryL _ r h => exact key (by
      have := hi.items n _ h
      cases r with
      | none => exact this
      | some r => exact this.1) (get_lt h)
  | tryR h => exact key (hi.items _ (.tryc _ (some _)) h).2 (get_lt h)
  | plus h => exact key (hi.items _ _ h) (get_lt h)
  | star h => exact key (hi.items _ _ h) (get_lt h)
  | @opBase o h =>
    obtain ⟨h1, ⟨k, h2⟩, _⟩ := hi.items _ (.op o) h
    exact ⟨⟨h1, by simp [h2], by simp [h2]⟩, get_lt h, .inl (by simp [h2])⟩

theorem parsedOk {st : St} (hi : Inv st) (hz : ∃ z, st.zero = some z) {rules : List Nat} (hr : ∀ r ∈ rules, ∃ i s, st.heap[r]? = some (.evolve i s)) : ParsedOk (st.world rules) := by
  obtain ⟨z, hz⟩ := hz
  have part := fun n m => part_below (rules := rules) (n := n) (m := m) hi
  have hzero : (st.world rules).zero = z := by simp [St.world, hz]
  refine ⟨by rw [hzero]; exact hi.zero z hz, fun n hn => ?_, fun t ht => ?_, hr, fun n m h => ?_, fun n m i s h => (part n m h).1.2.1 i s, fun n m h => .inl (part n m h).1.1, fun n s h => ?_, fun n h => ?_,
    fun n o h => (hi.items n (.op o) h).2.1, fun n o h => ⟨fun t ht => ?_, fun p hp => ?_⟩⟩
  · rw [hzero]
    have := hi.oneZero n hn
    rw [hz] at this
    exact (Option.some.inj this).symm
  · obtain ⟨p, hp, rfl⟩ := List.mem_map.1 ht
    exact hi.term _ _ (hi.termMem p hp)
  · obtain ⟨⟨h1, _, _⟩, h2, _⟩ := part n m h
    exact ⟨_, List.getElem?_eq_getElem (by omega : m < st.heap.length)⟩
  · rcases h with h | h | ⟨i, h⟩
    · exact hi.items n (.nonterm s) h
    · exact hi.items n (.inlined (some s)) h
    · exact (hi.items n (.evolve i s) h).2
  · exact (hi.items n (.inlined none) h).elim
  · refine ((hi.items n (.op o) h).2.2 t ?_).2
    simp only [List.mem_append] at ht
    exact ht.elim (fun h => h.elim .inl fun h => .inr (.inl h)) fun h => .inr (.inr (.inl h))
  · rcases List.mem_append.1 hp with hp | hp
    · exact ⟨((hi.items n (.op o) h).2.2 p.1 (.inr (.inr (.inr ⟨p.2, .inl hp⟩)))).2, ((hi.items n (.op o) h).2.2 p.2 (.inr (.inr (.inr ⟨p.1, .inr (.inl hp)⟩)))).2⟩
    · exact ⟨((hi.items n (.op o) h).2.2 p.1 (.inr (.inr (.inr ⟨p.2, .inr (.inr (.inl hp))⟩)))).2, ((hi.items n (.op o) h).2.2 p.2 (.inr (.inr (.inr ⟨p.1, .inr (.inr (.inr hp))⟩)))).2⟩

/-! ### Sentences -/

/-- The world stands for the rules. -/
structure Stands (W : World) (T : Tables Name) (rs : List Rule) : Prop where
  sym : ∀ s k, find T.symbols s = some k → W.node k = some .sym
  symInj : ∀ s s' k, find T.symbols s = some k → find T.symbols s' = some k → s = s'
  term : ∀ s k, find T.terminals s = some k → W.node k = some .term
  termInj : ∀ s s' k, find T.terminals s = some k → find T.terminals s' = some k → s = s'
  terminals : ∀ t, t ∈ W.terminals ↔ ∃ s, find T.terminals s = some t
  left : ∀ e ∈ W.rules, ∃ r ∈ rs, RuleRep W.node T e r
  right : ∀ r ∈ rs, ∃ e ∈ W.rules, RuleRep W.node T e r

theorem der_sen {W : World} {T : Tables Name} {rs : List Rule} (S : Stands W T rs) {n : Nat} {α : List Nat} (h : Der W n α) : (∀ t ∈ α, t ∈ W.terminals) →
    (∀ i, IRep W.node T n i → ∃ ω, Names T α ω ∧ Sen rs i ω) ∧ ∀ s, find T.symbols s = some n → ∃ ω, Names T α ω ∧ Sentence rs s ω := by
  have nosym : ∀ {n : Nat} {it : Grammar.Item} {P : Name → Prop}, W.node n = some it → it ≠ .sym → ∀ s, find T.symbols s = some n → P s := by
    intro n it P h1 h2 s h3
    rw [S.sym s n h3] at h1
    exact absurd (Option.some.inj h1).symm h2
  induction h with
  | zero hn =>
    intro _
    refine ⟨fun i hr => ?_, nosym hn (by simp)⟩
    cases i <;> simp [IRep, Rep, OpRep, hn] at hr
    exact ⟨[], trivial, .zero⟩
  | term hn =>
    intro _
    refine ⟨fun i hr => ?_, nosym hn (by simp)⟩
    cases i with
    | term s => exact ⟨[s], ⟨hr.2, trivial⟩, .term⟩
    | _ => simp [IRep, Rep, OpRep, hn] at hr
  | @sym n hn =>
    intro ht
    obtain ⟨s, hs⟩ := (S.terminals n).1 (ht n (by simp))
    rw [S.term s n hs] at hn
    cases hn
  | @expand n r i α hn hr hi _ ih =>
    intro ht
    refine ⟨fun i hr => ?_, fun s hs => ?_⟩
    · cases i <;> simp [IRep, Rep, OpRep, hn] at hr
    · obtain ⟨r', h1, m, k, h2, h3, h4⟩ := S.left r hr
      rw [hi] at h2
      cases h2
      obtain ⟨ω, h5, h6⟩ := (ih ht).1 _ h4
      exact ⟨ω, h5, r', h1, S.symInj _ _ _ h3 hs, h6⟩
  | evolve hn _ _ =>
    intro _
    refine ⟨fun i hr => ?_, nosym hn (by simp)⟩
    cases i <;> simp [IRep, Rep, OpRep, hn] at hr
  | nonterm hn _ ih =>
    intro ht
    refine ⟨fun i hr => ?_, nosym hn (by simp)⟩
    cases i with
    | nonterm s a =>
      obtain ⟨k, h1, h2⟩ := hr
      rw [hn] at h1
      cases h1
      obtain ⟨ω, h3, r, h4, h5, h6⟩ := (ih ht).2 s h2
      exact ⟨ω, h3, .nonterm h4 h5 h6⟩
    | _ => simp [IRep, Rep, OpRep, hn] at hr
  | inlined hn _ ih =>
    intro ht
    refine ⟨fun i hr => ?_, nosym hn (by simp)⟩
    cases i with
    | inl s =>
      obtain ⟨k, h1, h2⟩ := hr
      rw [hn] at h1
      cases h1
      obtain ⟨ω, h3, r, h4, h5, h6⟩ := (ih ht).2 s h2
      exact ⟨ω, h3, .inl h4 h5 h6⟩
    | _ => simp [IRep, Rep, OpRep, hn] at hr
  | cons hn _ _ ih jh =>
    intro ht
    refine ⟨fun i hr => ?_, nosym hn (by simp)⟩
    cases i with
    | cons i j =>
      obtain ⟨m, k, h1, h2, h3⟩ := hr
      rw [hn] at h1
      cases h1
      obtain ⟨ω, h4, h5⟩ := (ih fun t h => ht t (List.mem_append_left _ h)).1 i h2.irep
      obtain ⟨χ, h6, h7⟩ := (jh fun t h => ht t (List.mem_append_right _ h)).1 j h3.irep
      exact ⟨_, h4.append h6, .cons h5 h7⟩
    | _ => simp [IRep, Rep, OpRep, hn] at hr
  | altL hn _ ih =>
    intro ht
    refine ⟨fun i hr => ?_, nosym hn (by simp)⟩
    cases i with
    | alt i j =>
      obtain ⟨m, k, h1, h2, h3⟩ := hr
      rw [hn] at h1
      cases h1
      obtain ⟨ω, h4, h5⟩ := (ih ht).1 i h2.irep
      exact ⟨_, h4, .left h5⟩
    | _ => simp [IRep, Rep, OpRep, hn] at hr
  | altR hn _ ih =>
    intro ht
    refine ⟨fun i hr => ?_, nosym hn (by simp)⟩
    cases i with
    | alt i j =>
      obtain ⟨m, k, h1, h2, h3⟩ := hr
      rw [hn] at h1
      cases h1
      obtain ⟨ω, h4, h5⟩ := (ih ht).1 j h3.irep
      exact ⟨_, h4, .right h5⟩
    | _ => simp [IRep, Rep, OpRep, hn] at hr
  | action0 hn =>
    intro ht
    refine ⟨fun i hr => ?_, nosym hn (by simp)⟩
    cases i with
    | code c => exact ⟨[], trivial, .code⟩
    | _ => simp [IRep, Rep, OpRep, hn] at hr
  | action hn _ ih =>
    intro ht
    refine ⟨fun i hr => ?_, nosym hn (by simp)⟩
    cases i with
    | act i c =>
      obtain ⟨m, h1, h2⟩ := hr
      rw [hn] at h1
      cases h1
      obtain ⟨ω, h4, h5⟩ := (ih ht).1 i h2.irep
      exact ⟨_, h4, .act h5⟩
    | _ => simp [IRep, Rep, OpRep, hn] at hr
  | cond hn _ ih =>
    intro ht
    refine ⟨fun i hr => ?_, nosym hn (by simp)⟩
    cases i with
    | cond c i =>
      obtain ⟨m, h1, h2⟩ := hr
      rw [hn] at h1
      cases h1
      obtain ⟨ω, h4, h5⟩ := (ih ht).1 i h2.irep
      exact ⟨_, h4, .cond h5⟩
    | _ => simp [IRep, Rep, OpRep, hn] at hr
  | annot hn _ ih =>
    intro ht
    refine ⟨fun i hr => ?_, nosym hn (by simp)⟩
    cases i with
    | ann l i =>
      obtain ⟨m, h1, h2⟩ := hr
      rw [hn] at h1
      cases h1
      obtain ⟨ω, h4, h5⟩ := (ih ht).1 i h2.irep
      exact ⟨_, h4, .ann h5⟩
    | _ => simp [IRep, Rep, OpRep, hn] at hr
  | tryL hn _ ih =>
    intro ht
    refine ⟨fun i hr => ?_, nosym hn (by simp)⟩
    cases i with
    | recover i =>
      obtain ⟨m, h1, h2⟩ := hr
      rw [hn] at h1
      cases h1
      obtain ⟨ω, h4, h5⟩ := (ih ht).1 i h2.irep
      exact ⟨_, h4, .recover h5⟩
    | rollback i j =>
      obtain ⟨m, k, h1, h2, h3⟩ := hr
      rw [hn] at h1
      cases h1
      obtain ⟨ω, h4, h5⟩ := (ih ht).1 i h2.irep
      exact ⟨_, h4, .try_ h5⟩
    | _ => simp [IRep, Rep, OpRep, hn] at hr
  | tryR hn _ ih =>
    intro ht
    refine ⟨fun i hr => ?_, nosym hn (by simp)⟩
    cases i with
    | rollback i j =>
      obtain ⟨m, k, h1, h2, h3⟩ := hr
      rw [hn] at h1
      cases h1
      obtain ⟨ω, h4, h5⟩ := (ih ht).1 j h3.irep
      exact ⟨_, h4, .catch_ h5⟩
    | _ => simp [IRep, Rep, OpRep, hn] at hr
  | plus1 hn _ ih =>
    intro ht
    refine ⟨fun i hr => ?_, nosym hn (by simp)⟩
    cases i with
    | plus i =>
      obtain ⟨m, h1, h2⟩ := hr
      rw [hn] at h1
      cases h1
      obtain ⟨ω, h4, h5⟩ := (ih ht).1 i h2.irep
      exact ⟨_, h4, .once h5⟩
    | _ => simp [IRep, Rep, OpRep, hn] at hr
  | plusS hn _ _ ih jh =>
    intro ht
    refine ⟨fun i hr => ?_, nosym hn (by simp)⟩
    cases i with
    | plus i =>
      obtain ⟨m, h1, h2⟩ := id hr
      rw [hn] at h1
      cases h1
      obtain ⟨ω, h4, h5⟩ := (ih fun t h => ht t (List.mem_append_left _ h)).1 i h2.irep
      obtain ⟨χ, h6, h7⟩ := (jh fun t h => ht t (List.mem_append_right _ h)).1 _ hr
      exact ⟨_, h4.append h6, .more h5 h7⟩
    | _ => simp [IRep, Rep, OpRep, hn] at hr
  | star0 hn =>
    intro ht
    refine ⟨fun i hr => ?_, nosym hn (by simp)⟩
    cases i with
    | star i => exact ⟨[], trivial, .none⟩
    | _ => simp [IRep, Rep, OpRep, hn] at hr
  | starS hn _ _ ih jh =>
    intro ht
    refine ⟨fun i hr => ?_, nosym hn (by simp)⟩
    cases i with
    | star i =>
      obtain ⟨m, h1, h2⟩ := id hr
      rw [hn] at h1
      cases h1
      obtain ⟨ω, h4, h5⟩ := (ih fun t h => ht t (List.mem_append_left _ h)).1 i h2.irep
      obtain ⟨χ, h6, h7⟩ := (jh fun t h => ht t (List.mem_append_right _ h)).1 _ hr
      exact ⟨_, h4.append h6, .again h5 h7⟩
    | _ => simp [IRep, Rep, OpRep, hn] at hr
  | opBase hn _ ih =>
    intro ht
    refine ⟨fun i hr => ?_, nosym hn (by simp)⟩
    cases i with
    | op o =>
      obtain ⟨p, h1, ⟨s, a, k, h2, h3, h4⟩, h5, h6⟩ := hr
      rw [hn] at h1
      cases h1
      obtain ⟨ω, h7, h8⟩ := (ih ht).1 (.nonterm s a) ⟨k, h3, h4⟩
      exact ⟨ω, h7, .opBase h2 h8⟩
    | _ => simp [IRep, Rep, OpRep, hn] at hr
  | opPre hn hm _ ih =>
    intro ht
    refine ⟨fun i hr => ?_, nosym hn (by simp)⟩
    cases i with
    | op o =>
      obtain ⟨p, h1, _, h5, _⟩ := id hr
      rw [hn] at h1
      cases h1
      obtain ⟨ω, h7, h8⟩ := (ih fun t h => ht t (List.mem_cons_of_mem _ h)).1 _ hr
      obtain ⟨x, hx, hf⟩ := h5.pre.left _ hm
      obtain ⟨q, p, hq, rfl⟩ := mem_pres.1 hx
      exact ⟨_, Names.cons hf h7, .opPre hq h8⟩
    | _ => simp [IRep, Rep, OpRep, hn] at hr
  | opPost hn hm _ ih =>
    intro ht
    refine ⟨fun i hr => ?_, nosym hn (by simp)⟩
    cases i with
    | op o =>
      obtain ⟨p, h1, _, h5, _⟩ := id hr
      rw [hn] at h1
      cases h1
      obtain ⟨ω, h7, h8⟩ := (ih fun t h => ht t (List.mem_append_left _ h)).1 _ hr
      obtain ⟨x, hx, hf⟩ := h5.post.left _ hm
      obtain ⟨q, p, a, hq, rfl⟩ := mem_posts.1 hx
      exact ⟨_, h7.append (Names.one hf), .opPost hq h8⟩
    | _ => simp [IRep, Rep, OpRep, hn] at hr
  | opBin hn hm _ _ ih jh =>
    intro ht
    refine ⟨fun i hr => ?_, nosym hn (by simp)⟩
    cases i with
    | op o =>
      obtain ⟨p, h1, _, h5, _⟩ := id hr
      rw [hn] at h1
      cases h1
      obtain ⟨ω, h7, h8⟩ := (ih fun t h => ht t (List.mem_append_left _ h)).1 _ hr
      obtain ⟨χ, h9, h10⟩ := (jh fun t h => ht t (List.mem_append_right _ (List.mem_cons_of_mem _ h))).1 _ hr
      obtain ⟨x, hx, hf⟩ := h5.bin.left _ hm
      obtain ⟨q, p, a, hq, rfl⟩ := mem_bins.1 hx
      exact ⟨_, h7.append (Names.cons hf h9), .opBin hq h8 h10⟩
    | _ => simp [IRep, Rep, OpRep, hn] at hr
  | opTern hn hm _ _ _ ih jh kh =>
    intro ht
    refine ⟨fun i hr => ?_, nosym hn (by simp)⟩
    cases i with
    | op o =>
      obtain ⟨p, h1, _, h5, _⟩ := id hr
      rw [hn] at h1
      cases h1
      obtain ⟨ω, h7, h8⟩ := (ih fun t h => ht t (by simp [h])).1 _ hr
      obtain ⟨χ, h9, h10⟩ := (jh fun t h => ht t (by simp [h])).1 _ hr
      obtain ⟨ψ, h11, h12⟩ := (kh fun t h => ht t (by simp [h])).1 _ hr
      obtain ⟨x, hx, hf, hf'⟩ := h5.tern.left _ hm
      obtain ⟨q, q', p, a, hq, rfl⟩ := mem_terns.1 hx
      exact ⟨_, h7.append (Names.cons hf (h9.append (Names.cons hf' h11))), .opTern hq h8 h10 h12⟩
    | _ => simp [IRep, Rep, OpRep, hn] at hr
  | opParen hn hm _ ih =>
    intro ht
    refine ⟨fun i hr => ?_, nosym hn (by simp)⟩
    cases i with
    | op o =>
      obtain ⟨p, h1, _, h5, _⟩ := id hr
      rw [hn] at h1
      cases h1
      obtain ⟨ω, h7, h8⟩ := (ih fun t h => ht t (by simp [h])).1 _ hr
      obtain ⟨x, hx, hf, hf'⟩ := h5.paren.left _ hm
      obtain ⟨q, q', hq, rfl⟩ := mem_parens.1 hx
      exact ⟨_, Names.cons hf (h7.append (Names.one hf')), .opParen hq h8⟩
    | _ => simp [IRep, Rep, OpRep, hn] at hr

theorem sen_der {W : World} {T : Tables Name} {rs : List Rule} (S : Stands W T rs) {i : Syntax.Item} {ω : List Name} (h : Sen rs i ω) : ∀ n, IRep W.node T n i → ∃ α, Names T α ω ∧ Der W n α := by
  induction h with
  | zero => exact fun n hn => ⟨[], trivial, .zero hn⟩
  | term => exact fun n hn => ⟨[n], ⟨hn.2, trivial⟩, .term hn.1⟩
  | nonterm hr hs _ ih =>
    rintro n ⟨k, h1, h2⟩
    obtain ⟨e, h3, m, k', h4, h5, h6⟩ := S.right _ hr
    obtain ⟨α, h7, h8⟩ := ih m h6
    rw [hs, h2] at h5
    cases h5
    exact ⟨α, h7, .nonterm h1 (.expand (S.sym _ _ h2) h3 h4 h8)⟩
  | inl hr hs _ ih =>
    rintro n ⟨k, h1, h2⟩
    obtain ⟨e, h3, m, k', h4, h5, h6⟩ := S.right _ hr
    obtain ⟨α, h7, h8⟩ := ih m h6
    rw [hs, h2] at h5
    cases h5
    exact ⟨α, h7, .inlined h1 (.expand (S.sym _ _ h2) h3 h4 h8)⟩
  | ann _ ih => rintro n ⟨m, h1, h2⟩; obtain ⟨α, h3, h4⟩ := ih m h2.irep; exact ⟨α, h3, .annot h1 h4⟩
  | code => exact fun n hn => ⟨[], trivial, .action0 hn⟩
  | act _ ih => rintro n ⟨m, h1, h2⟩; obtain ⟨α, h3, h4⟩ := ih m h2.irep; exact ⟨α, h3, .action h1 h4⟩
  | cond _ ih => rintro n ⟨m, h1, h2⟩; obtain ⟨α, h3, h4⟩ := ih m h2.irep; exact ⟨α, h3, .cond h1 h4⟩
  | left _ ih => rintro n ⟨m, k, h1, h2, _⟩; obtain ⟨α, h3, h4⟩ := ih m h2.irep; exact ⟨α, h3, .altL h1 h4⟩
  | right _ ih => rintro n ⟨m, k, h1, _, h2⟩; obtain ⟨α, h3, h4⟩ := ih k h2.irep; exact ⟨α, h3, .altR h1 h4⟩
  | cons _ _ ih jh =>
    rintro n ⟨m, k, h1, h2, h2'⟩
    obtain ⟨α, h3, h4⟩ := ih m h2.irep
    obtain ⟨β, h5, h6⟩ := jh k h2'.irep
    exact ⟨_, h3.append h5, .cons h1 h4 h6⟩
  | none => rintro n ⟨m, h1, h2⟩; exact ⟨[], trivial, .star0 h1⟩
  | again _ _ ih jh =>
    intro n hn
    obtain ⟨m, h1, h2⟩ := id hn
    obtain ⟨α, h3, h4⟩ := ih m h2.irep
    obtain ⟨β, h5, h6⟩ := jh n hn
    exact ⟨_, h3.append h5, .starS h1 h4 h6⟩
  | once _ ih => rintro n ⟨m, h1, h2⟩; obtain ⟨α, h3, h4⟩ := ih m h2.irep; exact ⟨α, h3, .plus1 h1 h4⟩
  | more _ _ ih jh =>
    intro n hn
    obtain ⟨m, h1, h2⟩ := id hn
    obtain ⟨α, h3, h4⟩ := ih m h2.irep
    obtain ⟨β, h5, h6⟩ := jh n hn
    exact ⟨_, h3.append h5, .plusS h1 h4 h6⟩
  | recover _ ih => rintro n ⟨m, h1, h2⟩; obtain ⟨α, h3, h4⟩ := ih m h2.irep; exact ⟨α, h3, .tryL h1 h4⟩
  | try_ _ ih => rintro n ⟨m, k, h1, h2, _⟩; obtain ⟨α, h3, h4⟩ := ih m h2.irep; exact ⟨α, h3, .tryL h1 h4⟩
  | catch_ _ ih => rintro n ⟨m, k, h1, _, h2⟩; obtain ⟨α, h3, h4⟩ := ih k h2.irep; exact ⟨α, h3, .tryR h1 h4⟩
  | opBase hb _ ih =>
    rintro n ⟨p, h1, ⟨s, a, k, h2, h3, h4⟩, h5, h6⟩
    rw [hb] at h2
    cases h2
    obtain ⟨α, h7, h8⟩ := ih p.base ⟨k, h3, h4⟩
    exact ⟨α, h7, .opBase h1 h8⟩
  | opPre hq _ ih =>
    intro n hn
    obtain ⟨p, h1, _, h5, _⟩ := id hn
    obtain ⟨α, h7, h8⟩ := ih n hn
    obtain ⟨t, ht, hf⟩ := h5.pre.right _ (mem_pres.2 ⟨_, _, hq, rfl⟩)
    exact ⟨_, Names.cons hf h7, .opPre h1 ht h8⟩
  | opPost hq _ ih =>
    intro n hn
    obtain ⟨p, h1, _, h5, _⟩ := id hn
    obtain ⟨α, h7, h8⟩ := ih n hn
    obtain ⟨t, ht, hf⟩ := h5.post.right _ (mem_posts.2 ⟨_, _, _, hq, rfl⟩)
    exact ⟨_, h7.append (Names.one hf), .opPost h1 ht h8⟩
  | opBin hq _ _ ih jh =>
    intro n hn
    obtain ⟨p, h1, _, h5, _⟩ := id hn
    obtain ⟨α, h7, h8⟩ := ih n hn
    obtain ⟨β, h9, h10⟩ := jh n hn
    obtain ⟨t, ht, hf⟩ := h5.bin.right _ (mem_bins.2 ⟨_, _, _, hq, rfl⟩)
    exact ⟨_, h7.append (Names.cons hf h9), .opBin h1 ht h8 h10⟩
  | opTern hq _ _ _ ih jh kh =>
    intro n hn
    obtain ⟨p, h1, _, h5, _⟩ := id hn
    obtain ⟨α, h7, h8⟩ := ih n hn
    obtain ⟨β, h9, h10⟩ := jh n hn
    obtain ⟨γ, h11, h12⟩ := kh n hn
    obtain ⟨t, ht, hf, hf'⟩ := h5.tern.right _ (mem_terns.2 ⟨_, _, _, _, hq, rfl⟩)
    exact ⟨_, h7.append (Names.cons hf (h9.append (Names.cons hf' h11))), .opTern h1 ht h8 h10 h12⟩
  | opParen hq _ ih =>
    intro n hn
    obtain ⟨p, h1, _, h5, _⟩ := id hn
    obtain ⟨α, h7, h8⟩ := ih n hn
    obtain ⟨t, ht, hf, hf'⟩ := h5.paren.right _ (mem_parens.2 ⟨_, _, hq, rfl⟩)
    exact ⟨_, Names.cons hf (h7.append (Names.one hf')), .opParen h1 ht h8⟩

theorem sentence_der {W : World} {T : Tables Name} {rs : List Rule} (S : Stands W T rs) {s : Name} {k : Nat} (hk : find T.symbols s = some k) (ω : List Name) :
    Sentence rs s ω ↔ ∃ α, Names T α ω ∧ Der W k α := by
  constructor
  · rintro ⟨r, h1, h2, h3⟩
    obtain ⟨e, g1, m, k', g2, g3, g4⟩ := S.right r h1
    obtain ⟨α, g5, g6⟩ := sen_der S h3 m g4
    rw [h2, hk] at g3
    cases g3
    exact ⟨α, g5, .expand (S.sym _ _ hk) g1 g2 g6⟩
  · rintro ⟨α, h1, h2⟩
    obtain ⟨χ, h3, h4⟩ := (der_sen S h2 fun t ht => (S.terminals t).2 (h1.mem t ht)).2 s hk
    have names : ∀ {α : List Nat} {ω χ : List Name}, Names T α ω → Names T α χ → ω = χ := by
      intro α
      induction α with
      | nil =>
        intro ω χ h h'
        cases ω with
        | nil => cases χ with
          | nil => rfl
          | cons => exact h'.elim
        | cons => exact h.elim
      | cons t α ih =>
        intro ω χ h h'
        cases ω with
        | nil => exact h.elim
        | cons s ω => cases χ with
          | nil => exact h'.elim
          | cons s' χ => rw [ih h.2 h'.2, S.termInj _ _ _ h.1 h'.1]
    rw [names h1 h3]
    exact h4

/-- The world of the state, rewritten, stands for the rules. -/
theorem stands {st : St} {rs : List Rule} (hb : Built st rs) {rules : List Nat} (hp : rules.Perm st.rules) {ns : List Nat} (hnd : ns.Nodup) (hns : ∀ n ∈ ns, n < st.heap.length)
    (hall : ∀ n it, (st.world rules).node n = some it → (∃ i, it = .plus i) ∨ (∃ i, it = .star i) ∨ (∃ o, it = .op o) → n ∈ ns) : Stands (Grammar.rewrite (st.world rules) ns) st.tab rs := by
  obtain ⟨h1, _⟩ := Grammar.C43_nodes (st.world rules) ns hnd hns hall
  have hr : (Grammar.rewrite (st.world rules) ns).rules = rules := (Grammar.foldl_rules ns _).1
  have ht : (Grammar.rewrite (st.world rules) ns).terminals = st.tab.terminals.map (·.2) := Grammar.foldl_terminals ns _
  have get : ∀ (n : Nat) (it : Grammar.Item), st.heap[n]? = some it → (Grammar.rewrite (st.world rules) ns).node n = some it := fun n it h => (h1 n (get_lt h)).trans h
  have hrule : ∀ e r, RuleRep (st.heap[·]?) st.tab e r → RuleRep (Grammar.rewrite (st.world rules) ns).node st.tab e r := by
    rintro e r ⟨m, k, g1, g2, g3⟩
    exact ⟨m, k, get _ _ g1, g2, g3.mono get (fun _ _ h => h) fun _ _ h => h⟩
  refine ⟨fun s k h => get _ _ (hb.inv.sym s k h), hb.inv.symInj, fun s k h => get _ _ (hb.inv.term s k h), hb.inv.termInj, fun t => ?_, fun e he => ?_, fun r h => ?_⟩
  · rw [ht]
    constructor
    · intro h
      obtain ⟨p, hp, rfl⟩ := List.mem_map.1 h
      exact ⟨_, hb.inv.termMem p hp⟩
    · rintro ⟨s, hs⟩
      unfold find at hs
      rw [Option.map_eq_some_iff] at hs
      obtain ⟨p, h3, rfl⟩ := hs
      exact List.mem_map.2 ⟨p, List.mem_of_find?_eq_some h3, rfl⟩
  · rw [hr] at he
    obtain ⟨r, h2, h3⟩ := hb.rules.left e (hp.mem_iff.1 he)
    exact ⟨r, h2, hrule _ _ h3⟩
  · obtain ⟨e, h2, h3⟩ := hb.rules.right r h
    exact ⟨e, by rw [hr]; exact hp.mem_iff.2 h2, hrule _ _ h3⟩

end Verif.Front
