import Verif.Grammar.Bnf

/-!
# C43: the rewriting of `+`, `*` and operator items keeps what is derived
-/

namespace Verif.Grammar

variable {W : World}

/-! ### The nodes that are made -/

theorem node_append {heap ext : List Item} {n : Nat} {it : Item} (h : heap[n]? = some it) : (heap ++ ext)[n]? = some it := by
  have : n < heap.length := by
    rcases Nat.lt_or_ge n heap.length with h' | h'
    · exact h'
    · rw [List.getElem?_eq_none h'] at h; cases h
  rw [List.getElem?_append_left this]; exact h

theorem addBnf_heap (W : World) (n : Nat) : ∃ ext, (addBnf W n).heap = W.heap ++ ext := by
  unfold addBnf
  split
  · exact ⟨_, rfl⟩
  · exact ⟨_, rfl⟩
  · exact ⟨_, rfl⟩
  · exact ⟨[], by simp⟩

theorem addBnf_node {n m : Nat} {it : Item} (h : W.node m = some it) : (addBnf W n).node m = some it := by
  obtain ⟨ext, e⟩ := addBnf_heap W n
  unfold World.node at h ⊢
  rw [e]; exact node_append h

/-- The parts of a rewritten loop or operator item, for one node. -/
def BnfAt (W : World) (n : Nat) : Prop :=
  (∀ i, W.node n = some (.plus i) → ∃ c a, W.bnf n = some c ∧ W.node c = some (.cons i a) ∧ W.node a = some (.alt W.zero c)) ∧
  (∀ i, W.node n = some (.star i) → ∃ c a, W.bnf n = some a ∧ W.node c = some (.cons i a) ∧ W.node a = some (.alt W.zero c)) ∧
  (∀ o, W.node n = some (.op o) → ∃ k, W.bnf n = some k ∧ ChainAt W k o.base o.bodies k ∧ (o.bodies ≠ [] → W.parsed ≤ k))

theorem opNodes_chain (top base : Nat) : ∀ (bs : List OpBody) (pre : List Item) (W : World), (∃ suf, W.heap = pre ++ opNodes top base pre.length bs ++ suf) →
    ChainAt W top base bs (if bs = [] then base else pre.length) := by
  intro bs
  induction bs with
  | nil => intro pre W _; simp [ChainAt]
  | cons b bs ih =>
    intro pre W ⟨suf, hW⟩
    rw [if_neg (by simp)]
    have hlen : (b.nodes top (pre.length + 1)).length = b.size := by cases b <;> rfl
    simp only [opNodes, hlen] at hW
    refine ⟨if bs = [] then base else pre.length + 1 + b.size, ?_, ?_, ?_, ?_⟩
    · simp [World.node, hW]
    · have hat : ∀ (i : Nat) (it : Item), (b.nodes top (pre.length + 1))[i]? = some it → W.node (pre.length + 1 + i) = some it := by
        intro i it h
        have hi : i < (b.nodes top (pre.length + 1)).length := by
          rcases Nat.lt_or_ge i (b.nodes top (pre.length + 1)).length with h' | h'
          · exact h'
          · rw [List.getElem?_eq_none h'] at h; cases h
        simp only [World.node, hW, List.append_assoc]
        rw [List.getElem?_append_right (by omega), show pre.length + 1 + i - pre.length = i + 1 by omega]
        simp only [List.cons_append, List.getElem?_cons_succ, List.append_assoc]
        rw [List.getElem?_append_left hi]; exact h
      cases b with
      | pre t => exact hat 0 _ rfl
      | post t => exact hat 0 _ rfl
      | bin t => exact ⟨hat 0 _ rfl, hat 1 _ rfl⟩
      | tern t u => exact ⟨hat 0 _ rfl, hat 1 _ rfl, hat 2 _ rfl, hat 3 _ rfl⟩
      | paren t u => exact ⟨hat 0 _ rfl, hat 1 _ rfl⟩
    · intro h; rw [if_neg h]
    · have := ih (pre ++ Item.alt (pre.length + 1) (if bs = [] then base else pre.length + 1 + b.size) :: b.nodes top (pre.length + 1)) W
        ⟨suf, by rw [hW]; simp [hlen, Nat.add_assoc, Nat.add_comm 1]⟩
      simpa [hlen, Nat.add_assoc, Nat.add_comm 1] using this

theorem ChainAt.mono {W V : World} (h : ∀ m it, W.node m = some it → V.node m = some it) {top base : Nat} {bs : List OpBody} {k : Nat}
    (hc : ChainAt W top base bs k) : ChainAt V top base bs k := by
  induction bs generalizing k with
  | nil => exact hc
  | cons b bs ih =>
    obtain ⟨r, h1, h2, h3, h4⟩ := hc
    refine ⟨r, h _ _ h1, ?_, h3, ih h4⟩
    cases b with
    | pre t => exact h _ _ h2
    | post t => exact h _ _ h2
    | bin t => exact ⟨h _ _ h2.1, h _ _ h2.2⟩
    | tern t u => exact ⟨h _ _ h2.1, h _ _ h2.2.1, h _ _ h2.2.2.1, h _ _ h2.2.2.2⟩
    | paren t u => exact ⟨h _ _ h2.1, h _ _ h2.2⟩

theorem addBnf_other (W : World) {n m : Nat} (h : m ≠ n) : (addBnf W n).bnf m = W.bnf m := by
  unfold addBnf
  split <;> simp [h]

theorem addBnf_same (W : World) (n : Nat) : (addBnf W n).zero = W.zero ∧ (addBnf W n).parsed = W.parsed := by
  unfold addBnf; split <;> exact ⟨rfl, rfl⟩

theorem BnfAt.keep {n m : Nat} {it : Item} (hm : W.node m = some it) (hne : m ≠ n) (h : BnfAt W m) : BnfAt (addBnf W n) m := by
  have hk : ∀ k it, W.node k = some it → (addBnf W n).node k = some it := fun k it => addBnf_node
  have hm' := addBnf_node (n := n) hm
  obtain ⟨h1, h2, h3⟩ := h
  refine ⟨fun i hi => ?_, fun i hi => ?_, fun o ho => ?_⟩
  · rw [hm'] at hi; cases hi
    obtain ⟨c, a, g1, g2, g3⟩ := h1 i hm
    exact ⟨c, a, by rw [addBnf_other W hne, g1], hk _ _ g2, by rw [(addBnf_same W n).1]; exact hk _ _ g3⟩
  · rw [hm'] at hi; cases hi
    obtain ⟨c, a, g1, g2, g3⟩ := h2 i hm
    exact ⟨c, a, by rw [addBnf_other W hne, g1], hk _ _ g2, by rw [(addBnf_same W n).1]; exact hk _ _ g3⟩
  · rw [hm'] at ho; cases ho
    obtain ⟨k, g1, g2, g3⟩ := h3 o hm
    exact ⟨k, by rw [addBnf_other W hne, g1], g2.mono hk, by rw [(addBnf_same W n).2]; exact g3⟩

theorem BnfAt.new {n : Nat} {it : Item} (hn : W.node n = some it) (hp : W.parsed ≤ W.heap.length) : BnfAt (addBnf W n) n := by
  have hn' := addBnf_node (n := n) hn
  refine ⟨fun i hi => ?_, fun i hi => ?_, fun o ho => ?_⟩
  · rw [hn'] at hi; cases hi
    have e : addBnf W n = { W with heap := bnfLoop W.heap W.zero i, bnf := fun m => if m = n then some W.heap.length else W.bnf m } := by
      simp [addBnf, hn]
    rw [e]
    refine ⟨W.heap.length, W.heap.length + 1, ?_⟩
    simp [World.node, bnfLoop]
  · rw [hn'] at hi; cases hi
    have e : addBnf W n = { W with heap := bnfLoop W.heap W.zero i, bnf := fun m => if m = n then some (W.heap.length + 1) else W.bnf m } := by
      simp [addBnf, hn]
    rw [e]
    refine ⟨W.heap.length, W.heap.length + 1, ?_⟩
    simp [World.node, bnfLoop]
  · rw [hn'] at ho; cases ho
    have e : addBnf W n = { W with heap := (bnfOp W.heap o).1, bnf := fun m => if m = n then some (bnfOp W.heap o).2 else W.bnf m } := by
      simp [addBnf, hn]
    rw [e]
    refine ⟨(bnfOp W.heap o).2, by simp, ?_, ?_⟩
    · by_cases hb : o.bodies = []
      · simp [hb, ChainAt, bnfOp]
      · have := opNodes_chain W.heap.length o.base o.bodies W.heap { W with heap := (bnfOp W.heap o).1, bnf := fun m => if m = n then some (bnfOp W.heap o).2 else W.bnf m }
          ⟨[], by simp [bnfOp]⟩
        simpa [bnfOp, hb] using this
    · intro hb; simpa [bnfOp, hb] using hp

theorem addBnf_length (W : World) (n : Nat) : W.heap.length ≤ (addBnf W n).heap.length := by
  obtain ⟨ext, e⟩ := addBnf_heap W n
  rw [e]; simp

theorem foldl_addBnf (ns : List Nat) (hnd : ns.Nodup) : ∀ (W : World) (done : List Nat), W.parsed ≤ W.heap.length →
    (∀ m ∈ done, m ∉ ns ∧ (∃ it, W.node m = some it) ∧ BnfAt W m) → (∀ m ∈ ns, ∃ it, W.node m = some it) →
    (∀ m, m ∈ done ∨ m ∈ ns → BnfAt (ns.foldl addBnf W) m) ∧ (∃ ext, (ns.foldl addBnf W).heap = W.heap ++ ext) ∧
    (ns.foldl addBnf W).parsed = W.parsed := by
  induction ns with
  | nil => intro W done _ h _; exact ⟨by simpa using fun m hm => (h m hm).2.2, ⟨[], by simp⟩, rfl⟩
  | cons n ns ih =>
    intro W done hp hd hv
    rw [List.nodup_cons] at hnd
    obtain ⟨it, hn⟩ := hv n (by simp)
    have := ih hnd.2 (addBnf W n) (n :: done) ?_ ?_ ?_
    · refine ⟨fun m hm => this.1 m ?_, ?_, ?_⟩
      · simp only [List.mem_cons] at hm ⊢
        rcases hm with h | h | h
        · exact .inl (.inr h)
        · exact .inl (.inl h)
        · exact .inr h
      · obtain ⟨e1, h1⟩ := this.2.1
        obtain ⟨e2, h2⟩ := addBnf_heap W n
        exact ⟨e2 ++ e1, by simp only [List.foldl_cons]; rw [h1, h2]; simp⟩
      · simp only [List.foldl_cons]; rw [this.2.2, (addBnf_same W n).2]
    · rw [(addBnf_same W n).2]; exact Nat.le_trans hp (addBnf_length W n)
    · intro m hm
      rcases List.mem_cons.1 hm with rfl | hm
      · exact ⟨hnd.1, ⟨it, addBnf_node hn⟩, .new hn hp⟩
      · obtain ⟨g1, ⟨it', g2⟩, g3⟩ := hd m hm
        simp only [List.mem_cons, not_or] at g1
        exact ⟨g1.2, ⟨it', addBnf_node g2⟩, g3.keep g2 g1.1⟩
    · intro m hm
      obtain ⟨it', h⟩ := hv m (by simp [hm])
      exact ⟨it', addBnf_node h⟩

/-- Rewriting all loops and operator items, in any order, yields the nodes described by `BnfOk`, and keeps all other nodes. -/
theorem C43_nodes (W : World) (ns : List Nat) (hnd : ns.Nodup) (hns : ∀ n ∈ ns, n < W.heap.length)
    (hall : ∀ n it, W.node n = some it → (∃ i, it = .plus i) ∨ (∃ i, it = .star i) ∨ (∃ o, it = .op o) → n ∈ ns) :
    (∀ n < W.heap.length, (rewrite W ns).node n = W.node n) ∧ ∀ n < W.heap.length, BnfAt (rewrite W ns) n := by
  have h := foldl_addBnf ns hnd { W with parsed := W.heap.length } [] (Nat.le_refl _) (by simp)
    (fun m hm => ⟨W.heap[m]'(hns m hm), by simp [World.node, hns m hm]⟩)
  have hnode : ∀ n < W.heap.length, (rewrite W ns).node n = W.node n := by
    intro n hn
    obtain ⟨ext, e⟩ := h.2.1
    unfold World.node rewrite
    rw [e]
    exact List.getElem?_append_left hn
  refine ⟨hnode, fun n hn => ?_⟩
  by_cases hm : n ∈ ns
  · exact h.1 n (.inr hm)
  · have hnone := fun it e => hall n it e
    refine ⟨fun i hi => ?_, fun i hi => ?_, fun o ho => ?_⟩
    · rw [hnode n hn] at hi; exact absurd (hnone _ hi (.inl ⟨i, rfl⟩)) hm
    · rw [hnode n hn] at hi; exact absurd (hnone _ hi (.inr (.inl ⟨i, rfl⟩))) hm
    · rw [hnode n hn] at ho; exact absurd (hnone _ ho (.inr (.inr ⟨o, rfl⟩))) hm

/-! ### What is derived -/

/-- Item `i+` and its rewritten form derive the same. -/
theorem C43_plus {n i k : Nat} (hz : W.node W.zero = some .zero) (h : BnfAt W n) (hn : W.node n = some (.plus i)) (hk : W.bnf n = some k)
    (α : List Nat) : Der W n α ↔ Der W k α := by
  obtain ⟨c, a, h1, h2, h3⟩ := h.1 i hn
  rw [h1] at hk; cases hk
  rw [plus_iff hn, (loop_iff hz h2 h3).1]

/-- Item `i*` and its rewritten form derive the same. -/
theorem C43_star {n i k : Nat} (hz : W.node W.zero = some .zero) (h : BnfAt W n) (hn : W.node n = some (.star i)) (hk : W.bnf n = some k)
    (α : List Nat) : Der W n α ↔ Der W k α := by
  obtain ⟨c, a, h1, h2, h3⟩ := h.2.1 i hn
  rw [h1] at hk; cases hk
  rw [star_iff hn, (loop_iff hz h2 h3).2]

/-- An operator item and its rewritten form derive the same. -/
theorem C43_operator {n k : Nat} {o : OpItem} (h : BnfAt W n) (hn : W.node n = some (.op o)) (hk : W.bnf n = some k)
    (ht : ∀ b ∈ o.bodies, ∀ t ∈ b.toks, W.node t = some .term) (α : List Nat) : Der W n α ↔ Der W k α := by
  obtain ⟨k', h1, h2, _⟩ := h.2.2 o hn
  rw [h1] at hk; cases hk
  exact ⟨op_bw hn h2 ht, op_fw hn h2 ht⟩

/-- All references of the nodes are to nodes. -/
structure Closed (W : World) : Prop where
  part : ∀ n m, Part W n m → m < W.heap.length
  sym : ∀ n s, W.node n = some (.nonterm s) ∨ W.node n = some (.inlined (some s)) → s < W.heap.length

theorem lt_of_node {n : Nat} {it : Item} (h : W.node n = some it) : n < W.heap.length := by
  unfold World.node at h
  rcases Nat.lt_or_ge n W.heap.length with h' | h'
  · exact h'
  · rw [List.getElem?_eq_none h'] at h; cases h

/-- Derivations depend on the nodes reached only. -/
theorem Der.transfer {W V : World} (hr : V.rules = W.rules) (hcl : Closed W) (he : ∀ n < W.heap.length, V.node n = W.node n)
    (hrules : ∀ r ∈ W.rules, r < W.heap.length) {n : Nat} {α : List Nat} (hn : n < W.heap.length) : Der V n α ↔ Der W n α := by
  constructor
  · intro h
    induction h with
    | zero h => exact .zero (he _ hn ▸ h)
    | term h => exact .term (he _ hn ▸ h)
    | sym h => exact .sym (he _ hn ▸ h)
    | expand h h1 h2 _ ih =>
      rw [hr] at h1
      rw [he _ (hrules _ h1)] at h2
      rw [he _ hn] at h
      exact .expand h h1 h2 (ih (hcl.part _ _ (.evolve h2)))
    | evolve h _ ih => rw [he _ hn] at h; exact .evolve h (ih (hcl.part _ _ (.evolve h)))
    | nonterm h _ ih => rw [he _ hn] at h; exact .nonterm h (ih (hcl.sym _ _ (.inl h)))
    | inlined h _ ih => rw [he _ hn] at h; exact .inlined h (ih (hcl.sym _ _ (.inr h)))
    | cons h _ _ ih1 ih2 => rw [he _ hn] at h; exact .cons h (ih1 (hcl.part _ _ (.consL h))) (ih2 (hcl.part _ _ (.consR h)))
    | altL h _ ih => rw [he _ hn] at h; exact .altL h (ih (hcl.part _ _ (.altL h)))
    | altR h _ ih => rw [he _ hn] at h; exact .altR h (ih (hcl.part _ _ (.altR h)))
    | action0 h => exact .action0 (he _ hn ▸ h)
    | action h _ ih => rw [he _ hn] at h; exact .action h (ih (hcl.part _ _ (.action h)))
    | cond h _ ih => rw [he _ hn] at h; exact .cond h (ih (hcl.part _ _ (.cond h)))
    | annot h _ ih => rw [he _ hn] at h; exact .annot h (ih (hcl.part _ _ (.annot h)))
    | tryL h _ ih => rw [he _ hn] at h; exact .tryL h (ih (hcl.part _ _ (.tryL h)))
    | tryR h _ ih => rw [he _ hn] at h; exact .tryR h (ih (hcl.part _ _ (.tryR h)))
    | plus1 h _ ih => rw [he _ hn] at h; exact .plus1 h (ih (hcl.part _ _ (.plus h)))
    | plusS h _ _ ih1 ih2 => rw [he _ hn] at h; exact .plusS h (ih1 (hcl.part _ _ (.plus h))) (ih2 hn)
    | star0 h => exact .star0 (he _ hn ▸ h)
    | starS h _ _ ih1 ih2 => rw [he _ hn] at h; exact .starS h (ih1 (hcl.part _ _ (.star h))) (ih2 hn)
    | opBase h _ ih => rw [he _ hn] at h; exact .opBase h (ih (hcl.part _ _ (.opBase h)))
    | opPre h h1 _ ih => rw [he _ hn] at h; exact .opPre h h1 (ih hn)
    | opPost h h1 _ ih => rw [he _ hn] at h; exact .opPost h h1 (ih hn)
    | opBin h h1 _ _ ih1 ih2 => rw [he _ hn] at h; exact .opBin h h1 (ih1 hn) (ih2 hn)
    | opTern h h1 _ _ _ ih1 ih2 ih3 => rw [he _ hn] at h; exact .opTern h h1 (ih1 hn) (ih2 hn) (ih3 hn)
    | opParen h h1 _ ih => rw [he _ hn] at h; exact .opParen h h1 (ih hn)
  · intro h
    have he' : ∀ {m it}, W.node m = some it → V.node m = some it := fun {m it} h => by rw [he m (lt_of_node h)]; exact h
    clear hn
    induction h with
    | zero h => exact .zero (he' h)
    | term h => exact .term (he' h)
    | sym h => exact .sym (he' h)
    | expand h h1 h2 _ ih => exact .expand (he' h) (hr ▸ h1) (he' h2) ih
    | evolve h _ ih => exact .evolve (he' h) ih
    | nonterm h _ ih => exact .nonterm (he' h) ih
    | inlined h _ ih => exact .inlined (he' h) ih
    | cons h _ _ ih1 ih2 => exact .cons (he' h) ih1 ih2
    | altL h _ ih => exact .altL (he' h) ih
    | altR h _ ih => exact .altR (he' h) ih
    | action0 h => exact .action0 (he' h)
    | action h _ ih => exact .action (he' h) ih
    | cond h _ ih => exact .cond (he' h) ih
    | annot h _ ih => exact .annot (he' h) ih
    | tryL h _ ih => exact .tryL (he' h) ih
    | tryR h _ ih => exact .tryR (he' h) ih
    | plus1 h _ ih => exact .plus1 (he' h) ih
    | plusS h _ _ ih1 ih2 => exact .plusS (he' h) ih1 ih2
    | star0 h => exact .star0 (he' h)
    | starS h _ _ ih1 ih2 => exact .starS (he' h) ih1 ih2
    | opBase h _ ih => exact .opBase (he' h) ih
    | opPre h h1 _ ih => exact .opPre (he' h) h1 ih
    | opPost h h1 _ ih => exact .opPost (he' h) h1 ih
    | opBin h h1 _ _ ih1 ih2 => exact .opBin (he' h) h1 ih1 ih2
    | opTern h h1 _ _ _ ih1 ih2 ih3 => exact .opTern (he' h) h1 ih1 ih2 ih3
    | opParen h h1 _ ih => exact .opParen (he' h) h1 ih

theorem foldl_rules (ns : List Nat) (W : World) : (ns.foldl addBnf W).rules = W.rules ∧ (ns.foldl addBnf W).zero = W.zero := by
  induction ns generalizing W with
  | nil => exact ⟨rfl, rfl⟩
  | cons n ns ih =>
    rw [List.foldl_cons, (ih _).1, (ih _).2]
    unfold addBnf; split <;> exact ⟨rfl, rfl⟩

/-- Rewriting all loops and operator items of a grammar: every item derives what it derived before, and each of the rewritten
items derives the same as the node that replaces it in the analyses. -/
theorem C43_rewriting (W : World) (ns : List Nat) (hcl : Closed W) (hrules : ∀ r ∈ W.rules, r < W.heap.length) (hz : W.node W.zero = some .zero)
    (hnd : ns.Nodup) (hns : ∀ n ∈ ns, n < W.heap.length)
    (hall : ∀ n it, W.node n = some it → (∃ i, it = .plus i) ∨ (∃ i, it = .star i) ∨ (∃ o, it = .op o) → n ∈ ns)
    (htok : ∀ n o, W.node n = some (.op o) → ∀ b ∈ o.bodies, ∀ t ∈ b.toks, W.node t = some .term) (n : Nat) (hn : n < W.heap.length) (α : List Nat) :
    (Der (rewrite W ns) n α ↔ Der W n α) ∧
    ((∃ i, W.node n = some (.plus i)) ∨ (∃ i, W.node n = some (.star i)) ∨ (∃ o, W.node n = some (.op o)) →
      ∃ k, (rewrite W ns).bnf n = some k ∧ (Der (rewrite W ns) k α ↔ Der W n α)) := by
  obtain ⟨h1, h2⟩ := C43_nodes W ns hnd hns hall
  have ht := Der.transfer (W := W) (V := rewrite W ns) (foldl_rules ns _).1 hcl h1 hrules (α := α) hn
  have hz' : (rewrite W ns).node (rewrite W ns).zero = some .zero := by
    rw [show (rewrite W ns).zero = W.zero from (foldl_rules ns _).2, h1 _ (lt_of_node hz)]; exact hz
  refine ⟨ht, ?_⟩
  rintro (⟨i, hi⟩ | ⟨i, hi⟩ | ⟨o, ho⟩)
  · have hi' := (h1 n hn).trans hi
    obtain ⟨c, a, g, _⟩ := (h2 n hn).1 i hi'
    exact ⟨c, g, (C43_plus hz' (h2 n hn) hi' g α).symm.trans ht⟩
  · have hi' := (h1 n hn).trans hi
    obtain ⟨c, a, g, _⟩ := (h2 n hn).2.1 i hi'
    exact ⟨a, g, (C43_star hz' (h2 n hn) hi' g α).symm.trans ht⟩
  · have ho' := (h1 n hn).trans ho
    obtain ⟨k, g, _⟩ := (h2 n hn).2.2 o ho'
    refine ⟨k, g, (C43_operator (h2 n hn) ho' g (fun b hb t htb => ?_) α).symm.trans ht⟩
    have := htok n o ho b hb t htb
    rw [h1 t (lt_of_node this)]; exact this

/-- `s -> A+ B*` and an operator item with a binary operator `A` and parentheses `B`, `C`. -/
def sampleLoops : World where
  heap := [.zero, .term, .term, .term, .plus 1, .star 2, .cons 4 5, .sym, .evolve 6 7, .nonterm 7, .op { base := 9, bin := [1], paren := [(2, 3)] }]
  parsed := 11
  rules := [8]
  zero := 0
  terminals := [1, 2, 3]
  start := [7]
  bnf := fun _ => none

example : (rewrite sampleLoops [4, 5, 10]).heap.drop 11 = [.cons 1 12, .alt 0 11, .cons 2 14, .alt 0 13, .alt 16 18, .cons 2 17, .cons 15 3,
    .alt 19 9, .cons 15 20, .cons 1 15] ∧
    (rewrite sampleLoops [4, 5, 10]).bnf 4 = some 11 ∧ (rewrite sampleLoops [4, 5, 10]).bnf 5 = some 14 ∧
    (rewrite sampleLoops [4, 5, 10]).bnf 10 = some 15 := by decide +kernel

end Verif.Grammar
