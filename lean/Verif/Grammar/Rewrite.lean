import Verif.Grammar.WfCheck
import Verif.Grammar.WfCheck
import Verif.Grammar.BnfProps

/-!
# Rewriting a parsed grammar yields a well-formed one
-/

namespace Verif.Grammar

/-- What the parser guarantees: the constructors of kdev-pg-parser.yy are called with nodes made before, symbols come from `pushSymbol`,
tokens from `terminal`, and there is one zero node. -/
structure ParsedOk (W : World) : Prop where
  zero : W.node W.zero = some .zero
  oneZero : ∀ n, W.node n = some .zero → n = W.zero
  terminals : ∀ t ∈ W.terminals, W.node t = some .term
  rules : ∀ r ∈ W.rules, ∃ i s, W.node r = some (.evolve i s)
  valid : ∀ n m, Part W n m → ∃ it, W.node m = some it
  parts : ∀ n m i s, Part W n m → W.node m ≠ some (.evolve i s)
  order : ∀ n m, Part W n m → m < n ∨ ∃ o, W.node n = some (.op o)
  symbols : ∀ n s, (W.node n = some (.nonterm s) ∨ W.node n = some (.inlined (some s)) ∨ ∃ i, W.node n = some (.evolve i s)) →
    W.node s = some .sym
  inlined : ∀ n, W.node n ≠ some (.inlined none)
  opBase : ∀ n o, W.node n = some (.op o) → ∃ s, W.node o.base = some (.nonterm s)
  opToks : ∀ n o, W.node n = some (.op o) → (∀ t ∈ o.pre ++ o.post ++ o.bin, W.node t = some .term) ∧
    ∀ p ∈ o.tern ++ o.paren, W.node p.1 = some .term ∧ W.node p.2 = some .term

/-- A node that is a sequence or an alternative of nodes with property `P`. -/
def MadeOk (P : Nat → Prop) (it : Item) : Prop := (∃ l r, it = .cons l r ∧ P l ∧ P r) ∨ ∃ l r, it = .alt l r ∧ P l ∧ P r

theorem MadeOk.mono {P Q : Nat → Prop} (h : ∀ n, P n → Q n) {it : Item} (hi : MadeOk P it) : MadeOk Q it := by
  rcases hi with ⟨l, r, e, h1, h2⟩ | ⟨l, r, e, h1, h2⟩
  · exact .inl ⟨l, r, e, h _ h1, h _ h2⟩
  · exact .inr ⟨l, r, e, h _ h1, h _ h2⟩

theorem body_made {P : Nat → Prop} {top pos : Nat} {b : OpBody} (ht : P top) (hb : ∀ t ∈ b.toks, P t) (hp : ∀ i < b.size, P (pos + i)) :
    ∀ it ∈ b.nodes top pos, MadeOk P it := by
  intro it hit
  have p1 := fun h => hp 1 h
  have p2 := fun h => hp 2 h
  have p3 := fun h => hp 3 h
  cases b with
  | pre t => simp only [OpBody.nodes, List.mem_singleton] at hit; subst hit; exact .inl ⟨_, _, rfl, hb t (by simp [OpBody.toks]), ht⟩
  | post t => simp only [OpBody.nodes, List.mem_singleton] at hit; subst hit; exact .inl ⟨_, _, rfl, ht, hb t (by simp [OpBody.toks])⟩
  | bin t =>
    simp only [OpBody.nodes, List.mem_cons, List.not_mem_nil, or_false] at hit
    rcases hit with rfl | rfl
    · exact .inl ⟨_, _, rfl, ht, p1 (by simp [OpBody.size])⟩
    · exact .inl ⟨_, _, rfl, hb t (by simp [OpBody.toks]), ht⟩
  | tern t u =>
    simp only [OpBody.nodes, List.mem_cons, List.not_mem_nil, or_false] at hit
    rcases hit with rfl | rfl | rfl | rfl
    · exact .inl ⟨_, _, rfl, ht, p1 (by simp [OpBody.size])⟩
    · exact .inl ⟨_, _, rfl, hb t (by simp [OpBody.toks]), p2 (by simp [OpBody.size])⟩
    · exact .inl ⟨_, _, rfl, ht, p3 (by simp [OpBody.size])⟩
    · exact .inl ⟨_, _, rfl, hb u (by simp [OpBody.toks]), ht⟩
  | paren t u =>
    simp only [OpBody.nodes, List.mem_cons, List.not_mem_nil, or_false] at hit
    rcases hit with rfl | rfl
    · exact .inl ⟨_, _, rfl, hb t (by simp [OpBody.toks]), p1 (by simp [OpBody.size])⟩
    · exact .inl ⟨_, _, rfl, ht, hb u (by simp [OpBody.toks])⟩

theorem nodes_length (top pos : Nat) (b : OpBody) : (b.nodes top pos).length = b.size := by cases b <;> rfl

theorem opNodes_made {P : Nat → Prop} {top base : Nat} (ht : P top) (hbase : P base) : ∀ (bs : List OpBody) (pos : Nat), (∀ b ∈ bs, ∀ t ∈ b.toks, P t) →
    (∀ i < (opNodes top base pos bs).length, P (pos + i)) → ∀ it ∈ opNodes top base pos bs, MadeOk P it := by
  intro bs
  induction bs with
  | nil => intro pos _ _ it h; cases h
  | cons b bs ih =>
    intro pos hb hp it hit
    simp only [opNodes, nodes_length] at hit hp
    simp only [List.length_cons, List.length_append, nodes_length] at hp
    have hsz : 0 < b.size := by cases b <;> simp [OpBody.size]
    rcases List.mem_cons.1 hit with rfl | hit
    · refine .inr ⟨_, _, rfl, hp 1 (by omega), ?_⟩
      cases bs with
      | nil => exact hbase
      | cons b' bs =>
        rw [if_neg (by simp)]
        have := hp (1 + b.size) (by simp only [opNodes, List.length_cons]; omega)
        simpa [Nat.add_assoc] using this
    · rcases List.mem_append.1 hit with hit | hit
      · exact body_made ht (hb b (by simp)) (fun i hi => by have := hp (1 + i) (by omega); simpa [Nat.add_assoc] using this) it hit
      · refine ih _ (fun b hb' => hb b (by simp [hb'])) (fun i hi => ?_) it hit
        have := hp (1 + b.size + i) (by omega)
        simpa [Nat.add_assoc] using this

theorem bodies_toks {W : World} {n : Nat} {o : OpItem} (hw : ParsedOk W) (hn : W.node n = some (.op o)) {b : OpBody} (hb : b ∈ o.bodies) {t : Nat} (ht : t ∈ b.toks) :
    W.node t = some .term := by
  obtain ⟨h1, h2⟩ := hw.opToks n o hn
  rcases mem_bodies.1 hb with ⟨u, hu, rfl⟩ | ⟨u, hu, rfl⟩ | ⟨u, hu, rfl⟩ | ⟨p, hp, rfl⟩ | ⟨p, hp, rfl⟩
  · simp only [OpBody.toks, List.mem_singleton] at ht; subst ht; exact h1 _ (by simp [hu])
  · simp only [OpBody.toks, List.mem_singleton] at ht; subst ht; exact h1 _ (by simp [hu])
  · simp only [OpBody.toks, List.mem_singleton] at ht; subst ht; exact h1 _ (by simp [hu])
  · have := h2 p (by simp [hp])
    simp only [OpBody.toks, List.mem_cons, List.not_mem_nil, or_false] at ht
    rcases ht with rfl | rfl
    · exact this.1
    · exact this.2
  · have := h2 p (by simp [hp])
    simp only [OpBody.toks, List.mem_cons, List.not_mem_nil, or_false] at ht
    rcases ht with rfl | rfl
    · exact this.1
    · exact this.2

/-- A node, but not a rule. -/
def Plain (W : World) (n : Nat) : Prop := ∃ it, W.node n = some it ∧ ∀ i s, it ≠ .evolve i s

/-- What holds while the nodes are made: the nodes of the parser are unchanged, the others refer to nodes. -/
structure Stage (W V : World) : Prop where
  old : ∃ ext, V.heap = W.heap ++ ext
  zero : V.zero = W.zero
  made : ∀ n it, W.heap.length ≤ n → V.node n = some it → MadeOk (Plain V) it

theorem Stage.node {W V : World} (h : Stage W V) {n : Nat} (hn : n < W.heap.length) : V.node n = W.node n := by
  obtain ⟨ext, e⟩ := h.old
  unfold World.node
  rw [e]; exact List.getElem?_append_left hn

theorem Stage.add {W V : World} (hw : ParsedOk W) (h : Stage W V) {n : Nat} (hn : n < W.heap.length) : Stage W (addBnf V n) := by
  have keep : ∀ m, Plain V m → Plain (addBnf V n) m := by
    rintro m ⟨it, h1, h2⟩; exact ⟨it, addBnf_node h1, h2⟩
  have hlen : W.heap.length ≤ V.heap.length := by obtain ⟨ext, e⟩ := h.old; rw [e]; simp
  have plain : ∀ {m it}, W.node m = some it → (∀ i s, it ≠ .evolve i s) → Plain V m := by
    intro m it hm hne
    exact ⟨it, by rw [h.node (lt_of_node hm)]; exact hm, hne⟩
  have partP : ∀ {m}, Part W n m → Plain V m := by
    intro m hp
    obtain ⟨it, hit⟩ := hw.valid _ _ hp
    exact plain hit (fun i s e => hw.parts _ _ i s hp (by rw [hit, e]))
  have ext : ∀ (ext : List Item) (V' : World), V'.heap = V.heap ++ ext → V'.zero = V.zero → (∀ m, Plain V m → Plain V' m) → (∀ it ∈ ext, MadeOk (Plain V') it) → Stage W V' := by
    intro ext V' e ez hk hm
    refine ⟨?_, ez.trans h.zero, ?_⟩
    · obtain ⟨x, hx⟩ := h.old; exact ⟨x ++ ext, by rw [e, hx]; simp⟩
    · intro m it hle hit
      rcases Nat.lt_or_ge m V.heap.length with hlt | hge
      · refine (h.made m it hle ?_).mono hk
        unfold World.node at hit ⊢
        rwa [e, List.getElem?_append_left hlt] at hit
      · unfold World.node at hit
        rw [e, List.getElem?_append_right hge] at hit
        exact hm it (List.mem_of_getElem? hit)
  have hnew : ∀ (V' : World) (ext : List Item), V'.heap = V.heap ++ ext → (∀ it ∈ ext, ∀ i s, it ≠ .evolve i s) → ∀ i < ext.length, Plain V' (V.heap.length + i) := by
    intro V' ext e hne i hi
    refine ⟨ext[i], ?_, hne _ (List.getElem_mem hi)⟩
    unfold World.node
    rw [e, List.getElem?_append_right (by omega)]
    simp [hi]
  have hV := h.node hn
  have hz : Plain V V.zero := by rw [h.zero]; exact plain hw.zero (by simp)
  cases e : W.node n with
  | none => have e' := hV.trans e; have : addBnf V n = V := by simp [addBnf, e']
            rw [this]; exact h
  | some it =>
    have e' := hV.trans e
    have loop : ∀ (V' : World) (i : Nat), V'.heap = bnfLoop V.heap V.zero i → V'.zero = V.zero → (∀ m, Plain V m → Plain V' m) → Part W n i → Stage W V' := by
      intro V' i eh ez hk hp
      have hn' := hnew V' [.cons i (V.heap.length + 1), .alt V.zero V.heap.length] eh (by simp)
      refine ext _ V' eh ez hk ?_
      intro it hit
      simp only [List.mem_cons, List.not_mem_nil, or_false] at hit
      rcases hit with rfl | rfl
      · exact .inl ⟨_, _, rfl, hk _ (partP hp), hn' 1 (by simp)⟩
      · exact .inr ⟨_, _, rfl, hk _ hz, hn' 0 (by simp)⟩
    cases it with
    | plus i =>
      have ea : addBnf V n = { V with heap := bnfLoop V.heap V.zero i, bnf := fun m => if m = n then some V.heap.length else V.bnf m } := by simp [addBnf, e']
      exact loop _ i (by rw [ea]) (by rw [ea]) keep (.plus e)
    | star i =>
      have ea : addBnf V n = { V with heap := bnfLoop V.heap V.zero i, bnf := fun m => if m = n then some (V.heap.length + 1) else V.bnf m } := by simp [addBnf, e']
      exact loop _ i (by rw [ea]) (by rw [ea]) keep (.star e)
    | op o =>
      have ea : addBnf V n = { V with heap := (bnfOp V.heap o).1, bnf := fun m => if m = n then some (bnfOp V.heap o).2 else V.bnf m } := by simp [addBnf, e']
      have eh : (addBnf V n).heap = V.heap ++ opNodes V.heap.length o.base V.heap.length o.bodies := by rw [ea]; rfl
      have hn' := hnew (addBnf V n) _ eh (by
        have : ∀ it ∈ opNodes V.heap.length o.base V.heap.length o.bodies, MadeOk (fun _ => True) it :=
          opNodes_made trivial trivial _ _ (fun _ _ _ _ => trivial) (fun _ _ => trivial)
        intro it hit i s hc
        rcases this it hit with ⟨l, r, h, _⟩ | ⟨l, r, h, _⟩ <;> rw [h] at hc <;> cases hc)
      refine ext _ _ eh (by rw [ea]) keep ?_
      intro it hit
      have hne : opNodes V.heap.length o.base V.heap.length o.bodies ≠ [] := List.ne_nil_of_mem hit
      refine opNodes_made (hn' 0 (List.length_pos_iff.2 hne)) (keep _ (partP (.opBase e))) _ _ ?_ hn' it hit
      intro b hb t ht
      exact keep _ (plain (bodies_toks hw e hb ht) (by simp))
    | zero => have : addBnf V n = V := by simp [addBnf, e']
              rw [this]; exact h
    | sym => have : addBnf V n = V := by simp [addBnf, e']
             rw [this]; exact h
    | term => have : addBnf V n = V := by simp [addBnf, e']
              rw [this]; exact h
    | action i => have : addBnf V n = V := by simp [addBnf, e']
                  rw [this]; exact h
    | alt l r => have : addBnf V n = V := by simp [addBnf, e']
                 rw [this]; exact h
    | cons l r => have : addBnf V n = V := by simp [addBnf, e']
                  rw [this]; exact h
    | evolve i s => have : addBnf V n = V := by simp [addBnf, e']
                    rw [this]; exact h
    | tryc l r => have : addBnf V n = V := by simp [addBnf, e']
                  rw [this]; exact h
    | nonterm s => have : addBnf V n = V := by simp [addBnf, e']
                   rw [this]; exact h
    | annot s => have : addBnf V n = V := by simp [addBnf, e']
                 rw [this]; exact h
    | cond s => have : addBnf V n = V := by simp [addBnf, e']
                rw [this]; exact h
    | inlined s => have : addBnf V n = V := by simp [addBnf, e']
                   rw [this]; exact h

theorem stage_foldl {W : World} (hw : ParsedOk W) : ∀ (ns : List Nat) (V : World), (∀ n ∈ ns, n < W.heap.length) → Stage W V → Stage W (ns.foldl addBnf V) := by
  intro ns
  induction ns with
  | nil => exact fun V _ h => h
  | cons n ns ih => exact fun V hns h => ih _ (fun m hm => hns m (by simp [hm])) (h.add hw (hns n (by simp)))

theorem foldl_terminals (ns : List Nat) (W : World) : (ns.foldl addBnf W).terminals = W.terminals := by
  induction ns generalizing W with
  | nil => rfl
  | cons n ns ih => rw [List.foldl_cons, ih]; unfold addBnf; split <;> rfl

/-- The world after the rewriting, as assumed by the theorems on FIRST and FOLLOW, results from every grammar the parser can yield. -/
theorem C43_well_formed {W : World} (hw : ParsedOk W) (ns : List Nat) (hnd : ns.Nodup) (hns : ∀ n ∈ ns, n < W.heap.length)
    (hall : ∀ n it, W.node n = some it → (∃ i, it = .plus i) ∨ (∃ i, it = .star i) ∨ (∃ o, it = .op o) → n ∈ ns) : Wf (rewrite W ns) := by
  obtain ⟨h1, h2⟩ := C43_nodes W ns hnd hns hall
  have hst : Stage W (rewrite W ns) := stage_foldl hw ns _ hns ⟨⟨[], by simp⟩, rfl, fun n it hle hn => by
    have := lt_of_node hn; simp only at this; omega⟩
  have hpar : (rewrite W ns).parsed = W.heap.length := (foldl_addBnf ns hnd { W with parsed := W.heap.length } [] (Nat.le_refl _) (by simp)
    (fun m hm => ⟨W.heap[m]'(hns m hm), by simp [World.node, hns m hm]⟩)).2.2
  have hz : (rewrite W ns).zero = W.zero := hst.zero
  have hr : (rewrite W ns).rules = W.rules := (foldl_rules ns _).1
  have ht : (rewrite W ns).terminals = W.terminals := foldl_terminals ns _
  -- a node that is neither sequence nor alternative was there before
  have back : ∀ {n it}, (rewrite W ns).node n = some it → (∀ l r, it ≠ .cons l r) → (∀ l r, it ≠ .alt l r) → W.node n = some it := by
    intro n it hn g1 g2
    rcases Nat.lt_or_ge n W.heap.length with h | h
    · rw [← h1 n h]; exact hn
    · rcases hst.made n it h hn with ⟨l, r, e, _⟩ | ⟨l, r, e, _⟩
      · exact absurd e (g1 l r)
      · exact absurd e (g2 l r)
  have fwd : ∀ {n it}, W.node n = some it → (rewrite W ns).node n = some it := fun h => by rw [h1 _ (lt_of_node h)]; exact h
  have partOld : ∀ {n m}, Part (rewrite W ns) n m → n < W.heap.length → Part W n m := by
    intro n m hp hn
    obtain ⟨it, hit, hm⟩ := part_iff.1 hp
    exact part_iff.2 ⟨it, by rw [← h1 n hn]; exact hit, hm⟩
  have partNew : ∀ {n m}, Part (rewrite W ns) n m → W.heap.length ≤ n → Plain (rewrite W ns) m := by
    intro n m hp hn
    obtain ⟨it, hit, hm⟩ := part_iff.1 hp
    rcases hst.made n it hn hit with ⟨l, r, rfl, g1, g2⟩ | ⟨l, r, rfl, g1, g2⟩ <;>
    · simp only [Item.parts, List.mem_cons, List.not_mem_nil, or_false] at hm
      rcases hm with rfl | rfl
      · exact g1
      · exact g2
  refine ⟨⟨fun n i hn => ?_, fun n i hn => ?_, fun n o hn => ?_⟩, ?_, ?_, ?_, ?_, ?_, ?_, ?_, ?_, ?_, ?_, ?_, ?_⟩
  · exact (h2 n (lt_of_node (back hn (by simp) (by simp)))).1 i hn
  · exact (h2 n (lt_of_node (back hn (by simp) (by simp)))).2.1 i hn
  · exact (h2 n (lt_of_node (back hn (by simp) (by simp)))).2.2 o hn
  · rw [hz]; exact fwd hw.zero
  · intro n hn; rw [hz]; exact hw.oneZero n (back hn (by simp) (by simp))
  · intro t h; rw [ht] at h; exact fwd (hw.terminals t h)
  · intro r h
    rw [hr] at h
    obtain ⟨i, s, e⟩ := hw.rules r h
    exact ⟨by rw [hpar]; exact lt_of_node e, i, s, fwd e⟩
  · intro n m hp
    rcases Nat.lt_or_ge n W.heap.length with h | h
    · obtain ⟨it, e⟩ := hw.valid n m (partOld hp h)
      exact ⟨it, fwd e⟩
    · obtain ⟨it, e, _⟩ := partNew hp h
      exact ⟨it, e⟩
  · intro n m i s hp e
    rcases Nat.lt_or_ge n W.heap.length with h | h
    · exact hw.parts n m i s (partOld hp h) (back e (by simp) (by simp))
    · obtain ⟨it, e', hne⟩ := partNew hp h
      rw [e] at e'; cases e'; exact hne i s rfl
  · intro n m hn hp
    rw [hpar] at hn
    rcases hw.order n m (partOld hp hn) with h | ⟨o, h⟩
    · exact .inl h
    · exact .inr ⟨o, fwd h⟩
  · intro n it hn hit
    rw [hpar] at hn
    rcases hst.made n it hn hit with ⟨l, r, e, _⟩ | ⟨l, r, e, _⟩
    · exact .inl ⟨l, r, e⟩
    · exact .inr ⟨l, r, e⟩
  · rintro n s (h | h | ⟨i, h⟩)
    · exact fwd (hw.symbols n s (.inl (back h (by simp) (by simp))))
    · exact fwd (hw.symbols n s (.inr (.inl (back h (by simp) (by simp)))))
    · exact fwd (hw.symbols n s (.inr (.inr ⟨i, back h (by simp) (by simp)⟩)))
  · intro n hn; exact hw.inlined n (back hn (by simp) (by simp))
  · intro n o hn
    obtain ⟨s, h⟩ := hw.opBase n o (back hn (by simp) (by simp))
    exact ⟨s, fwd h⟩
  · intro n o hn
    obtain ⟨g1, g2⟩ := hw.opToks n o (back hn (by simp) (by simp))
    exact ⟨fun t h => fwd (g1 t h), fun p h => ⟨fwd (g2 p h).1, fwd (g2 p h).2⟩⟩

/-! ### A decision procedure, and an instance -/

def Item.isRule : Item → Bool
  | .evolve _ _ => true
  | _ => false

def Item.hasBnf : Item → Bool
  | .plus _ => true
  | .star _ => true
  | .op _ => true
  | _ => false

def parsedB (W : World) : Bool :=
  W.node W.zero = some .zero &&
  W.terminals.all (fun t => W.node t = some .term) &&
  W.rules.all (fun r => match W.node r with | some (.evolve _ _) => true | _ => false) &&
  (List.range W.heap.length).all fun n => match W.node n with
    | none => true
    | some it =>
      (it != .zero || n = W.zero) && it != .inlined none &&
      it.parts.all (fun m => match W.node m with | none => false | some it' => !it'.isRule && (it.isOp || decide (m < n))) &&
      (match it with
        | .nonterm s => W.node s = some .sym
        | .inlined (some s) => W.node s = some .sym
        | .evolve _ s => W.node s = some .sym
        | .op o => (match W.node o.base with | some (.nonterm _) => true | _ => false) &&
          (o.pre ++ o.post ++ o.bin).all (fun t => W.node t = some .term) &&
          (o.tern ++ o.paren).all (fun p => W.node p.1 = some .term && W.node p.2 = some .term)
        | _ => true)

theorem parsedOk_of_parsedB {W : World} (h : parsedB W = true) : ParsedOk W := by
  simp only [parsedB, Bool.and_eq_true, decide_eq_true_eq] at h
  obtain ⟨⟨⟨h1, h2⟩, h3⟩, h4⟩ := h
  have at' : ∀ {n it}, W.node n = some it → _ := fun {n it} hn => List.all_eq_true.1 h4 n (List.mem_range.2 (lt_of_node hn))
  have parts : ∀ n m, Part W n m → ∃ it it', W.node n = some it ∧ W.node m = some it' ∧ (∀ i s, it' ≠ .evolve i s) ∧ (m < n ∨ ∃ o, it = .op o) := by
    intro n m hp
    obtain ⟨it, hn, hm⟩ := part_iff.1 hp
    have := at' hn
    simp only [hn, Bool.and_eq_true] at this
    have := List.all_eq_true.1 this.1.2 m hm
    cases e : W.node m with
    | none => rw [e] at this; cases this
    | some it' =>
      rw [e] at this
      simp only [Bool.and_eq_true, Bool.or_eq_true, decide_eq_true_eq, Bool.not_eq_true'] at this
      refine ⟨it, it', hn, rfl, ?_, ?_⟩
      · rintro i s rfl; exact absurd this.1 (by simp [Item.isRule])
      · rcases this.2 with h | h
        · cases it with
          | op o => exact .inr ⟨o, rfl⟩
          | _ => cases h
        · exact .inl h
  constructor
  · exact h1
  · intro n hn
    have := at' hn
    simp only [hn, Bool.and_eq_true] at this
    simpa using this.1.1.1
  · intro t ht; simpa using List.all_eq_true.1 h2 t ht
  · intro r hr
    have := List.all_eq_true.1 h3 r hr
    split at this
    · next i s e => exact ⟨i, s, e⟩
    · cases this
  · intro n m hp; obtain ⟨_, it', _, h, _⟩ := parts n m hp; exact ⟨it', h⟩
  · intro n m i s hp e
    obtain ⟨_, it', _, h, h', _⟩ := parts n m hp
    rw [e] at h; cases h; exact h' i s rfl
  · intro n m hp
    obtain ⟨it, _, h, _, _, h'⟩ := parts n m hp
    rcases h' with h' | ⟨o, rfl⟩
    · exact .inl h'
    · exact .inr ⟨o, h⟩
  · rintro n s (hn | hn | ⟨i, hn⟩) <;>
    · have := at' hn
      simp only [hn, Bool.and_eq_true] at this
      simpa using this.2
  · intro n hn
    have := at' hn
    simp [hn] at this
  · intro n o hn
    have := at' hn
    simp only [hn, Bool.and_eq_true] at this
    have := this.2.1.1
    split at this
    · next s e => exact ⟨s, e⟩
    · cases this
  · intro n o hn
    have := at' hn
    simp only [hn, Bool.and_eq_true] at this
    refine ⟨fun t ht => ?_, fun p hp => ?_⟩
    · simpa using List.all_eq_true.1 this.2.1.2 t ht
    · simpa using List.all_eq_true.1 this.2.2 p hp

example : Wf (rewrite sampleLoops [4, 5, 10]) := by
  refine C43_well_formed (parsedOk_of_parsedB (by decide +kernel)) [4, 5, 10] (by decide) (by decide) ?_
  have : ∀ n < 11, n ∈ [4, 5, 10] ∨ (sampleLoops.node n).all (fun it => !it.hasBnf) = true := by decide +kernel
  intro n it hn h
  rcases this n (lt_of_node hn) with h' | h'
  · exact h'
  · rw [hn] at h'
    rcases h with ⟨i, rfl⟩ | ⟨i, rfl⟩ | ⟨o, rfl⟩ <;> cases h'

end Verif.Grammar
