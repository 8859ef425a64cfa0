import Verif.Front.World
import Verif.Grammar.Rewrite
import Verif.Gen.Spec

/-!
# Lemmas: rules without inlined symbols, bare code and `try`
-/

namespace Verif.Front

open Verif.Grammar (Tables find World Der ParsedOk Part OpItem MadeOk)
open Verif.Syntax (Name Tok Nt Rule)

/-- No node for an inlined symbol, none for bare code and `try` unless `b` allows them, and `q` holds for the operators of operator rules. -/
def SimpleNode (b : Prop) (q : OpItem → Prop) : Grammar.Item → Prop
  | .inlined _ => False
  | .action none => b
  | .tryc _ _ => b
  | .op o => q o
  | _ => True

def SimpleHeap (b : Prop) (q : OpItem → Prop) (h : List Grammar.Item) : Prop := ∀ it ∈ h, SimpleNode b q it

variable {b : Prop} {q : OpItem → Prop}

theorem SimpleHeap.append {h h' : List Grammar.Item} (h1 : SimpleHeap b q h) (h2 : SimpleHeap b q h') : SimpleHeap b q (h ++ h') := by
  intro it hit
  rcases List.mem_append.1 hit with h | h
  · exact h1 _ h
  · exact h2 _ h

theorem SimpleHeap.one {h : List Grammar.Item} (h1 : SimpleHeap b q h) {it : Grammar.Item} (h2 : SimpleNode b q it) : SimpleHeap b q (h ++ [it]) := h1.append (by simpa [SimpleHeap] using h2)

theorem simple_new {st : St} (h : SimpleHeap b q st.heap) {it : Grammar.Item} (h2 : SimpleNode b q it) : SimpleHeap b q (st.new it).1.heap := h.one h2

theorem simple_grow {st : St} (h : SimpleHeap b q st.heap) {p : Tables Name × Nat} {it : Grammar.Item} (h2 : SimpleNode b q it) : SimpleHeap b q (st.grow p it).1.heap :=
  h.append fun x hx => by rw [(List.mem_replicate.1 hx).2]; exact h2

theorem simple_zero {st : St} (h : SimpleHeap b q st.heap) : SimpleHeap b q st.zeroItem.1.heap := by
  unfold St.zeroItem
  split
  · exact h
  · exact h.one trivial

theorem simple_visit : ∀ {f n c : Nat} {h h' : List Grammar.Item}, Clone.visit h f n = some (h', c) → SimpleHeap b q h → SimpleHeap b q h' := by
  intro f
  induction f with
  | zero => intro n c h h' hv; simp [Clone.visit] at hv
  | succ f ih =>
    intro n c h h' hv hs
    have one : ∀ {m : Nat} {g : List Grammar.Item × Nat → Option (List Grammar.Item × Nat)}, (Clone.visit h f m).bind g = some (h', c) →
        (∀ h1 k, g (h1, k) = some (h', c) → SimpleHeap b q h1 → SimpleHeap b q h') → SimpleHeap b q h' := by
      intro m g hv hg
      obtain ⟨⟨h1, k⟩, e1, e2⟩ := bind_some hv
      exact hg h1 k e2 (ih e1 hs)
    rw [Clone.visit] at hv
    cases hn : h[n]? with
    | none => rw [hn] at hv; cases hv
    | some it =>
      have hit := hs _ (List.mem_of_getElem? hn)
      rw [hn] at hv
      cases it with
      | zero => cases hv; exact hs
      | sym => cases hv; exact hs
      | term => cases hv; exact hs
      | op o => cases hv; exact hs
      | nonterm s => cases hv; exact hs.one trivial
      | inlined s => exact hit.elim
      | plus i => exact one hv fun h1 k e h2 => by cases e; exact h2.one trivial
      | star i => exact one hv fun h1 k e h2 => by cases e; exact h2.one trivial
      | action i => cases i with
        | none => cases hv
        | some i => exact one hv fun h1 k e h2 => by cases e; exact h2.one trivial
      | alt l r =>
        refine one hv fun h1 k e h2 => ?_
        obtain ⟨⟨h3, k'⟩, e1, e2⟩ := bind_some e
        cases e2
        exact (ih e1 h2).one trivial
      | cons l r =>
        refine one hv fun h1 k e h2 => ?_
        obtain ⟨⟨h3, k'⟩, e1, e2⟩ := bind_some e
        cases e2
        exact (ih e1 h2).one trivial
      | evolve i s => exact one hv fun h1 k e h2 => by cases e; exact h2.one trivial
      | tryc t c => cases c with
        | none => exact one hv fun h1 k e h2 => by cases e; exact h2.one hit
        | some c =>
          refine one hv fun h1 k e h2 => ?_
          obtain ⟨⟨h3, k'⟩, e1, e2⟩ := bind_some e
          cases e2
          exact (ih e1 h2).one hit
      | annot i => exact one hv fun h1 k e h2 => by cases e; exact h2.one trivial
      | cond i => exact ih hv hs

theorem simple_sepList {h h' : List Grammar.Item} {n m k : Nat} (hv : Clone.sepList h n m = some (h', k)) (hs : SimpleHeap b q h) : SimpleHeap b q h' := by
  obtain ⟨⟨h1, a⟩, e1, hv⟩ := bind_some hv
  obtain ⟨⟨h2, b⟩, e2, hv⟩ := bind_some hv
  cases hv
  exact (((simple_visit e2 (simple_visit e1 hs)).one (it := .cons a b) trivial).one (it := .star h2.length) trivial).one trivial

theorem simple_of_clone : ∀ {i : Syntax.Item}, Simple b (Syntax.clone i) → Simple b i := by
  intro i
  induction i with
  | alt i j ih jh => exact fun h => ⟨ih h.1, jh h.2⟩
  | cons i j ih jh => exact fun h => ⟨ih h.1, jh h.2⟩
  | rollback i j ih jh => exact fun h => ⟨h.1, ih h.2.1, jh h.2.2⟩
  | ann _ i ih => exact ih
  | plus i ih => exact ih
  | star i ih => exact ih
  | act i _ ih => exact ih
  | cond _ i ih => exact ih
  | recover i ih => exact fun h => ⟨h.1, ih h.2⟩
  | code _ => exact fun h => h.elim
  | op => exact fun h => h
  | wild => exact fun h => h
  | inl _ => exact fun h => h
  | _ => exact fun _ => trivial

theorem act_simple {nt : Nt} {ts : List Tok} {i : Syntax.Item} {st st' : St} {n : Nat} (h : Act nt ts i st st' n) : Simple b i → SimpleHeap b q st.heap → SimpleHeap b q st'.heap := by
  have sym : ∀ {st st' : St} {s : Name} {k : Nat}, st.symbol s = (st', k) → SimpleHeap b q st.heap → SimpleHeap b q st'.heap := by
    intro st st' s k h hs
    have : SimpleHeap b q (st.symbol s).1.heap := simple_grow hs trivial
    rwa [h] at this
  induction h with
  | zero => exact fun _ hs => simple_zero hs
  | paren _ ih => exact ih
  | tryIt _ ih => exact ih
  | atom _ ih => exact ih
  | inl => exact fun h => h.elim
  | annEq _ ih => exact fun h hs => simple_new (ih h hs) trivial
  | annColon _ ih => exact fun h hs => simple_new (ih h hs) trivial
  | seqEq _ ih => exact fun h hs => simple_new (ih h hs) trivial
  | seqColon _ ih => exact fun h hs => simple_new (ih h hs) trivial
  | nonterm h => exact fun _ hs => simple_new (sym h hs) trivial
  | call h => exact fun _ hs => simple_new (sym h hs) trivial
  | term => exact fun _ hs => simple_grow hs trivial
  | recover _ ih => exact fun h hs => simple_new (ih h.2 hs) h.1
  | rollback _ _ ih jh => exact fun h hs => simple_new (jh h.2.2 (ih h.2.1 hs)) h.1
  | plus _ ih => exact fun h hs => simple_new (ih h hs) trivial
  | star _ ih => exact fun h hs => simple_new (ih h hs) trivial
  | primary _ ih => exact ih
  | opt _ hz ih =>
    intro h hs
    have := simple_zero (ih h.1 hs)
    rw [hz] at this
    exact simple_new this trivial
  | unary _ ih => exact ih
  | sep _ _ hv ih jh => exact fun h hs => simple_sepList hv (jh (simple_of_clone h.2.1) (ih h.1 hs))
  | act _ ih => exact fun h hs => simple_new (ih h hs) trivial
  | code => exact fun h hs => simple_new hs h
  | one _ ih => exact ih
  | seq _ _ _ ih jh => exact fun h hs => simple_new (jh h.2 (ih h.1 hs)) trivial
  | sequence _ ih => exact ih
  | cond _ ih => exact fun h hs => simple_new (ih h hs) trivial
  | single _ ih => exact ih
  | alt _ _ ih jh => exact fun h hs => simple_new (jh h.2 (ih h.1 hs)) trivial

theorem rule_simple {st : St} {n : Nat} {s : Name} (hs : SimpleHeap b q st.heap) : SimpleHeap b q (st.rule n s).heap :=
  simple_new (st := (st.symbol s).1) (simple_grow hs trivial) (it := .evolve n (st.symbol s).2) trivial

/-- The operators are those of an operator rule. -/
def OpOf (st : St) (rs : List Rule) (o : OpItem) : Prop := ∃ r ∈ rs, ∃ n e, r.item = .op e ∧ OpRep (st.heap[·]?) st.tab n e ∧ st.heap[n]? = some (.op o)

theorem OpOf.mono {st st' : St} (h : Ext st st') {rs rs' : List Rule} (hr : ∀ r ∈ rs, r ∈ rs') {o : OpItem} (ho : OpOf st rs o) : OpOf st' rs' o := by
  obtain ⟨r, h1, n, e, h2, h3, h4⟩ := ho
  exact ⟨r, hr r h1, n, e, h2, h.irep (i := .op e) h3, h.heap _ _ h4⟩

theorem SimpleHeap.mono {q' : OpItem → Prop} (hq : ∀ o, q o → q' o) {h : List Grammar.Item} (hs : SimpleHeap b q h) : SimpleHeap b q' h := by
  intro it hit
  have := hs it hit
  cases it with
  | op o => exact hq o this
  | action i => cases i <;> exact this
  | _ => exact this

theorem op_simple {bs : List Tok} {s a : Name} {os : List Syntax.OpDecl} {st st1 st2 : St} {n : Nat} {o : OpItem} {rs : List Rule} {r : Rule} (h : Act .atom bs (.nonterm s a) st st1 n)
    (hd : st1.decls { base := n } os = some (st2, o)) (hb : Built st rs) (ht : Terms st.Knows r.item) (hr : r.item = .op ⟨.sym s a, os⟩) (hs : SimpleHeap b (OpOf st rs) st.heap) :
    SimpleHeap b (OpOf (st2.opRule o r.sym) (rs ++ [r])) (st2.opRule o r.sym).heap := by
  rw [hr] at ht
  have h1 := op_done h hd hb.inv ht
  obtain ⟨_, h2, _⟩ := rule_built (r := r) hb (by rw [hr]; exact h1)
  obtain ⟨⟨x, e⟩, _⟩ := decls_spec hd (fun d hd q hq => (act_done h hb.inv trivial).knows.2 (ht d hd q hq)) .nil
  have h3 : SimpleHeap b (OpOf (st2.opRule o r.sym) (rs ++ [r])) st.heap := hs.mono fun o ho => ho.mono h2 fun r h => List.mem_append_left _ h
  have h4 : SimpleHeap b (OpOf (st2.opRule o r.sym) (rs ++ [r])) st2.heap := by
    have g := act_simple h trivial h3
    have e2 : st2.heap = st1.heap := by rw [e]
    rw [e2]; exact g
  obtain ⟨_, g2, _⟩ := symbol_spec (st' := ((st2.new (.op o)).1.symbol r.sym).1) (k := ((st2.new (.op o)).1.symbol r.sym).2) h1.inv rfl
  have g3 : Ext (st2.new (.op o)).1 (st2.opRule o r.sym) := by
    have g4 := g2.trans (ext_new _ (it := .evolve (st2.new (.op o)).2 ((st2.new (.op o)).1.symbol r.sym).2) (by simp))
    exact ⟨g4.heap, g4.sym, g4.term⟩
  refine rule_simple (simple_new h4 ?_)
  exact ⟨r, by simp, _, _, hr, g3.irep (i := .op _) h1.rep, g3.heap _ _ (get_new _ _)⟩

theorem actRs_simple {ts : List Tok} {rs : List Rule} {st st' : St} (h : ActRs ts rs st st') : Built st [] → (∀ r ∈ rs, Terms st.Knows r.item) → (∀ r ∈ rs, Simple b r.item) →
    SimpleHeap b (OpOf st []) st.heap → SimpleHeap b (OpOf st' rs) st'.heap := by
  induction h with
  | nil => exact fun _ _ _ hs => hs
  | @more _ _ _ r _ _ _ h' h ih =>
    intro hb ht hr hs
    have hs := ih hb (fun r h => ht r (List.mem_append_left _ h)) (fun r h => hr r (List.mem_append_left _ h)) hs
    obtain ⟨b1, b2, b3⟩ := actRs_built h' hb fun r hr => ht r (List.mem_append_left _ hr)
    have hr := hr _ (List.mem_append_right _ (List.mem_singleton.2 rfl))
    have ht := ht r (List.mem_append_right _ (List.mem_singleton.2 rfl))
    rw [← knows_eq b3] at ht
    obtain ⟨_, c2, _⟩ := actR_built h b1 ht
    have up := SimpleHeap.mono (fun o ho => OpOf.mono c2 (fun x h => List.mem_append_left [r] h) ho) hs
    cases h with
    | codeFirst h _ => exact rule_simple (act_simple h hr up)
    | declsFirst h _ _ => exact rule_simple (act_simple h hr up)
    | plain h _ => exact rule_simple (act_simple h hr up)
    | opDecls h _ hd _ _ => exact op_simple (r := ⟨_, _, _, _⟩) h hd b1 ht rfl hs
    | opCode h _ hd _ => exact op_simple (r := ⟨_, _, _, _⟩) h hd b1 ht rfl hs
    | opPlain h _ hd _ => exact op_simple (r := ⟨_, _, _, _⟩) h hd b1 ht rfl hs

theorem tokens_simple (ts : List (Name × Name)) : ∀ {st : St}, SimpleHeap b q st.heap → SimpleHeap b q (st.tokens ts).heap := by
  induction ts with
  | nil => exact fun h => h
  | cons t ts ih => exact fun h => ih (simple_grow h trivial)

theorem finish_simple {st : St} (h : SimpleHeap b q st.heap) : SimpleHeap b q st.finish.1.heap := simple_grow (simple_zero h) trivial

/-! ### The rewritten world -/

theorem part_of_node {V V' : World} {n m : Nat} (e : V'.node n = V.node n) (h : Part V' n m) : Part V n m := by
  cases h with
  | evolve h => exact .evolve (e ▸ h)
  | consL h => exact .consL (e ▸ h)
  | consR h => exact .consR (e ▸ h)
  | altL h => exact .altL (e ▸ h)
  | altR h => exact .altR (e ▸ h)
  | action h => exact .action (e ▸ h)
  | cond h => exact .cond (e ▸ h)
  | annot h => exact .annot (e ▸ h)
  | tryL h => exact .tryL (e ▸ h)
  | tryR h => exact .tryR (e ▸ h)
  | plus h => exact .plus (e ▸ h)
  | star h => exact .star (e ▸ h)
  | opBase h => exact .opBase (e ▸ h)

/-- A node that is neither a symbol nor an operator item. -/
def Fine (V : World) (n : Nat) : Prop := ∃ it, V.node n = some it ∧ it ≠ .sym ∧ ∀ o, it ≠ .op o

/-- What holds while the nodes of the rewriting are made. -/
structure Stage (W V : World) : Prop where
  old : ∃ ext, V.heap = W.heap ++ ext
  zero : V.zero = W.zero
  made : ∀ n it, W.heap.length ≤ n → V.node n = some it → MadeOk (Fine V) it

theorem Stage.node {W V : World} (h : Stage W V) {n : Nat} (hn : n < W.heap.length) : V.node n = W.node n := by
  obtain ⟨ext, e⟩ := h.old
  unfold World.node
  rw [e]; exact List.getElem?_append_left hn

/-- The parts of loops and of operator items are neither symbols nor operator items. -/
structure Tidy (W : World) : Prop where
  zero : Fine W W.zero
  plus : ∀ n i, W.node n = some (.plus i) → Fine W i
  star : ∀ n i, W.node n = some (.star i) → Fine W i
  base : ∀ n o, W.node n = some (.op o) → Fine W o.base
  toks : ∀ n o, W.node n = some (.op o) → ∀ x ∈ o.bodies, ∀ t ∈ x.toks, Fine W t

theorem Stage.add {W V : World} (hw : Tidy W) (h : Stage W V) {n : Nat} (hn : n < W.heap.length) : Stage W (Grammar.addBnf V n) := by
  have keep : ∀ m, Fine V m → Fine (Grammar.addBnf V n) m := by
    rintro m ⟨it, h1, h2⟩; exact ⟨it, Grammar.addBnf_node h1, h2⟩
  have fine : ∀ {m}, Fine W m → Fine V m := by
    rintro m ⟨it, hm, hne⟩
    exact ⟨it, by rw [h.node (get_lt hm)]; exact hm, hne⟩
  have ext : ∀ (ext : List Grammar.Item) (V' : World), V'.heap = V.heap ++ ext → V'.zero = V.zero → (∀ m, Fine V m → Fine V' m) → (∀ it ∈ ext, MadeOk (Fine V') it) → Stage W V' := by
    intro ext V' e ez hk hm
    refine ⟨?_, ez.trans h.zero, ?_⟩
    · obtain ⟨x, hx⟩ := h.old; exact ⟨x ++ ext, by rw [e, hx]; simp⟩
    · intro m it hle hit
      rcases Nat.lt_or_ge m V.heap.length with hlt | hge
      · refine (h.made m it hle ?_).mono hk
        unfold World.node at hit ⊢
        rwa [e, List.getElem?_append_left hlt] at hit
      · unfold World.node at hit
        rw [e, List.getElem?_append_right hge] at hit
        exact hm it (List.mem_of_getElem? hit)
  have hnew : ∀ (V' : World) (ext : List Grammar.Item), V'.heap = V.heap ++ ext → (∀ it ∈ ext, MadeOk (fun _ => True) it) → ∀ i < ext.length, Fine V' (V.heap.length + i) := by
    intro V' ext e hne i hi
    refine ⟨ext[i], ?_, ?_⟩
    · unfold World.node
      rw [e, List.getElem?_append_right (by omega)]
      simp [hi]
    · rcases hne _ (List.getElem_mem hi) with ⟨l, r, h, _⟩ | ⟨l, r, h, _⟩ <;> rw [h] <;> simp
  have hV := h.node hn
  have hz : Fine V V.zero := by rw [h.zero]; exact fine hw.zero
  have loop : ∀ (V' : World) (i : Nat), V'.heap = Grammar.bnfLoop V.heap V.zero i → V'.zero = V.zero → (∀ m, Fine V m → Fine V' m) → Fine V i → Stage W V' := by
    intro V' i eh ez hk hp
    have hn' := hnew V' [.cons i (V.heap.length + 1), .alt V.zero V.heap.length] eh (by
      intro it hit
      simp only [List.mem_cons, List.not_mem_nil, or_false] at hit
      rcases hit with rfl | rfl
      · exact .inl ⟨_, _, rfl, trivial, trivial⟩
      · exact .inr ⟨_, _, rfl, trivial, trivial⟩)
    refine ext _ V' eh ez hk ?_
    intro it hit
    simp only [List.mem_cons, List.not_mem_nil, or_false] at hit
    rcases hit with rfl | rfl
    · exact .inl ⟨_, _, rfl, hk _ hp, hn' 1 (by simp)⟩
    · exact .inr ⟨_, _, rfl, hk _ hz, hn' 0 (by simp)⟩
  unfold Grammar.addBnf at keep ⊢
  split at keep
  · rename_i hx
    exact loop _ _ rfl rfl keep (fine (hw.plus n _ (by rw [← hV]; exact hx)))
  · rename_i hx
    exact loop _ _ rfl rfl keep (fine (hw.star n _ (by rw [← hV]; exact hx)))
  · rename_i o hx
    refine ext (Grammar.opNodes V.heap.length o.base V.heap.length o.bodies) _ rfl rfl keep fun it hit => ?_
    have hn' := hnew { V with heap := (Grammar.bnfOp V.heap o).1, bnf := fun m => if m = n then some (Grammar.bnfOp V.heap o).2 else V.bnf m } _ rfl
      (Grammar.opNodes_made (top := V.heap.length) (base := o.base) trivial trivial o.bodies V.heap.length (fun _ _ _ _ => trivial) (fun _ _ => trivial))
    have hne : Grammar.opNodes V.heap.length o.base V.heap.length o.bodies ≠ [] := List.ne_nil_of_mem hit
    refine Grammar.opNodes_made (hn' 0 (List.length_pos_iff.2 hne)) (keep _ (fine (hw.base n o (by rw [← hV]; exact hx)))) _ _ ?_ hn' it hit
    intro b hb t ht
    exact keep _ (fine (hw.toks n o (by rw [← hV]; exact hx) b hb t ht))
  · exact h

theorem stage_foldl {W : World} (hw : Tidy W) : ∀ (ns : List Nat) (V : World), (∀ n ∈ ns, n < W.heap.length) → Stage W V → Stage W (ns.foldl Grammar.addBnf V) := by
  intro ns
  induction ns with
  | nil => exact fun V _ h => h
  | cons n ns ih => exact fun V hns h => ih _ (fun m hm => hns m (by simp [hm])) (h.add hw (hns n (by simp)))

theorem tidy_world {st : St} (hi : Inv st) (hz : ∃ z, st.zero = some z) (rules : List Nat) : Tidy (st.world rules) := by
  have fine : ∀ {n m}, Part (st.world rules) n m → (∀ s, st.heap[n]? ≠ some (.evolve m s)) → Fine (st.world rules) m := by
    intro n m h hne
    obtain ⟨⟨h1, _, h3⟩, h2, h4⟩ := part_below hi h
    have hm : m < st.heap.length := by omega
    refine ⟨st.heap[m], List.getElem?_eq_getElem hm, fun e => h3 (by rw [List.getElem?_eq_getElem hm, e]), fun o e => ?_⟩
    rcases h4 with h4 | ⟨s, h4⟩
    · exact h4 o (by rw [List.getElem?_eq_getElem hm, e])
    · exact hne s h4
  refine ⟨?_, fun n i h => fine (.plus h) ?_, fun n i h => fine (.star h) ?_, fun n o h => fine (.opBase h) ?_, fun n o h x hx t ht => ?_⟩
  · obtain ⟨z, hz⟩ := hz
    exact ⟨.zero, by show st.heap[st.zero.getD 0]? = _; rw [hz]; exact hi.zero z hz, by simp, by simp⟩
  · intro s e; rw [show st.heap[n]? = _ from h] at e; cases e
  · intro s e; rw [show st.heap[n]? = _ from h] at e; cases e
  · intro s e; rw [show st.heap[n]? = _ from h] at e; cases e
  · have key : ∀ t, (t ∈ o.pre ∨ t ∈ o.post ∨ t ∈ o.bin ∨ (∃ u, (t, u) ∈ o.tern ∨ (u, t) ∈ o.tern ∨ (t, u) ∈ o.paren ∨ (u, t) ∈ o.paren)) → Fine (st.world rules) t :=
      fun t ht => ⟨.term, ((hi.items n (.op o) h).2.2 t ht).2, by simp, by simp⟩
    refine key t ?_
    rcases Grammar.mem_bodies.1 hx with ⟨u, hu, rfl⟩ | ⟨u, hu, rfl⟩ | ⟨u, hu, rfl⟩ | ⟨p, hp, rfl⟩ | ⟨p, hp, rfl⟩ <;>
      simp only [Grammar.OpBody.toks, List.mem_cons, List.not_mem_nil, or_false] at ht
    · subst ht; exact .inl hu
    · subst ht; exact .inr (.inl hu)
    · subst ht; exact .inr (.inr (.inl hu))
    · rcases ht with rfl | rfl
      · exact .inr (.inr (.inr ⟨p.2, .inl hp⟩))
      · exact .inr (.inr (.inr ⟨p.1, .inr (.inl hp)⟩))
    · rcases ht with rfl | rfl
      · exact .inr (.inr (.inr ⟨p.2, .inr (.inr (.inl hp))⟩))
      · exact .inr (.inr (.inr ⟨p.1, .inr (.inr (.inr hp))⟩))

end Verif.Front
