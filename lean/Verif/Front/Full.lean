import Verif.Front.World

/-!
# Lemmas: all choices and sequences among the nodes stand in a rule
-/

namespace Verif.Front

open Verif.Grammar (Tables find World)
open Verif.Syntax (Name Tok Nt Rule)

/-- `Sub j i`: `j` is a part of `i`, or `i` itself; or a copy of `j` is (of `x @ y` only the copy of `y` is used). -/
inductive Sub : Syntax.Item → Syntax.Item → Prop
  | refl {j} : Sub j j
  | copy {j i} : Sub (Syntax.clone j) i → Sub j i
  | ann {j l i} : Sub j i → Sub j (.ann l i)
  | plus {j i} : Sub j i → Sub j (.plus i)
  | star {j i} : Sub j i → Sub j (.star i)
  | act {j i c} : Sub j i → Sub j (.act i c)
  | altL {j i i'} : Sub j i → Sub j (.alt i i')
  | altR {j i i'} : Sub j i' → Sub j (.alt i i')
  | consL {j i i'} : Sub j i → Sub j (.cons i i')
  | consR {j i i'} : Sub j i' → Sub j (.cons i i')
  | cond {j c i} : Sub j i → Sub j (.cond c i)
  | recover {j i} : Sub j i → Sub j (.recover i)
  | try_ {j i i'} : Sub j i → Sub j (.rollback i i')
  | catch_ {j i i'} : Sub j i' → Sub j (.rollback i i')

theorem Sub.clone {j i : Syntax.Item} (h : Sub j i) : Sub (Syntax.clone j) (Syntax.clone i) := by
  induction h with
  | refl => exact .refl
  | copy _ ih => exact .copy ih
  | ann _ ih => exact .ann ih
  | plus _ ih => exact .plus ih
  | star _ ih => exact .star ih
  | act _ ih => exact .act ih
  | altL _ ih => exact .altL ih
  | altR _ ih => exact .altR ih
  | consL _ ih => exact .consL ih
  | consR _ ih => exact .consR ih
  | cond _ ih => exact ih
  | recover _ ih => exact .recover ih
  | try_ _ ih => exact .try_ ih
  | catch_ _ ih => exact .catch_ ih

/-- The node is a sequence or a choice. -/
def Two (it : Grammar.Item) : Prop := (∃ l r, it = .alt l r) ∨ ∃ l r, it = .cons l r

/-- The sequences and choices of `h'` from the length `l` on are parts of the item. -/
def Full (h' : List Grammar.Item) (T : Tables Name) (l : Nat) (i : Syntax.Item) : Prop := ∀ m it, l ≤ m → h'[m]? = some it → Two it → ∃ j, Sub j i ∧ Rep (h'[·]?) T m j

theorem Full.sub {h : List Grammar.Item} {T : Tables Name} {l : Nat} {i i' : Syntax.Item} (hf : Full h T l i) (hs : ∀ j, Sub j i → Sub j i') : Full h T l i' := by
  intro m it hm hit ht
  obtain ⟨j, h1, h2⟩ := hf m it hm hit ht
  exact ⟨j, hs j h1, h2⟩

/-- More nodes, which are no sequences and choices or represent parts of the item. -/
theorem Full.more {h : List Grammar.Item} {T T' : Tables Name} {l : Nat} {i : Syntax.Item} (hf : Full h T l i) (more : List Grammar.Item)
    (hs : ∀ s k, find T.symbols s = some k → find T'.symbols s = some k) (ht : ∀ s k, find T.terminals s = some k → find T'.terminals s = some k)
    (hm : ∀ m it, h.length ≤ m → (h ++ more)[m]? = some it → Two it → ∃ j, Sub j i ∧ Rep ((h ++ more)[·]?) T' m j) : Full (h ++ more) T' l i := by
  intro m it hl hit htw
  rcases Nat.lt_or_ge m h.length with hlt | hge
  · obtain ⟨j, h1, h2⟩ := hf m it hl (by rwa [List.getElem?_append_left hlt] at hit) htw
    exact ⟨j, h1, h2.mono (fun n it hn => get_more hn _) hs ht⟩
  · exact hm m it hge hit htw

theorem Full.nil (h : List Grammar.Item) (T : Tables Name) (i : Syntax.Item) : Full h T h.length i := by
  intro m it hm hit
  have := get_lt hit
  omega

theorem Full.one {h : List Grammar.Item} {T : Tables Name} {l : Nat} {i : Syntax.Item} (hf : Full h T l i) {it : Grammar.Item} (hm : Two it → Rep ((h ++ [it])[·]?) T h.length i) : Full (h ++ [it]) T l i := by
  refine hf.more [it] (fun _ _ h => h) (fun _ _ h => h) fun m x hl hx ht => ?_
  have h1 := get_lt hx
  simp only [List.length_append, List.length_cons, List.length_nil] at h1
  obtain rfl : m = h.length := by omega
  rw [get_last] at hx
  cases hx
  exact ⟨i, .refl, hm ht⟩

/-- First one part, then the other. -/
theorem Full.join {h h' : List Grammar.Item} {T T' : Tables Name} {l : Nat} {i : Syntax.Item} (h1 : Full h T l i) (hg : ∀ (n : Nat) it, h[n]? = some it → h'[n]? = some it)
    (hs : ∀ s k, find T.symbols s = some k → find T'.symbols s = some k) (ht : ∀ s k, find T.terminals s = some k → find T'.terminals s = some k) (h2 : Full h' T' h.length i) : Full h' T' l i := by
  intro m it hl hit htw
  rcases Nat.lt_or_ge m h.length with hlt | hge
  · have e : h[m]? = some it := by
      have := hg m _ (List.getElem?_eq_getElem hlt)
      rw [hit] at this
      rw [List.getElem?_eq_getElem hlt, Option.some.inj this]
    obtain ⟨j, g1, g2⟩ := h1 m it hl e htw
    exact ⟨j, g1, g2.mono hg hs ht⟩
  · exact h2 m it hge hit htw

theorem visit_full {T : Tables Name} {i : Syntax.Item} : ∀ {f n c : Nat} {h h' : List Grammar.Item}, Clone.visit h f n = some (h', c) → Items h → Rep (h[·]?) T n i → Full h' T h.length (Syntax.clone i) := by
  have one : ∀ {i i' : Syntax.Item} {it : Grammar.Item} {h h3 : List Grammar.Item}, (∀ j, Sub j i → Sub j i') → (¬ Two it) → Full h3 T h.length i → Full (h3 ++ [it]) T h.length i' :=
    fun hs ht hf => (hf.sub hs).one fun h => absurd h ht
  induction i with
  | zero =>
    intro f n c h h' hv hi hr
    cases f with
    | zero => simp [Clone.visit] at hv
    | succ f => rw [Clone.visit, show h[n]? = _ from hr] at hv; cases hv; exact .nil _ _ _
  | nonterm s a =>
    intro f n c h h' hv hi hr
    obtain ⟨k, h1, h2⟩ := hr
    cases f with
    | zero => simp [Clone.visit] at hv
    | succ f => rw [Clone.visit, show h[n]? = _ from h1] at hv; cases hv; exact (Full.nil _ _ _).one (by simp [Two])
  | inl s =>
    intro f n c h h' hv hi hr
    obtain ⟨k, h1, h2⟩ := hr
    cases f with
    | zero => simp [Clone.visit] at hv
    | succ f => rw [Clone.visit, show h[n]? = _ from h1] at hv; cases hv; exact (Full.nil _ _ _).one (by simp [Two])
  | term s =>
    intro f n c h h' hv hi hr
    cases f with
    | zero => simp [Clone.visit] at hv
    | succ f => rw [Clone.visit, show h[n]? = _ from hr.1] at hv; cases hv; exact .nil _ _ _
  | ann l i ih =>
    intro f n c h h' hv hi hr
    obtain ⟨m, h1, h2⟩ := hr
    cases f with
    | zero => simp [Clone.visit] at hv
    | succ f =>
      rw [Clone.visit, show h[n]? = _ from h1] at hv
      obtain ⟨⟨h3, k⟩, e1, e2⟩ := bind_some hv
      have := ih e1 hi h2
      cases e2
      exact one (fun _ => .ann) (by simp [Two]) this
  | plus i ih =>
    intro f n c h h' hv hi hr
    obtain ⟨m, h1, h2⟩ := hr
    cases f with
    | zero => simp [Clone.visit] at hv
    | succ f =>
      rw [Clone.visit, show h[n]? = _ from h1] at hv
      obtain ⟨⟨h3, k⟩, e1, e2⟩ := bind_some hv
      have := ih e1 hi h2
      cases e2
      exact one (fun _ => .plus) (by simp [Two]) this
  | star i ih =>
    intro f n c h h' hv hi hr
    obtain ⟨m, h1, h2⟩ := hr
    cases f with
    | zero => simp [Clone.visit] at hv
    | succ f =>
      rw [Clone.visit, show h[n]? = _ from h1] at hv
      obtain ⟨⟨h3, k⟩, e1, e2⟩ := bind_some hv
      have := ih e1 hi h2
      cases e2
      exact one (fun _ => .star) (by simp [Two]) this
  | code c =>
    intro f n c h h' hv hi hr
    cases f with
    | zero => simp [Clone.visit] at hv
    | succ f => rw [Clone.visit, show h[n]? = _ from hr] at hv; cases hv
  | act i c ih =>
    intro f n c h h' hv hi hr
    obtain ⟨m, h1, h2⟩ := hr
    cases f with
    | zero => simp [Clone.visit] at hv
    | succ f =>
      rw [Clone.visit, show h[n]? = _ from h1] at hv
      obtain ⟨⟨h3, k⟩, e1, e2⟩ := bind_some hv
      have := ih e1 hi h2
      cases e2
      exact one (fun _ => .act) (by simp [Two]) this
  | alt i j ih jh =>
    intro f n c h h' hv hi hr
    obtain ⟨m, k, h1, h2, h2'⟩ := hr
    cases f with
    | zero => simp [Clone.visit] at hv
    | succ f =>
      have whole := visit_rep (i := .alt i j) hv hi ⟨m, k, h1, h2, h2'⟩
      rw [Clone.visit, show h[n]? = _ from h1] at hv
      obtain ⟨⟨h3, a⟩, e1, e2⟩ := bind_some hv
      obtain ⟨⟨h4, b⟩, e3, e4⟩ := bind_some e2
      obtain ⟨g1, g2, g3⟩ := visit_rep e1 hi h2
      obtain ⟨g4, g5, g6⟩ := visit_rep e3 g2 (g1.rep h2')
      have f1 := (ih e1 hi h2).sub (i' := Syntax.clone (.alt i j)) fun _ => .altL
      have f2 := (jh e3 g2 (g1.rep h2')).sub (i' := Syntax.clone (.alt i j)) fun _ => .altR
      cases e4
      exact (f1.join g4.get (fun _ _ h => h) (fun _ _ h => h) f2).one fun _ => whole.2.2
  | cons i j ih jh =>
    intro f n c h h' hv hi hr
    obtain ⟨m, k, h1, h2, h2'⟩ := hr
    cases f with
    | zero => simp [Clone.visit] at hv
    | succ f =>
      have whole := visit_rep (i := .cons i j) hv hi ⟨m, k, h1, h2, h2'⟩
      rw [Clone.visit, show h[n]? = _ from h1] at hv
      obtain ⟨⟨h3, a⟩, e1, e2⟩ := bind_some hv
      obtain ⟨⟨h4, b⟩, e3, e4⟩ := bind_some e2
      obtain ⟨g1, g2, g3⟩ := visit_rep e1 hi h2
      obtain ⟨g4, g5, g6⟩ := visit_rep e3 g2 (g1.rep h2')
      have f1 := (ih e1 hi h2).sub (i' := Syntax.clone (.cons i j)) fun _ => .consL
      have f2 := (jh e3 g2 (g1.rep h2')).sub (i' := Syntax.clone (.cons i j)) fun _ => .consR
      cases e4
      exact (f1.join g4.get (fun _ _ h => h) (fun _ _ h => h) f2).one fun _ => whole.2.2
  | cond c i ih =>
    intro f n c h h' hv hi hr
    obtain ⟨m, h1, h2⟩ := hr
    cases f with
    | zero => simp [Clone.visit] at hv
    | succ f =>
      rw [Clone.visit, show h[n]? = _ from h1] at hv
      exact ih hv hi h2
  | recover i ih =>
    intro f n c h h' hv hi hr
    obtain ⟨m, h1, h2⟩ := hr
    cases f with
    | zero => simp [Clone.visit] at hv
    | succ f =>
      rw [Clone.visit, show h[n]? = _ from h1] at hv
      obtain ⟨⟨h3, k⟩, e1, e2⟩ := bind_some hv
      have := ih e1 hi h2
      cases e2
      exact one (fun _ => .recover) (by simp [Two]) this
  | rollback i j ih jh =>
    intro f n c h h' hv hi hr
    obtain ⟨m, k, h1, h2, h2'⟩ := hr
    cases f with
    | zero => simp [Clone.visit] at hv
    | succ f =>
      rw [Clone.visit, show h[n]? = _ from h1] at hv
      obtain ⟨⟨h3, a⟩, e1, e2⟩ := bind_some hv
      obtain ⟨⟨h4, b⟩, e3, e4⟩ := bind_some e2
      obtain ⟨g1, g2, g3⟩ := visit_rep e1 hi h2
      obtain ⟨g4, g5, g6⟩ := visit_rep e3 g2 (g1.rep h2')
      have f1 := (ih e1 hi h2).sub (i' := Syntax.clone (.rollback i j)) fun _ => .try_
      have f2 := (jh e3 g2 (g1.rep h2')).sub (i' := Syntax.clone (.rollback i j)) fun _ => .catch_
      cases e4
      exact (f1.join g4.get (fun _ _ h => h) (fun _ _ h => h) f2).one (by simp [Two])
  | op o => exact fun _ _ hr => hr.elim
  | wild => exact fun _ _ hr => hr.elim

theorem sepList_full {T : Tables Name} {i j : Syntax.Item} {n m k : Nat} {h h' : List Grammar.Item} (hv : Clone.sepList h n m = some (h', k)) (hi : Items h) (hn : Rep (h[·]?) T n i)
    (hm : Rep (h[·]?) T m j) : Full h' T h.length (Syntax.sep i j) := by
  have whole := sepList_rep hv hi hn hm
  obtain ⟨⟨h1, a⟩, e1, hv⟩ := bind_some hv
  obtain ⟨⟨h2, b⟩, e2, hv⟩ := bind_some hv
  obtain ⟨g1, i1, r1⟩ := visit_rep e1 hi hm
  obtain ⟨g2, i2, r2⟩ := visit_rep e2 i1 (g1.rep hn)
  have f1 := (visit_full e1 hi hm).sub (i' := .cons (Syntax.clone j) (Syntax.clone i)) fun _ => .consL
  have f2 := (visit_full e2 i1 (g1.rep hn)).sub (i' := .cons (Syntax.clone j) (Syntax.clone i)) fun _ => .consR
  have f3 := (f1.join g2.get (fun _ _ h => h) (fun _ _ h => h) f2).one (it := .cons a b) fun _ => ⟨a, b, get_last _ _, (Grow.one h2 (by simp)).rep (g2.rep r1), (Grow.one h2 (by simp)).rep r2⟩
  have f4 := (f3.sub (i' := .star (.cons (Syntax.clone j) (Syntax.clone i))) fun _ => .star).one (it := .star h2.length) (by simp [Two])
  cases hv
  exact (f4.sub (i' := Syntax.sep i j) fun _ => .consR).one fun _ => whole.2.2

theorem not_two_replicate {h : List Grammar.Item} {x : Grammar.Item} {k : Nat} (hx : ¬ Two x) : ∀ (m : Nat) it, h.length ≤ m → (h ++ List.replicate k x)[m]? = some it → Two it → False := by
  intro m it hl hit ht
  rw [List.getElem?_append_right hl] at hit
  have := (List.mem_replicate.1 (List.mem_of_getElem? hit)).2
  subst this
  exact hx ht

/-- The actions make no sequences and choices but those of the item. -/
theorem act_full {nt : Nt} {ts : List Tok} {i : Syntax.Item} {st st' : St} {n : Nat} (h : Act nt ts i st st' n) : Inv st → Terms st.Knows i → Full st'.heap st'.tab st.heap.length i := by
  have sym : ∀ {st st' : St} {s : Name} {k : Nat} {i : Syntax.Item}, st.symbol s = (st', k) → Full st'.heap st'.tab st.heap.length i := by
    intro st st' s k i h m it hl hit ht
    have e : st'.heap = (st.symbol s).1.heap := by rw [h]
    rw [e] at hit
    exact (not_two_replicate (by simp [Two]) m it hl hit ht).elim
  have new : ∀ {st st' : St} {i i' : Syntax.Item} {it : Grammar.Item}, (∀ j, Sub j i → Sub j i') → ¬ Two it → Full st'.heap st'.tab st.heap.length i →
      Full (st'.new it).1.heap (st'.new it).1.tab st.heap.length i' := fun hs ht hf => (hf.sub hs).one fun h => absurd h ht
  have zero : ∀ {st : St} {l : Nat} {i : Syntax.Item}, Full st.heap st.tab l i → Full st.zeroItem.1.heap st.zeroItem.1.tab l i := by
    intro st l i hf
    unfold St.zeroItem
    split
    · exact hf
    · exact hf.one (by simp [Two])
  have next : ∀ {nt ts i j} {st st' : St} {n : Nat}, Act nt ts i st st' n → Inv st → Terms st.Knows i → Terms st.Knows j → Inv st' ∧ Terms st'.Knows j := by
    intro nt ts i j st st' n h hi ht hj
    have hd := act_done h hi ht
    exact ⟨hd.inv, by rw [knows_eq hd.terms]; exact hj⟩
  induction h with
  | zero => exact fun _ _ => zero (.nil _ _ _)
  | paren _ ih => exact ih
  | tryIt _ ih => exact ih
  | atom _ ih => exact ih
  | inl h => exact fun _ _ => (sym h).one (by simp [Two])
  | annEq _ ih => exact fun hi ht => new (fun _ => .ann) (by simp [Two]) (ih hi ht)
  | annColon _ ih => exact fun hi ht => new (fun _ => .ann) (by simp [Two]) (ih hi ht)
  | seqEq _ ih => exact fun hi ht => new (fun _ => .ann) (by simp [Two]) (ih hi ht)
  | seqColon _ ih => exact fun hi ht => new (fun _ => .ann) (by simp [Two]) (ih hi ht)
  | nonterm h => exact fun _ _ => (sym h).one (by simp [Two])
  | call h => exact fun _ _ => (sym h).one (by simp [Two])
  | term => exact fun _ _ m it hl hit ht => (not_two_replicate (by simp [Two]) m it hl hit ht).elim
  | recover _ ih => exact fun hi ht => new (fun _ => .recover) (by simp [Two]) (ih hi ht)
  | rollback h1 h2 ih jh =>
    intro hi ht
    obtain ⟨g1, g2⟩ := next h1 hi ht.1 ht.2
    have e := act_done h2 g1 g2
    exact Full.one ((((ih hi ht.1).sub fun _ => .try_).join e.ext.heap e.ext.sym e.ext.term ((jh g1 g2).sub fun _ => .catch_))) (by simp [Two])
  | plus _ ih => exact fun hi ht => new (fun _ => .plus) (by simp [Two]) (ih hi ht)
  | star _ ih => exact fun hi ht => new (fun _ => .star) (by simp [Two]) (ih hi ht)
  | primary _ ih => exact ih
  | opt h hz ih =>
    intro hi ht
    have := zero (ih hi ht.1)
    rw [hz] at this
    exact (this.sub fun _ => .altL).one fun _ => (act_done (.opt h hz) hi ht).rep
  | unary _ ih => exact ih
  | sep h1 h2 hv ih jh =>
    intro hi ht
    obtain ⟨g1, g2⟩ := next h1 hi ht.1 (terms_clone.1 ht.2.1)
    have d1 := act_done h1 hi ht.1
    have d2 := act_done h2 g1 g2
    have f1 := ((ih hi ht.1).sub (i' := Syntax.sep _ _) fun _ => .consL).join d2.ext.heap d2.ext.sym d2.ext.term ((jh g1 g2).sub fun _ h => .consR (.star (.consL (.copy h.clone))))
    exact f1.join (sepList_rep hv d2.inv.items (d2.ext.rep d1.rep) d2.rep).1.get (fun _ _ h => h) (fun _ _ h => h) (sepList_full hv d2.inv.items (d2.ext.rep d1.rep) d2.rep)
  | act _ ih => exact fun hi ht => new (fun _ => .act) (by simp [Two]) (ih hi ht)
  | code => exact fun _ _ => (Full.nil _ _ _).one (by simp [Two])
  | one _ ih => exact ih
  | seq h1 h2 h3 ih jh =>
    intro hi ht
    obtain ⟨g1, g2⟩ := next h1 hi ht.1 ht.2
    have e := act_done h2 g1 g2
    exact Full.one ((((ih hi ht.1).sub fun _ => .consL).join e.ext.heap e.ext.sym e.ext.term ((jh g1 g2).sub fun _ => .consR))) fun _ => (act_done (.seq h1 h2 h3) hi ht).rep
  | sequence _ ih => exact ih
  | cond _ ih => exact fun hi ht => new (fun _ => .cond) (by simp [Two]) (ih hi ht)
  | single _ ih => exact ih
  | alt h1 h2 ih jh =>
    intro hi ht
    obtain ⟨g1, g2⟩ := next h1 hi ht.1 ht.2
    have e := act_done h2 g1 g2
    exact Full.one ((((ih hi ht.1).sub fun _ => .altL).join e.ext.heap e.ext.sym e.ext.term ((jh g1 g2).sub fun _ => .altR))) fun _ => (act_done (.alt h1 h2) hi ht).rep

/-- The sequences and choices among the nodes are parts of rules. -/
def FullRs (st : St) (rs : List Rule) : Prop := ∀ m it, st.heap[m]? = some it → Two it → ∃ r ∈ rs, ∃ j, Sub j r.item ∧ st.Rep m j

theorem rule_full {st0 st : St} {rs : List Rule} {r : Rule} {n : Nat} (h0 : FullRs st0 rs) (he : Ext st0 (st.rule n r.sym)) (h : Full st.heap st.tab st0.heap.length r.item) (hx : Ext st (st.rule n r.sym)) :
    FullRs (st.rule n r.sym) (rs ++ [r]) := by
  intro m it hit ht
  rcases Nat.lt_or_ge m st0.heap.length with hl | hl
  · have e : st0.heap[m]? = some it := by
      have := he.heap m _ (List.getElem?_eq_getElem hl)
      rw [hit] at this
      rw [List.getElem?_eq_getElem hl, Option.some.inj this]
    obtain ⟨r', h1, j, h2, h3⟩ := h0 m it e ht
    exact ⟨r', List.mem_append_left _ h1, j, h2, he.rep h3⟩
  · rcases Nat.lt_or_ge m st.heap.length with hl' | hl'
    · have e : st.heap[m]? = some it := by
        have := hx.heap m _ (List.getElem?_eq_getElem hl')
        rw [hit] at this
        rw [List.getElem?_eq_getElem hl', Option.some.inj this]
      obtain ⟨j, h2, h3⟩ := h m it hl e ht
      exact ⟨r, by simp, j, h2, hx.rep h3⟩
    · exfalso
      have e : (st.rule n r.sym).heap = (st.symbol r.sym).1.heap ++ [.evolve n (st.symbol r.sym).2] := rfl
      rw [e] at hit
      rcases Nat.lt_or_ge m (st.symbol r.sym).1.heap.length with h1 | h1
      · rw [List.getElem?_append_left h1] at hit
        exact not_two_replicate (by simp [Two]) m it hl' hit ht
      · rw [List.getElem?_append_right h1] at hit
        have := List.mem_of_getElem? hit
        simp at this
        subst this
        simp [Two] at ht

theorem rule_ext {st : St} (hi : Inv st) (n : Nat) (s : Name) : Ext st (st.rule n s) := by
  obtain ⟨_, h2, _⟩ := symbol_spec (st' := (st.symbol s).1) (k := (st.symbol s).2) hi rfl
  have h := h2.trans (ext_new (st.symbol s).1 (it := .evolve n (st.symbol s).2) (by simp))
  exact ⟨h.heap, h.sym, h.term⟩

theorem op_full {bs : List Tok} {s a : Name} {os : List Syntax.OpDecl} {st st1 st2 : St} {n : Nat} {o : Grammar.OpItem} {rs : List Rule} {r : Rule} (h : Act .atom bs (.nonterm s a) st st1 n)
    (hd : st1.decls { base := n } os = some (st2, o)) (hb : Built st rs) (ht : Terms st.Knows r.item) (hr : r.item = .op ⟨.sym s a, os⟩) (h0 : FullRs st rs) : FullRs (st2.opRule o r.sym) (rs ++ [r]) := by
  rw [hr] at ht
  have h1 := op_done h hd hb.inv ht
  obtain ⟨_, h2, _⟩ := rule_built (r := r) hb (by rw [hr]; exact h1)
  obtain ⟨⟨x, e⟩, _⟩ := decls_spec hd (fun d hd q hq => (act_done h hb.inv trivial).knows.2 (ht d hd q hq)) .nil
  have sym : ∀ {st' : St} {s : Name} {k : Nat} {i : Syntax.Item}, st.symbol s = (st', k) → Full st'.heap st'.tab st.heap.length i := by
    intro st' s k i h m it hl hit ht
    have e : st'.heap = (st.symbol s).1.heap := by rw [h]
    rw [e] at hit
    exact (not_two_replicate (by simp [Two]) m it hl hit ht).elim
  have h3 : Full st1.heap st1.tab st.heap.length r.item := by
    cases h with
    | nonterm h => exact (sym h).one (by simp [Two])
    | call h => exact (sym h).one (by simp [Two])
  have h4 : Full (st2.new (.op o)).1.heap (st2.new (.op o)).1.tab st.heap.length r.item := by
    subst e
    exact h3.more [.op o] (fun _ _ h => h) (fun _ _ h => h) fun m it hl hit ht => by
      rw [List.getElem?_append_right hl] at hit
      have := List.mem_of_getElem? hit
      simp at this
      subst this
      simp [Two] at ht
  exact rule_full h0 h2 h4 (rule_ext h1.inv _ _)

theorem actRs_full {ts : List Tok} {rs : List Rule} {st st' : St} (h : ActRs ts rs st st') : Built st [] → (∀ r ∈ rs, Terms st.Knows r.item) → FullRs st [] → FullRs st' rs := by
  induction h with
  | nil => exact fun _ _ hs => hs
  | @more _ _ _ r _ _ _ h' h ih =>
    intro hb ht hs
    have hs := ih hb (fun r h => ht r (List.mem_append_left _ h)) hs
    obtain ⟨b1, b2, b3⟩ := actRs_built h' hb fun r hr => ht r (List.mem_append_left _ hr)
    have ht := ht r (List.mem_append_right _ (List.mem_singleton.2 rfl))
    rw [← knows_eq b3] at ht
    obtain ⟨_, c2, _⟩ := actR_built h b1 ht
    cases h with
    | codeFirst h _ => exact rule_full (r := ⟨_, _, _, _⟩) hs c2 (act_full h b1.inv ht) (rule_ext (act_done h b1.inv ht).inv _ _)
    | declsFirst h _ _ => exact rule_full (r := ⟨_, _, _, _⟩) hs c2 (act_full h b1.inv ht) (rule_ext (act_done h b1.inv ht).inv _ _)
    | plain h _ => exact rule_full (r := ⟨_, _, _, _⟩) hs c2 (act_full h b1.inv ht) (rule_ext (act_done h b1.inv ht).inv _ _)
    | opDecls h _ hd _ _ => exact op_full (r := ⟨_, _, _, _⟩) h hd b1 ht rfl hs
    | opCode h _ hd _ => exact op_full (r := ⟨_, _, _, _⟩) h hd b1 ht rfl hs
    | opPlain h _ hd _ => exact op_full (r := ⟨_, _, _, _⟩) h hd b1 ht rfl hs

theorem tokens_full (toks : List (Name × Name)) : ∀ {st : St}, (∀ it ∈ st.heap, ¬ Two it) → ∀ it ∈ (st.tokens toks).heap, ¬ Two it := by
  induction toks with
  | nil => exact fun h => h
  | cons t ts ih =>
    intro st h
    refine ih fun it hit => ?_
    rcases List.mem_append.1 hit with h1 | h1
    · exact h _ h1
    · rw [(List.mem_replicate.1 h1).2]; simp [Two]

/-- The sequences and choices among the nodes after the rules are parts of rules. -/
theorem finish_full {toks : List (Name × Name)} {ts : List Tok} {rs : List Rule} {st : St} (h : ActRs ts rs (({} : St).tokens toks) st) (ht : ∀ r ∈ rs, Terms (({} : St).tokens toks).Knows r.item) :
    FullRs st.finish.1 rs := by
  have hb := (tokens_built toks built_init).1
  have h1 := actRs_full h hb ht fun m it hit ht => absurd ht (tokens_full toks (by simp) it (List.mem_of_getElem? hit))
  obtain ⟨h2, _⟩ := actRs_built h hb ht
  obtain ⟨_, h3, _⟩ := finish_built h2
  have hz : ∀ m it, st.heap.length ≤ m → st.zeroItem.1.heap[m]? = some it → ¬ Two it := by
    intro m it hl hit
    unfold St.zeroItem at hit
    split at hit
    · exact absurd (get_lt hit) (Nat.not_lt.2 hl)
    · rw [List.getElem?_append_right hl] at hit
      have := List.mem_of_getElem? hit
      simp at this
      subst this
      simp [Two]
  intro m it hit htw
  rcases Nat.lt_or_ge m st.heap.length with hl | hl
  · have e : st.heap[m]? = some it := by
      have := h3.heap m _ (List.getElem?_eq_getElem hl)
      rw [hit] at this
      rw [List.getElem?_eq_getElem hl, Option.some.inj this]
    obtain ⟨r, g1, j, g2, g3⟩ := h1 m it e htw
    exact ⟨r, g1, j, g2, h3.rep g3⟩
  · exfalso
    rcases Nat.lt_or_ge m st.zeroItem.1.heap.length with h1 | h1
    · have e : st.finish.1.heap = st.zeroItem.1.heap ++ _ := rfl
      rw [e, List.getElem?_append_left h1] at hit
      exact hz m it hl hit htw
    · exact not_two_replicate (by simp [Two]) m it h1 hit htw

end Verif.Front
