import Verif.Front.Build

/-!
# Lemmas: operator rules

`OpRep g T n o`: node `n` represents what is written between `%<` and `%>`.
-/

namespace Verif.Front

open Verif.Grammar (Tables find OpItem)
open Verif.Syntax (Name Tok Nt Rule OpDecl OpExpr)

/-! ### Names of terminals -/

/-- The nodes are the terminals with these names. -/
def Names (T : Tables Name) : List Nat → List Name → Prop
  | [], [] => True
  | t :: α, s :: ω => find T.terminals s = some t ∧ Names T α ω
  | _, _ => False

theorem Names.append {T : Tables Name} : ∀ {α β : List Nat} {ω χ : List Name}, Names T α ω → Names T β χ → Names T (α ++ β) (ω ++ χ)
  | [], _, [], _, _, h => h
  | _ :: _, _, _ :: _, _, ⟨h1, h2⟩, h => ⟨h1, Names.append h2 h⟩

theorem Names.cons {T : Tables Name} {t : Nat} {s : Name} {α : List Nat} {ω : List Name} (h : find T.terminals s = some t) (h2 : Names T α ω) : Names T (t :: α) (s :: ω) := ⟨h, h2⟩

theorem Names.one {T : Tables Name} {t : Nat} {s : Name} (h : find T.terminals s = some t) : Names T [t] [s] := ⟨h, trivial⟩

theorem Names.left {T : Tables Name} : ∀ {α : List Nat} {ω : List Name}, Names T α ω → ∀ t ∈ α, ∃ s ∈ ω, find T.terminals s = some t
  | [], [], _, _, h => by simp at h
  | _ :: _, _ :: _, ⟨h1, h2⟩, t, h => by
    rcases List.mem_cons.1 h with rfl | h
    · exact ⟨_, List.mem_cons_self, h1⟩
    · obtain ⟨s, h3, h4⟩ := Names.left h2 t h
      exact ⟨s, List.mem_cons_of_mem _ h3, h4⟩

theorem Names.mem {T : Tables Name} {α : List Nat} {ω : List Name} (h : Names T α ω) : ∀ t ∈ α, ∃ s, find T.terminals s = some t := fun t ht => by
  obtain ⟨s, _, h⟩ := h.left t ht
  exact ⟨s, h⟩

theorem Names.right {T : Tables Name} : ∀ {α : List Nat} {ω : List Name}, Names T α ω → ∀ s ∈ ω, ∃ t ∈ α, find T.terminals s = some t
  | [], [], _, _, h => by simp at h
  | _ :: _, _ :: _, ⟨h1, h2⟩, t, h => by
    rcases List.mem_cons.1 h with rfl | h
    · exact ⟨_, List.mem_cons_self, h1⟩
    · obtain ⟨s, h3, h4⟩ := Names.right h2 t h
      exact ⟨s, List.mem_cons_of_mem _ h3, h4⟩

theorem Names.mono {T T' : Tables Name} (ht : ∀ s k, find T.terminals s = some k → find T'.terminals s = some k) : ∀ {α : List Nat} {ω : List Name}, Names T α ω → Names T' α ω
  | [], [], _ => trivial
  | _ :: _, _ :: _, ⟨h1, h2⟩ => ⟨ht _ _ h1, Names.mono ht h2⟩

/-- The same for pairs. -/
def Names2 (T : Tables Name) : List (Nat × Nat) → List (Name × Name) → Prop
  | [], [] => True
  | t :: α, s :: ω => (find T.terminals s.1 = some t.1 ∧ find T.terminals s.2 = some t.2) ∧ Names2 T α ω
  | _, _ => False

theorem Names2.append {T : Tables Name} : ∀ {α β : List (Nat × Nat)} {ω χ : List (Name × Name)}, Names2 T α ω → Names2 T β χ → Names2 T (α ++ β) (ω ++ χ)
  | [], _, [], _, _, h => h
  | _ :: _, _, _ :: _, _, ⟨h1, h2⟩, h => ⟨h1, Names2.append h2 h⟩

theorem Names2.left {T : Tables Name} : ∀ {α : List (Nat × Nat)} {ω : List (Name × Name)}, Names2 T α ω → ∀ t ∈ α, ∃ s ∈ ω, find T.terminals s.1 = some t.1 ∧ find T.terminals s.2 = some t.2
  | [], [], _, _, h => by simp at h
  | _ :: _, _ :: _, ⟨h1, h2⟩, t, h => by
    rcases List.mem_cons.1 h with rfl | h
    · exact ⟨_, List.mem_cons_self, h1⟩
    · obtain ⟨s, h3, h4⟩ := Names2.left h2 t h
      exact ⟨s, List.mem_cons_of_mem _ h3, h4⟩

theorem Names2.right {T : Tables Name} : ∀ {α : List (Nat × Nat)} {ω : List (Name × Name)}, Names2 T α ω → ∀ s ∈ ω, ∃ t ∈ α, find T.terminals s.1 = some t.1 ∧ find T.terminals s.2 = some t.2
  | [], [], _, _, h => by simp at h
  | _ :: _, _ :: _, ⟨h1, h2⟩, t, h => by
    rcases List.mem_cons.1 h with rfl | h
    · exact ⟨_, List.mem_cons_self, h1⟩
    · obtain ⟨s, h3, h4⟩ := Names2.right h2 t h
      exact ⟨s, List.mem_cons_of_mem _ h3, h4⟩

theorem Names2.mono {T T' : Tables Name} (ht : ∀ s k, find T.terminals s = some k → find T'.terminals s = some k) : ∀ {α : List (Nat × Nat)} {ω : List (Name × Name)}, Names2 T α ω → Names2 T' α ω
  | [], [], _ => trivial
  | _ :: _, _ :: _, ⟨h1, h2⟩ => ⟨⟨ht _ _ h1.1, ht _ _ h1.2⟩, Names2.mono ht h2⟩

/-! ### What is declared -/

def pres (os : List OpDecl) : List Name := os.filterMap fun | .pre q _ => some q.tok | _ => none
def posts (os : List OpDecl) : List Name := os.filterMap fun | .post q _ _ => some q.tok | _ => none
def bins (os : List OpDecl) : List Name := os.filterMap fun | .bin q _ _ => some q.tok | _ => none
def terns (os : List OpDecl) : List (Name × Name) := os.filterMap fun | .tern q q' _ _ => some (q.tok, q'.tok) | _ => none
def parens (os : List OpDecl) : List (Name × Name) := os.filterMap fun | .paren q q' => some (q.tok, q'.tok) | _ => none

theorem mem_pres {os : List OpDecl} {s : Name} : s ∈ pres os ↔ ∃ q p, .pre q p ∈ os ∧ q.tok = s := by
  unfold pres
  rw [List.mem_filterMap]
  constructor
  · rintro ⟨d, h1, h2⟩
    cases d <;> simp at h2
    exact ⟨_, _, h1, h2⟩
  · rintro ⟨q, p, h1, rfl⟩
    exact ⟨_, h1, rfl⟩

theorem mem_posts {os : List OpDecl} {s : Name} : s ∈ posts os ↔ ∃ q p a, .post q p a ∈ os ∧ q.tok = s := by
  unfold posts
  rw [List.mem_filterMap]
  constructor
  · rintro ⟨d, h1, h2⟩
    cases d <;> simp at h2
    exact ⟨_, _, _, h1, h2⟩
  · rintro ⟨q, p, a, h1, rfl⟩
    exact ⟨_, h1, rfl⟩

theorem mem_bins {os : List OpDecl} {s : Name} : s ∈ bins os ↔ ∃ q p a, .bin q p a ∈ os ∧ q.tok = s := by
  unfold bins
  rw [List.mem_filterMap]
  constructor
  · rintro ⟨d, h1, h2⟩
    cases d <;> simp at h2
    exact ⟨_, _, _, h1, h2⟩
  · rintro ⟨q, p, a, h1, rfl⟩
    exact ⟨_, h1, rfl⟩

theorem mem_terns {os : List OpDecl} {s : Name × Name} : s ∈ terns os ↔ ∃ q q' p a, .tern q q' p a ∈ os ∧ (q.tok, q'.tok) = s := by
  unfold terns
  rw [List.mem_filterMap]
  constructor
  · rintro ⟨d, h1, h2⟩
    cases d <;> simp at h2
    exact ⟨_, _, _, _, h1, h2⟩
  · rintro ⟨q, q', p, a, h1, rfl⟩
    exact ⟨_, h1, rfl⟩

theorem mem_parens {os : List OpDecl} {s : Name × Name} : s ∈ parens os ↔ ∃ q q', .paren q q' ∈ os ∧ (q.tok, q'.tok) = s := by
  unfold parens
  rw [List.mem_filterMap]
  constructor
  · rintro ⟨d, h1, h2⟩
    cases d <;> simp at h2
    exact ⟨_, _, h1, h2⟩
  · rintro ⟨q, q', h1, rfl⟩
    exact ⟨_, h1, rfl⟩

/-- The lists of the node are the operators declared, in this order. -/
structure Lists (T : Tables Name) (p : OpItem) (os : List OpDecl) : Prop where
  pre : Names T p.pre (pres os)
  post : Names T p.post (posts os)
  bin : Names T p.bin (bins os)
  tern : Names2 T p.tern (terns os)
  paren : Names2 T p.paren (parens os)

theorem Lists.mono {T T' : Tables Name} (ht : ∀ s k, find T.terminals s = some k → find T'.terminals s = some k) {p : OpItem} {os : List OpDecl} (h : Lists T p os) : Lists T' p os :=
  ⟨h.pre.mono ht, h.post.mono ht, h.bin.mono ht, h.tern.mono ht, h.paren.mono ht⟩

theorem Lists.tab {T T' : Tables Name} (e : T'.terminals = T.terminals) {p : OpItem} {os : List OpDecl} (h : Lists T p os) : Lists T' p os := h.mono fun s k hk => by rw [e]; exact hk

theorem Lists.nil {T : Tables Name} {b : Nat} : Lists T { base := b } [] := ⟨trivial, trivial, trivial, trivial, trivial⟩

theorem Lists.term {T : Tables Name} {p : OpItem} {os : List OpDecl} (h : Lists T p os) {t : Nat}
    (ht : t ∈ p.pre ∨ t ∈ p.post ∨ t ∈ p.bin ∨ (∃ u, (t, u) ∈ p.tern ∨ (u, t) ∈ p.tern ∨ (t, u) ∈ p.paren ∨ (u, t) ∈ p.paren)) : ∃ s, find T.terminals s = some t := by
  rcases ht with ht | ht | ht | ⟨u, ht | ht | ht | ht⟩
  · exact h.pre.mem t ht
  · exact h.post.mem t ht
  · exact h.bin.mem t ht
  · obtain ⟨s, _, h1, h2⟩ := h.tern.left _ ht; exact ⟨_, h1⟩
  · obtain ⟨s, _, h1, h2⟩ := h.tern.left _ ht; exact ⟨_, h2⟩
  · obtain ⟨s, _, h1, h2⟩ := h.paren.left _ ht; exact ⟨_, h1⟩
  · obtain ⟨s, _, h1, h2⟩ := h.paren.left _ ht; exact ⟨_, h2⟩

/-! ### Items of rules -/

/-- Node `n` represents the operator expression. -/
def OpRep (g : Nat → Option Grammar.Item) (T : Tables Name) (n : Nat) (o : OpExpr) : Prop :=
  ∃ p, g n = some (.op p) ∧ (∃ s a k, o.base = .sym s a ∧ g p.base = some (.nonterm k) ∧ find T.symbols s = some k) ∧ Lists T p o.decls ∧ ∀ q, .post q .zero none ∉ o.decls

/-- Node `n` represents the item of a rule. -/
def IRep (g : Nat → Option Grammar.Item) (T : Tables Name) (n : Nat) : Syntax.Item → Prop
  | .op o => OpRep g T n o
  | i => Rep g T n i

theorem Rep.irep {g : Nat → Option Grammar.Item} {T : Tables Name} {n : Nat} {i : Syntax.Item} (h : Rep g T n i) : IRep g T n i := by
  cases i with
  | op o => exact h.elim
  | _ => exact h

theorem IRep.cases {g : Nat → Option Grammar.Item} {T : Tables Name} {n : Nat} {i : Syntax.Item} (h : IRep g T n i) : Rep g T n i ∨ ∃ o, i = .op o ∧ OpRep g T n o := by
  cases i with
  | op o => exact .inr ⟨o, rfl, h⟩
  | _ => exact .inl h

theorem IRep.mono {g g' : Nat → Option Grammar.Item} {T T' : Tables Name} (hg : ∀ n it, g n = some it → g' n = some it)
    (hs : ∀ s k, find T.symbols s = some k → find T'.symbols s = some k) (ht : ∀ s k, find T.terminals s = some k → find T'.terminals s = some k) {i : Syntax.Item} {n : Nat} (h : IRep g T n i) :
    IRep g' T' n i := by
  rcases h.cases with h | ⟨o, rfl, p, h1, ⟨s, a, k, h2, h3, h4⟩, h5, h6⟩
  · exact (h.mono hg hs ht).irep
  · exact ⟨p, hg _ _ h1, ⟨s, a, k, h2, hg _ _ h3, hs _ _ h4⟩, h5.mono ht, h6⟩

theorem IRep.valid {g : Nat → Option Grammar.Item} {T : Tables Name} {i : Syntax.Item} {n : Nat} (h : IRep g T n i) : Valid i := by
  rcases h.cases with h | ⟨o, rfl, p, h1, ⟨s, a, k, h2, h3, h4⟩, h5, h6⟩
  · exact h.valid
  · exact ⟨⟨s, a, h2⟩, h6⟩

theorem IRep.below {h : List Grammar.Item} {T : Tables Name} {n : Nat} {i : Syntax.Item} (hr : IRep (h[·]?) T n i) : BelowR h h.length n := by
  rcases hr.cases with hr | ⟨o, rfl, p, h1, _⟩
  · exact hr.below.1
  · have h1 : h[n]? = _ := h1
    exact ⟨get_lt h1, fun j s h3 => by rw [h1] at h3; simp at h3, fun h3 => by rw [h1] at h3; simp at h3⟩

theorem Ext.irep {a b : St} (h : Ext a b) {n : Nat} {i : Syntax.Item} (hr : IRep (a.heap[·]?) a.tab n i) : IRep (b.heap[·]?) b.tab n i := hr.mono h.heap h.sym h.term

/-! ### The actions -/

theorem decl_spec {st st' : St} {o o' : OpItem} {d : OpDecl} {done : List OpDecl} (h : st.decl o d = some (st', o')) (hk : ∀ q ∈ operators d, st.Knows q.tok) (hl : Lists st.tab o done) :
    (∃ x, st' = { st with tab := { st.tab with next := x } }) ∧ Lists st.tab o' (done ++ [d]) ∧ o'.base = o.base ∧ ∀ q, d ≠ .post q .zero none := by
  have one : ∀ {s : Name}, st.Knows s → (∃ x, (st.term s).1 = { st with tab := { st.tab with next := x } }) ∧ find st.tab.terminals s = some (st.term s).2 := fun hk => by
    obtain ⟨h1, h2⟩ := term_spec hk
    exact ⟨⟨_, h1⟩, h2⟩
  have two : ∀ {s s' : Name}, st.Knows s → st.Knows s' → (∃ x, ((st.term s).1.term s').1 = { st with tab := { st.tab with next := x } }) ∧ find st.tab.terminals s = some (st.term s).2 ∧
      find st.tab.terminals s' = some ((st.term s).1.term s').2 := fun {s s'} hk hk' => by
    obtain ⟨⟨x, h1⟩, h2⟩ := one hk
    obtain ⟨h3, h4⟩ := term_spec (st := (st.term s).1) (s := s') (by rw [h1]; exact hk')
    rw [h1] at h3 h4 ⊢
    exact ⟨⟨_, h3⟩, h2, h4⟩
  have app : ∀ (p q : List OpDecl), pres (p ++ q) = pres p ++ pres q ∧ posts (p ++ q) = posts p ++ posts q ∧ bins (p ++ q) = bins p ++ bins q ∧ terns (p ++ q) = terns p ++ terns q ∧
      parens (p ++ q) = parens p ++ parens q := fun p q =>
    ⟨List.filterMap_append .., List.filterMap_append .., List.filterMap_append .., List.filterMap_append .., List.filterMap_append ..⟩
  obtain ⟨a1, a2, a3, a4, a5⟩ := app done [d]
  have nil : ∀ {α : Type} (l : List α), l ++ [] = l := List.append_nil
  cases d with
  | bin q p a =>
    simp only [St.decl, Option.some.injEq, Prod.mk.injEq] at h
    obtain ⟨rfl, rfl⟩ := h
    obtain ⟨h1, h2⟩ := one (hk q (by simp [operators]))
    exact ⟨h1, ⟨by rw [a1]; simpa [pres] using hl.pre, by rw [a2]; simpa [posts] using hl.post, by rw [a3]; exact hl.bin.append ⟨h2, trivial⟩, by rw [a4]; simpa [terns] using hl.tern,
      by rw [a5]; simpa [parens] using hl.paren⟩, rfl, by simp⟩
  | tern q q' p a =>
    simp only [St.decl, Option.some.injEq, Prod.mk.injEq] at h
    obtain ⟨rfl, rfl⟩ := h
    obtain ⟨h1, h2, h3⟩ := two (hk q (by simp [operators])) (hk q' (by simp [operators]))
    exact ⟨h1, ⟨by rw [a1]; simpa [pres] using hl.pre, by rw [a2]; simpa [posts] using hl.post, by rw [a3]; simpa [bins] using hl.bin, by rw [a4]; exact hl.tern.append ⟨⟨h2, h3⟩, trivial⟩,
      by rw [a5]; simpa [parens] using hl.paren⟩, rfl, by simp⟩
  | pre q p =>
    simp only [St.decl, Option.some.injEq, Prod.mk.injEq] at h
    obtain ⟨rfl, rfl⟩ := h
    obtain ⟨h1, h2⟩ := one (hk q (by simp [operators]))
    exact ⟨h1, ⟨by rw [a1]; exact hl.pre.append ⟨h2, trivial⟩, by rw [a2]; simpa [posts] using hl.post, by rw [a3]; simpa [bins] using hl.bin, by rw [a4]; simpa [terns] using hl.tern,
      by rw [a5]; simpa [parens] using hl.paren⟩, rfl, by simp⟩
  | post q p a =>
    have key : st.decl o (.post q p a) = some (st', o') → some ((st.term q.tok).1, { o with post := o.post ++ [(st.term q.tok).2] }) = some (st', o') ∧ ∀ q', OpDecl.post q p a ≠ .post q' .zero none := by
      intro h
      unfold St.decl at h
      split at h <;> first | (rename_i e; cases e; done) | skip
      · cases h
      · rename_i hne e
        cases e
        exact ⟨h, fun q' e => by cases e; exact hne rfl rfl⟩
    obtain ⟨h, hne⟩ := key h
    simp only [Option.some.injEq, Prod.mk.injEq] at h
    obtain ⟨rfl, rfl⟩ := h
    obtain ⟨h1, h2⟩ := one (hk q (by simp [operators]))
    exact ⟨h1, ⟨by rw [a1]; simpa [pres] using hl.pre, by rw [a2]; exact hl.post.append ⟨h2, trivial⟩, by rw [a3]; simpa [bins] using hl.bin, by rw [a4]; simpa [terns] using hl.tern,
      by rw [a5]; simpa [parens] using hl.paren⟩, rfl, hne⟩
  | paren q q' =>
    simp only [St.decl, Option.some.injEq, Prod.mk.injEq] at h
    obtain ⟨rfl, rfl⟩ := h
    obtain ⟨h1, h2, h3⟩ := two (hk q (by simp [operators])) (hk q' (by simp [operators]))
    exact ⟨h1, ⟨by rw [a1]; simpa [pres] using hl.pre, by rw [a2]; simpa [posts] using hl.post, by rw [a3]; simpa [bins] using hl.bin, by rw [a4]; simpa [terns] using hl.tern,
      by rw [a5]; exact hl.paren.append ⟨⟨h2, h3⟩, trivial⟩⟩, rfl, by simp⟩

theorem decls_spec : ∀ {os : List OpDecl} {st st' : St} {o o' : OpItem} {done : List OpDecl}, st.decls o os = some (st', o') → (∀ d ∈ os, ∀ q ∈ operators d, st.Knows q.tok) → Lists st.tab o done →
    (∃ x, st' = { st with tab := { st.tab with next := x } }) ∧ Lists st.tab o' (done ++ os) ∧ o'.base = o.base ∧ ∀ q, .post q .zero none ∉ os
  | [], st, st', o, o', done, h, _, hl => by
    cases h
    exact ⟨⟨_, rfl⟩, by simpa using hl, rfl, by simp⟩
  | d :: os, st, st', o, o', done, h, hk, hl => by
    obtain ⟨⟨st1, o1⟩, e1, e2⟩ := bind_some h
    obtain ⟨⟨x, rfl⟩, h2, h3, h4⟩ := decl_spec e1 (hk d (by simp)) hl
    obtain ⟨⟨y, rfl⟩, h6, h7, h8⟩ := decls_spec e2 (fun d hd => hk d (List.mem_cons_of_mem _ hd)) (done := done ++ [d]) (h2.tab (by rfl))
    refine ⟨⟨y, rfl⟩, by simpa using h6.tab (T' := st.tab) (by rfl), h7.trans h3, fun q hq => ?_⟩
    rcases List.mem_cons.1 hq with e | hq
    · exact h4 q e.symm
    · exact h8 q hq

theorem decls_some : ∀ {os : List OpDecl} (st : St) (o : OpItem), (∀ q, .post q .zero none ∉ os) → ∃ p, st.decls o os = some p
  | [], st, o, _ => ⟨_, rfl⟩
  | d :: os, st, o, h => by
    have : ∃ p, st.decl o d = some p := by
      cases d with
      | post q p a =>
        cases p with
        | zero => cases a with
          | none => exact absurd (List.mem_cons_self) (h q)
          | some a => exact ⟨_, rfl⟩
        | _ => exact ⟨_, rfl⟩
      | _ => exact ⟨_, rfl⟩
    obtain ⟨p, hp⟩ := this
    obtain ⟨r, hr⟩ := decls_some p.1 p.2 fun q hq => h q (List.mem_cons_of_mem _ hq)
    exact ⟨r, by rw [St.decls, hp]; exact hr⟩

/-- What the actions of an item of a rule do. -/
structure DoneI (st st' : St) (n : Nat) (i : Syntax.Item) : Prop where
  inv : Inv st'
  ext : Ext st st'
  rep : IRep (st'.heap[·]?) st'.tab n i
  terms : st'.tab.terminals = st.tab.terminals
  rules : st'.rules = st.rules
  adds : Adds st st' fun s => Mentions s i

theorem Done.toI {st st' : St} {n : Nat} {i : Syntax.Item} (h : Done st st' n i) : DoneI st st' n i := ⟨h.inv, h.ext, h.rep.irep, h.terms, h.rules, h.adds⟩

theorem op_done {bs : List Tok} {s a : Name} {os : List OpDecl} {st st1 st2 : St} {n : Nat} {o : OpItem} (h : Act .atom bs (.nonterm s a) st st1 n) (hd : st1.decls { base := n } os = some (st2, o)) (hi : Inv st)
    (ht : Terms st.Knows (.op ⟨.sym s a, os⟩)) : DoneI st (st2.new (.op o)).1 (st2.new (.op o)).2 (.op ⟨.sym s a, os⟩) := by
  have h1 := act_done h hi trivial
  obtain ⟨⟨x, rfl⟩, h3, h4, h5⟩ := decls_spec hd (fun d hd q hq => h1.knows.2 (ht d hd q hq)) .nil
  obtain ⟨k, h6, h7⟩ := h1.rep
  have hb : o.base = n := h4
  subst hb
  have hi2 := inv_next h1.inv x
  have good : Good st1.heap st1.heap.length (.op o) := ⟨get_lt h6, ⟨k, h6⟩, fun t ht => by
    obtain ⟨s, hs⟩ := h3.term ht
    exact ⟨get_lt (h1.inv.term _ _ hs), h1.inv.term _ _ hs⟩⟩
  have ext : Ext st { st1 with tab := { st1.tab with next := x } } := ⟨h1.ext.heap, h1.ext.sym, h1.ext.term⟩
  refine ⟨inv_new hi2 good (by simp), ext.trans (ext_new _ (by simp)), ⟨o, get_new _ _, ⟨s, a, k, rfl, get_more h6 _, h7⟩, h3.tab (by rfl), h5⟩, h1.terms, h1.rules, ?_⟩
  intro c hc
  obtain ⟨d, hd, hc⟩ := h1.adds c hc
  refine ⟨d, fun s' => (hd s').trans (not_congr ?_), ⟨hc.none, hc.start⟩⟩
  show s = s' ↔ ∃ a', Syntax.Atom.sym s a = .sym s' a'
  exact ⟨fun h => ⟨a, by rw [h]⟩, fun ⟨_, h⟩ => by cases h; rfl⟩

end Verif.Front
