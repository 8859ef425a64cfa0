import Verif.Front.Lemmas

/-!
# Lemmas: what holds of the state after the actions
-/

namespace Verif.Front

open Verif.Grammar (Tables pushSymbol pushTerminal terminal find)
open Verif.Syntax (Name Tok Nt Rule)

/-- What holds of the state at any time. -/
structure Inv (st : St) : Prop where
  items : Items st.heap
  sym : ∀ s k, find st.tab.symbols s = some k → st.heap[k]? = some .sym
  symInj : ∀ s s' k, find st.tab.symbols s = some k → find st.tab.symbols s' = some k → s = s'
  term : ∀ s k, find st.tab.terminals s = some k → st.heap[k]? = some .term
  termInj : ∀ s s' k, find st.tab.terminals s = some k → find st.tab.terminals s' = some k → s = s'
  termMem : ∀ p ∈ st.tab.terminals, find st.tab.terminals p.1 = some p.2
  decl : ∀ (n : Nat), st.heap[n]? = some .term → ∃ s, find st.tab.terminals s = some n
  zero : ∀ z, st.zero = some z → st.heap[z]? = some .zero
  oneZero : ∀ (n : Nat), st.heap[n]? = some .zero → st.zero = some n
  named : ∀ (n : Nat), st.heap[n]? = some .sym → ∃ s, find st.tab.symbols s = some n

/-- The state has grown. -/
structure Ext (a b : St) : Prop where
  heap : ∀ (n : Nat) (it : Grammar.Item), a.heap[n]? = some it → b.heap[n]? = some it
  sym : ∀ s k, find a.tab.symbols s = some k → find b.tab.symbols s = some k
  term : ∀ s k, find a.tab.terminals s = some k → find b.tab.terminals s = some k

theorem Ext.refl (a : St) : Ext a a := ⟨fun _ _ h => h, fun _ _ h => h, fun _ _ h => h⟩

theorem Ext.trans {a b c : St} (h1 : Ext a b) (h2 : Ext b c) : Ext a c :=
  ⟨fun _ _ h => h2.heap _ _ (h1.heap _ _ h), fun _ _ h => h2.sym _ _ (h1.sym _ _ h), fun _ _ h => h2.term _ _ (h1.term _ _ h)⟩

/-- Node `n` of the state represents the item. -/
abbrev St.Rep (st : St) (n : Nat) (i : Syntax.Item) : Prop := Front.Rep (st.heap[·]?) st.tab n i

theorem Ext.rep {a b : St} (h : Ext a b) {n : Nat} {i : Syntax.Item} (hr : a.Rep n i) : b.Rep n i := hr.mono h.heap h.sym h.term

/-- The terminal is declared. -/
def St.Knows (st : St) (s : Name) : Prop := ∃ k, find st.tab.terminals s = some k

/-- How often symbols were mentioned: once means start symbol. -/
structure Counts (st : St) (c : Name → Nat) : Prop where
  none : ∀ s, find st.tab.symbols s = none ↔ c s = 0
  start : ∀ s k, find st.tab.symbols s = some k → (k ∈ st.tab.start ↔ c s = 1)

theorem find_cons {m : List (Name × Nat)} {s s' : Name} {k : Nat} : find ((s, k) :: m) s' = if s = s' then some k else find m s' := by
  unfold find
  rw [List.find?_cons]
  by_cases h : s = s' <;> simp [h]

/-! ### Nodes -/

theorem inv_grow {st : St} (hi : Inv st) {h : List Grammar.Item} (hg : Grow st.heap h) (ht : Items h) : Inv { st with heap := h } := by
  have back : ∀ (n : Nat) (it : Grammar.Item), h[n]? = some it → it = .zero ∨ it = .term ∨ it = .sym → st.heap[n]? = some it := by
    intro n it hn hit
    obtain ⟨more, rfl, hm⟩ := hg
    rcases Nat.lt_or_ge n st.heap.length with hl | hl
    · rwa [List.getElem?_append_left hl] at hn
    · rw [List.getElem?_append_right hl] at hn
      have := hm _ (List.mem_of_getElem? hn)
      rcases hit with rfl | rfl | rfl
      · exact absurd rfl this.1
      · exact absurd rfl this.2.1
      · exact absurd rfl this.2.2
  exact ⟨ht, fun s k hf => hg.get _ _ (hi.sym s k hf), hi.symInj, fun s k hf => hg.get _ _ (hi.term s k hf), hi.termInj, hi.termMem, fun n hn => hi.decl n (back n _ hn (.inr (.inl rfl))),
    fun z hz => hg.get _ _ (hi.zero z hz), fun n hn => hi.oneZero n (back n _ hn (.inl rfl)), fun n hn => hi.named n (back n _ hn (.inr (.inr rfl)))⟩

theorem ext_grow {st : St} {h : List Grammar.Item} (hg : Grow st.heap h) : Ext st { st with heap := h } := ⟨hg.get, fun _ _ h => h, fun _ _ h => h⟩

theorem inv_new {st : St} (hi : Inv st) {it : Grammar.Item} (hg : Good st.heap st.heap.length it) (h0 : it ≠ .zero ∧ it ≠ .term ∧ it ≠ .sym) : Inv (st.new it).1 :=
  inv_grow hi (.one _ h0) (hi.items.append hg)

theorem ext_new (st : St) {it : Grammar.Item} (h0 : it ≠ .zero ∧ it ≠ .term ∧ it ≠ .sym) : Ext st (st.new it).1 := ext_grow (.one _ h0)

theorem get_new (st : St) (it : Grammar.Item) : (st.new it).1.heap[(st.new it).2]? = some it := get_last _ _

/-! ### Tables -/

theorem symbol_spec {st st' : St} {s : Name} {k : Nat} (hi : Inv st) (h : st.symbol s = (st', k)) : Inv st' ∧ Ext st st' ∧ find st'.tab.symbols s = some k ∧ st'.rules = st.rules ∧
    st'.tab.terminals = st.tab.terminals ∧ ∀ c, Counts st c → Counts st' fun x => c x + if x = s then 1 else 0 := by
  unfold St.symbol St.grow pushSymbol at h
  cases hf : find st.tab.symbols s with
  | none =>
    rw [hf] at h
    simp only [Nat.add_sub_cancel_left, List.replicate_one, Prod.mk.injEq] at h
    obtain ⟨rfl, rfl⟩ := h
    have hne : ∀ s' k, find st.tab.symbols s' = some k → k ≠ st.heap.length := fun s' k h => by have := get_lt (hi.sym _ _ h); omega
    have hold : ∀ s' k, find st.tab.symbols s' = some k → find ((s, st.heap.length) :: st.tab.symbols) s' = some k := by
      intro s' k h
      rw [find_cons, if_neg (fun e => by rw [← e, hf] at h; cases h), h]
    have hget : ∀ (n : Nat) (it : Grammar.Item), st.heap[n]? = some it → (st.heap ++ [.sym])[n]? = some it := fun n it h => get_more h _
    have back : ∀ (n : Nat) (it : Grammar.Item), (st.heap ++ [.sym])[n]? = some it → it ≠ .sym → st.heap[n]? = some it := by
      intro n it hn hit
      rcases Nat.lt_or_ge n st.heap.length with hl | hl
      · rwa [List.getElem?_append_left hl] at hn
      · rw [List.getElem?_append_right hl] at hn
        have := List.mem_of_getElem? hn
        simp only [List.mem_singleton] at this
        exact absurd this hit
    refine ⟨⟨hi.items.append trivial, fun s' k hk => ?_, fun s1 s2 k h1 h2 => ?_, fun s' k hk => hget _ _ (hi.term s' k hk), hi.termInj, hi.termMem, fun n hn => hi.decl n (back n _ hn (by simp)),
      fun z hz => hget _ _ (hi.zero z hz), fun n hn => hi.oneZero n (back n _ hn (by simp)), fun n hn => ?_⟩, ⟨hget, hold, fun _ _ h => h⟩, by rw [find_cons, if_pos rfl], by trivial, by trivial, fun c hc => ⟨fun x => ?_, fun x k hk => ?_⟩⟩
    · simp only [find_cons] at hk
      split at hk
      · cases hk; exact get_last _ _
      · exact hget _ _ (hi.sym s' k hk)
    · simp only [find_cons] at h1 h2
      split at h1 <;> split at h2
      · rename_i e1 e2; rw [← e1, ← e2]
      · cases h1; exact absurd rfl (hne _ _ h2)
      · cases h2; exact absurd rfl (hne _ _ h1)
      · exact hi.symInj _ _ _ h1 h2
    · rcases Nat.lt_or_ge n st.heap.length with hl | hl
      · replace hn : (st.heap ++ [.sym])[n]? = some .sym := hn
        rw [List.getElem?_append_left hl] at hn
        obtain ⟨x, hx⟩ := hi.named n hn
        exact ⟨x, hold _ _ hx⟩
      · have := get_lt hn
        simp at this
        exact ⟨s, by simp only [find_cons, if_true]; congr 1; omega⟩
    · simp only [find_cons]
      by_cases e : s = x
      · simp [e]
      · rw [if_neg e, if_neg (fun e' => e e'.symm), hc.none x]; simp
    · simp only [find_cons] at hk
      by_cases e : s = x
      · rw [if_pos e] at hk
        cases hk
        have := (hc.none s).1 hf
        subst e
        simp [this]
      · rw [if_neg e] at hk
        rw [if_neg (fun e' => e e'.symm)]
        have := hc.start x k hk
        simp [hne _ _ hk, this]
  | some k' =>
    rw [hf] at h
    simp only [Nat.sub_self, List.replicate_zero, List.append_nil, Prod.mk.injEq] at h
    obtain ⟨rfl, rfl⟩ := h
    refine ⟨⟨hi.items, hi.sym, hi.symInj, hi.term, hi.termInj, hi.termMem, hi.decl, hi.zero, hi.oneZero, hi.named⟩, ⟨fun _ _ h => h, fun _ _ h => h, fun _ _ h => h⟩, hf, by trivial, by trivial,
      fun c hc => ⟨fun x => ?_, fun x k hk => ?_⟩⟩
    · show find st.tab.symbols x = none ↔ _
      by_cases e : x = s
      · subst e; simp [hf]
      · rw [if_neg e, hc.none x]; simp
    · replace hk : find st.tab.symbols x = some k := hk
      show k ∈ st.tab.start.filter (· ≠ k') ↔ _
      by_cases e : x = s
      · subst e
        rw [hf] at hk
        cases hk
        have : c x ≠ 0 := fun h => by rw [(hc.none x).2 h] at hf; cases hf
        simp only [if_pos, List.mem_filter, ne_eq, not_true_eq_false, decide_false, Bool.false_eq_true, and_false, false_iff]
        omega
      · have hkk : k ≠ k' := fun h => e (hi.symInj _ _ _ hk (h ▸ hf))
        have := hc.start x k hk
        rw [if_neg e]
        simp [hkk, this]

theorem term_spec {st : St} {s : Name} (hk : st.Knows s) : (st.term s).1 = { st with tab := { st.tab with next := st.heap.length } } ∧ find st.tab.terminals s = some (st.term s).2 := by
  obtain ⟨k, hk⟩ := hk
  unfold St.term St.grow terminal
  simp [hk]

theorem inv_next {st : St} (hi : Inv st) (x : Nat) : Inv { st with tab := { st.tab with next := x } } :=
  ⟨hi.items, hi.sym, hi.symInj, hi.term, hi.termInj, hi.termMem, hi.decl, hi.zero, hi.oneZero, hi.named⟩

theorem zero_spec {st st' : St} {z : Nat} (hi : Inv st) (h : st.zeroItem = (st', z)) : Inv st' ∧ Ext st st' ∧ st'.heap[z]? = some .zero ∧ st'.zero = some z ∧ st'.tab = st.tab ∧ st'.rules = st.rules := by
  unfold St.zeroItem at h
  cases hz : st.zero with
  | some z' =>
    rw [hz] at h
    cases h
    exact ⟨hi, .refl _, hi.zero _ hz, hz, rfl, rfl⟩
  | none =>
    rw [hz] at h
    cases h
    have hext : Ext st { st with heap := st.heap ++ [.zero], zero := some st.heap.length } := ⟨fun n it h => get_more h _, fun _ _ h => h, fun _ _ h => h⟩
    have back : ∀ (n : Nat) (it : Grammar.Item), (st.heap ++ [.zero])[n]? = some it → it ≠ .zero → st.heap[n]? = some it := by
      intro n it hn hit
      rcases Nat.lt_or_ge n st.heap.length with hl | hl
      · rwa [List.getElem?_append_left hl] at hn
      · rw [List.getElem?_append_right hl] at hn
        have := List.mem_of_getElem? hn
        simp only [List.mem_singleton] at this
        exact absurd this hit
    refine ⟨⟨hi.items.append trivial, fun s k h => hext.heap _ _ (hi.sym s k h), hi.symInj, fun s k h => hext.heap _ _ (hi.term s k h), hi.termInj, hi.termMem,
      fun n hn => hi.decl n (back n _ hn (by simp)), fun z hz => ?_, fun n hn => ?_, fun n hn => hi.named n (back n _ hn (by simp))⟩, hext, get_last _ _, rfl, rfl, rfl⟩
    · cases hz; exact get_last _ _
    · show some st.heap.length = some n
      rcases Nat.lt_or_ge n st.heap.length with hl | hl
      · replace hn : (st.heap ++ [.zero])[n]? = some .zero := hn
        rw [List.getElem?_append_left hl] at hn
        have := hi.oneZero n hn
        rw [hz] at this; cases this
      · have := get_lt hn
        simp at this
        congr 1; omega

theorem declare_spec {st st' : St} {s d : Name} {k : Nat} (hi : Inv st) (h : st.declare s d = (st', k)) : Inv st' ∧ Ext st st' ∧ find st'.tab.terminals s = some k ∧
    (∀ x, st'.Knows x ↔ st.Knows x ∨ x = s) ∧ st'.tab.symbols = st.tab.symbols ∧ st'.tab.start = st.tab.start ∧ st'.rules = st.rules ∧ st'.zero = st.zero := by
  unfold St.declare St.grow pushTerminal at h
  cases hf : find st.tab.terminals s with
  | none =>
    rw [hf] at h
    simp only [Nat.add_sub_cancel_left, List.replicate_one, Prod.mk.injEq] at h
    obtain ⟨rfl, rfl⟩ := h
    have hne : ∀ s' k, find st.tab.terminals s' = some k → k ≠ st.heap.length := fun s' k h => by have := get_lt (hi.term _ _ h); omega
    have hold : ∀ s' k, find st.tab.terminals s' = some k → find ((s, st.heap.length) :: st.tab.terminals) s' = some k := by
      intro s' k h
      rw [find_cons, if_neg (fun e => by rw [← e, hf] at h; cases h), h]
    have hget : ∀ (n : Nat) (it : Grammar.Item), st.heap[n]? = some it → (st.heap ++ [.term])[n]? = some it := fun n it h => get_more h _
    have back : ∀ (n : Nat) (it : Grammar.Item), (st.heap ++ [.term])[n]? = some it → it ≠ .term → st.heap[n]? = some it := by
      intro n it hn hit
      rcases Nat.lt_or_ge n st.heap.length with hl | hl
      · rwa [List.getElem?_append_left hl] at hn
      · rw [List.getElem?_append_right hl] at hn
        have := List.mem_of_getElem? hn
        simp only [List.mem_singleton] at this
        exact absurd this hit
    refine ⟨⟨hi.items.append trivial, fun s k h => hget _ _ (hi.sym s k h), hi.symInj, fun s' k hk => ?_, fun s1 s2 k h1 h2 => ?_, fun p hp => ?_, fun n hn => ?_,
      fun z hz => hget _ _ (hi.zero z hz), fun n hn => hi.oneZero n (back n _ hn (by simp)), fun n hn => hi.named n (back n _ hn (by simp))⟩, ⟨hget, fun _ _ h => h, hold⟩, by rw [find_cons, if_pos rfl], fun x => ?_, by trivial, by trivial, by trivial, by trivial⟩
    · simp only [find_cons] at hk
      split at hk
      · cases hk; exact get_last _ _
      · exact hget _ _ (hi.term s' k hk)
    · simp only [find_cons] at h1 h2
      split at h1 <;> split at h2
      · rename_i e1 e2; rw [← e1, ← e2]
      · cases h1; exact absurd rfl (hne _ _ h2)
      · cases h2; exact absurd rfl (hne _ _ h1)
      · exact hi.termInj _ _ _ h1 h2
    · rcases List.mem_cons.1 hp with rfl | hp
      · simp only [find_cons, if_true]
      · exact hold _ _ (hi.termMem p hp)
    · rcases Nat.lt_or_ge n st.heap.length with hl | hl
      · replace hn : (st.heap ++ [.term])[n]? = some .term := hn
        rw [List.getElem?_append_left hl] at hn
        obtain ⟨x, hx⟩ := hi.decl n hn
        exact ⟨x, hold _ _ hx⟩
      · have := get_lt hn
        simp at this
        exact ⟨s, by simp only [find_cons, if_true]; congr 1; omega⟩
    · constructor
      · rintro ⟨k, hk⟩
        simp only [find_cons] at hk
        split at hk
        · rename_i e; exact .inr e.symm
        · exact .inl ⟨k, hk⟩
      · rintro (⟨k, hk⟩ | rfl)
        · exact ⟨k, hold _ _ hk⟩
        · exact ⟨st.heap.length, by simp only [find_cons, if_true]⟩
  | some k' =>
    rw [hf] at h
    simp only [Nat.sub_self, List.replicate_zero, List.append_nil, Prod.mk.injEq] at h
    obtain ⟨rfl, rfl⟩ := h
    refine ⟨⟨hi.items, hi.sym, hi.symInj, hi.term, hi.termInj, hi.termMem, hi.decl, hi.zero, hi.oneZero, hi.named⟩, ⟨fun _ _ h => h, fun _ _ h => h, fun _ _ h => h⟩, hf, fun x => ⟨.inl, ?_⟩, by trivial, by trivial, by trivial, by trivial⟩
    rintro (h | rfl)
    · exact h
    · exact ⟨_, hf⟩

/-! ### The actions -/

theorem terms_clone {P : Name → Prop} : ∀ {i : Syntax.Item}, Terms P (Syntax.clone i) ↔ Terms P i := by
  intro i
  induction i with
  | alt i j ih jh => exact and_congr ih jh
  | cons i j ih jh => exact and_congr ih jh
  | rollback i j ih jh => exact and_congr ih jh
  | ann _ i ih => exact ih
  | plus i ih => exact ih
  | star i ih => exact ih
  | act i _ ih => exact ih
  | cond _ i ih => exact ih
  | recover i ih => exact ih
  | _ => exact Iff.rfl

theorem mentions_clone {s : Name} : ∀ {i : Syntax.Item}, Mentions s (Syntax.clone i) ↔ Mentions s i := by
  intro i
  induction i with
  | alt i j ih jh => exact or_congr ih jh
  | cons i j ih jh => exact or_congr ih jh
  | rollback i j ih jh => exact or_congr ih jh
  | ann _ i ih => exact ih
  | plus i ih => exact ih
  | star i ih => exact ih
  | act i _ ih => exact ih
  | cond _ i ih => exact ih
  | recover i ih => exact ih
  | _ => exact Iff.rfl

/-- How the counts change. -/
def Adds (st st' : St) (P : Name → Prop) : Prop := ∀ c, Counts st c → ∃ d : Name → Nat, (∀ s, d s = 0 ↔ ¬ P s) ∧ Counts st' fun s => c s + d s

theorem Adds.none {st st' : St} {P : Name → Prop} (h1 : st'.tab.symbols = st.tab.symbols) (h2 : st'.tab.start = st.tab.start) (hP : ∀ s, ¬ P s) : Adds st st' P :=
  fun c hc => ⟨fun _ => 0, fun s => by simp [hP], ⟨fun s => by rw [h1]; exact hc.none s, fun s k hk => by rw [h1] at hk; rw [h2]; exact hc.start s k hk⟩⟩

theorem Adds.then {a b c : St} {P Q R : Name → Prop} (h1 : Adds a b P) (h2 : Adds b c Q) (hR : ∀ s, R s ↔ P s ∨ Q s) : Adds a c R := by
  intro x hx
  obtain ⟨d, hd, hc⟩ := h1 x hx
  obtain ⟨e, he, hc'⟩ := h2 _ hc
  refine ⟨fun s => d s + e s, fun s => ?_, ?_⟩
  · rw [hR, not_or, ← hd, ← he]; exact Nat.add_eq_zero_iff
  · have : (fun s => x s + (d s + e s)) = fun s => x s + d s + e s := by funext s; omega
    rw [this]; exact hc'

theorem Adds.after {a b c : St} {P : Name → Prop} (h1 : Adds a b P) (h2 : c.tab.symbols = b.tab.symbols) (h3 : c.tab.start = b.tab.start) : Adds a c P :=
  h1.then (Adds.none (P := fun _ => False) h2 h3 (by simp)) (by simp)

/-- What the actions of an item do. -/
structure Done (st st' : St) (n : Nat) (i : Syntax.Item) : Prop where
  inv : Inv st'
  ext : Ext st st'
  rep : st'.Rep n i
  terms : st'.tab.terminals = st.tab.terminals
  rules : st'.rules = st.rules
  adds : Adds st st' fun s => Mentions s i

theorem Done.knows {st st' : St} {n : Nat} {i : Syntax.Item} (h : Done st st' n i) {s : Name} : st'.Knows s ↔ st.Knows s := by
  unfold St.Knows; rw [h.terms]

theorem Done.one {st st' : St} {n : Nat} {i j : Syntax.Item} (h : Done st st' n i) {it : Grammar.Item} (hg : Good st'.heap st'.heap.length it) (h0 : it ≠ .zero ∧ it ≠ .term ∧ it ≠ .sym)
    (hr : (st'.new it).1.Rep n i → (st'.new it).1.heap[(st'.new it).2]? = some it → (st'.new it).1.Rep (st'.new it).2 j) (hm : ∀ s, Mentions s j ↔ Mentions s i) :
    Done st (st'.new it).1 (st'.new it).2 j :=
  ⟨inv_new h.inv hg h0, h.ext.trans (ext_new _ h0), hr ((ext_new _ h0).rep h.rep) (get_new _ _), h.terms, h.rules, by
    have := h.adds.after (c := (st'.new it).1) rfl rfl
    intro c hc
    obtain ⟨d, hd, h⟩ := this c hc
    exact ⟨d, fun s => by rw [hd]; exact not_congr (hm s).symm, h⟩⟩

theorem Done.two {st st1 st2 : St} {n m : Nat} {i j k : Syntax.Item} (h : Done st st1 n i) (h' : Done st1 st2 m j) {it : Grammar.Item} (hg : Good st2.heap st2.heap.length it)
    (h0 : it ≠ .zero ∧ it ≠ .term ∧ it ≠ .sym) (hr : (st2.new it).1.Rep n i → (st2.new it).1.Rep m j → (st2.new it).1.heap[(st2.new it).2]? = some it → (st2.new it).1.Rep (st2.new it).2 k)
    (hm : ∀ s, Mentions s k ↔ Mentions s i ∨ Mentions s j) : Done st (st2.new it).1 (st2.new it).2 k :=
  ⟨inv_new h'.inv hg h0, h.ext.trans (h'.ext.trans (ext_new _ h0)), hr ((ext_new _ h0).rep (h'.ext.rep h.rep)) ((ext_new _ h0).rep h'.rep) (get_new _ _),
    h'.terms.trans h.terms, h'.rules.trans h.rules, (h.adds.then h'.adds hm).after rfl rfl⟩

theorem Done.sym {st st' : St} {s : Name} {k : Nat} (hi : Inv st) (h : st.symbol s = (st', k)) {it : Grammar.Item} {i : Syntax.Item} (hg : st'.heap[k]? = some .sym → Good st'.heap st'.heap.length it)
    (h0 : it ≠ .zero ∧ it ≠ .term ∧ it ≠ .sym) (hr : find (st'.new it).1.tab.symbols s = some k → (st'.new it).1.heap[(st'.new it).2]? = some it → (st'.new it).1.Rep (st'.new it).2 i)
    (hm : ∀ s', Mentions s' i ↔ s' = s) : Done st (st'.new it).1 (st'.new it).2 i := by
  obtain ⟨h1, h2, h3, h4, h5, h6⟩ := symbol_spec hi h
  refine ⟨inv_new h1 (hg (h1.sym _ _ h3)) h0, h2.trans (ext_new _ h0), hr h3 (get_new _ _), h5, h4, fun c hc => ⟨fun x => if x = s then 1 else 0, fun x => ?_, ?_⟩⟩
  · refine Iff.trans ?_ (not_congr (hm x)).symm
    dsimp only
    split <;> simp_all
  · have := h6 c hc
    exact ⟨this.none, this.start⟩

theorem act_done {nt : Nt} {ts : List Tok} {i : Syntax.Item} {st st' : St} {n : Nat} (h : Act nt ts i st st' n) : Inv st → Terms st.Knows i → Done st st' n i := by
  induction h with
  | @zero st =>
    intro hi _
    obtain ⟨h1, h2, h3, _, h4, h5⟩ := zero_spec (st' := st.zeroItem.1) (z := st.zeroItem.2) hi rfl
    exact ⟨h1, h2, h3, by rw [h4], h5, .none (by rw [h4]) (by rw [h4]) fun s h => h⟩
  | paren _ ih => exact ih
  | tryIt _ ih => exact ih
  | atom _ ih => exact ih
  | inl h => exact fun hi _ => Done.sym hi h (fun h => h) (by simp) (fun h1 h2 => ⟨_, h2, h1⟩) fun s' => eq_comm
  | annEq _ ih => exact fun hi ht => (ih hi ht).one (ih hi ht).rep.below (by simp) (fun h1 h2 => ⟨_, h2, h1⟩) fun _ => Iff.rfl
  | annColon _ ih => exact fun hi ht => (ih hi ht).one (ih hi ht).rep.below (by simp) (fun h1 h2 => ⟨_, h2, h1⟩) fun _ => Iff.rfl
  | seqEq _ ih => exact fun hi ht => (ih hi ht).one (ih hi ht).rep.below (by simp) (fun h1 h2 => ⟨_, h2, h1⟩) fun _ => Iff.rfl
  | seqColon _ ih => exact fun hi ht => (ih hi ht).one (ih hi ht).rep.below (by simp) (fun h1 h2 => ⟨_, h2, h1⟩) fun _ => Iff.rfl
  | nonterm h => exact fun hi _ => Done.sym hi h (fun h => h) (by simp) (fun h1 h2 => ⟨_, h2, h1⟩) fun s' => eq_comm
  | call h => exact fun hi _ => Done.sym hi h (fun h => h) (by simp) (fun h1 h2 => ⟨_, h2, h1⟩) fun s' => eq_comm
  | @term s st =>
    intro hi ht
    obtain ⟨h1, h2⟩ := term_spec ht
    rw [h1]
    exact ⟨inv_next hi _, ⟨fun _ _ h => h, fun _ _ h => h, fun _ _ h => h⟩, ⟨hi.term _ _ h2, h2⟩, rfl, rfl, .none rfl rfl fun s h => h⟩
  | recover _ ih => exact fun hi ht => (ih hi ht).one (it := .tryc _ none) (ih hi ht).rep.below (by simp) (fun h1 h2 => ⟨_, h2, h1⟩) fun _ => Iff.rfl
  | rollback _ _ ih jh =>
    intro hi ht
    have h1 := ih hi ht.1
    have h2 := jh h1.inv (by have := ht.2; rwa [show _ = St.Knows _ from funext fun s => propext (h1.knows (s := s))])
    exact h1.two h2 (it := .tryc _ (some _)) ⟨(h2.ext.rep h1.rep).below, h2.rep.below⟩ (by simp) (fun a b c => ⟨_, _, c, a, b⟩) fun _ => Iff.rfl
  | plus _ ih => exact fun hi ht => (ih hi ht).one (ih hi ht).rep.below (by simp) (fun h1 h2 => ⟨_, h2, h1⟩) fun _ => Iff.rfl
  | star _ ih => exact fun hi ht => (ih hi ht).one (ih hi ht).rep.below (by simp) (fun h1 h2 => ⟨_, h2, h1⟩) fun _ => Iff.rfl
  | primary _ ih => exact ih
  | opt _ hz ih =>
    intro hi ht
    have h1 := ih hi ht.1
    obtain ⟨z1, z2, z3, _, z4, z5⟩ := zero_spec h1.inv hz
    have h2 : Done _ _ _ .zero := ⟨z1, z2, z3, by rw [z4], z5, .none (by rw [z4]) (by rw [z4]) fun s h => h⟩
    exact h1.two h2 ⟨(h2.ext.rep h1.rep).below, h2.rep.below⟩ (by simp) (fun a b c => ⟨_, _, c, a, b⟩) fun _ => Iff.rfl
  | unary _ ih => exact ih
  | sep _ _ hs ih jh =>
    intro hi ht
    have h1 := ih hi ht.1
    have h2 := jh h1.inv (by have := terms_clone.1 ht.2.1; rwa [show _ = St.Knows _ from funext fun s => propext (h1.knows (s := s))])
    obtain ⟨g1, g2, g3⟩ := sepList_rep hs h2.inv.items (h2.ext.rep h1.rep) h2.rep
    refine ⟨inv_grow h2.inv g1 g2, h1.ext.trans (h2.ext.trans (ext_grow g1)), g3, h2.terms.trans h1.terms, h2.rules.trans h1.rules, (h1.adds.then h2.adds fun s => ?_).after rfl rfl⟩
    show Mentions s _ ∨ Mentions s (Syntax.clone _) ∨ Mentions s (Syntax.clone _) ↔ _
    rw [mentions_clone, mentions_clone]
    exact ⟨fun h => h.elim .inl (fun h => h.symm), fun h => h.elim .inl fun h => .inr (.inl h)⟩
  | act _ ih => exact fun hi ht => (ih hi ht).one (it := .action (some _)) (ih hi ht).rep.below (by simp) (fun h1 h2 => ⟨_, h2, h1⟩) fun _ => Iff.rfl
  | @code c st =>
    intro hi _
    exact ⟨inv_new hi (it := .action none) trivial (by simp), ext_new _ (by simp), get_new _ _, rfl, rfl, .none rfl rfl fun s h => h⟩
  | one _ ih => exact ih
  | seq _ _ _ ih jh =>
    intro hi ht
    have h1 := ih hi ht.1
    have h2 := jh h1.inv (by have := ht.2; rwa [show _ = St.Knows _ from funext fun s => propext (h1.knows (s := s))])
    exact h1.two h2 ⟨(h2.ext.rep h1.rep).below, h2.rep.below⟩ (by simp) (fun a b c => ⟨_, _, c, a, b⟩) fun _ => Iff.rfl
  | sequence _ ih => exact ih
  | cond _ ih => exact fun hi ht => (ih hi ht).one (ih hi ht).rep.below (by simp) (fun h1 h2 => ⟨_, h2, h1⟩) fun _ => Iff.rfl
  | single _ ih => exact ih
  | alt _ _ ih jh =>
    intro hi ht
    have h1 := ih hi ht.1
    have h2 := jh h1.inv (by have := ht.2; rwa [show _ = St.Knows _ from funext fun s => propext (h1.knows (s := s))])
    exact h1.two h2 ⟨(h2.ext.rep h1.rep).below, h2.rep.below⟩ (by simp) (fun a b c => ⟨_, _, c, a, b⟩) fun _ => Iff.rfl

end Verif.Front
