import Verif.Front.Model
import Verif.Front.Spec

/-!
# Lemmas: the nodes made by the actions represent the values

`Rep g T n i`: node `n` of the heap `g` with the tables `T` represents the item `i`.
-/

namespace Verif.Front

open Verif.Grammar (Tables pushSymbol pushTerminal terminal find)
open Verif.Syntax (Name Tok Nt Rule)

/-- Node `n` represents the item, which is no operator expression: those stand only directly below rules (`OpRep`). -/
def Rep (g : Nat → Option Grammar.Item) (T : Tables Name) : Nat → Syntax.Item → Prop
  | n, .zero => g n = some .zero
  | n, .nonterm s _ => ∃ k, g n = some (.nonterm k) ∧ find T.symbols s = some k
  | n, .term s => g n = some .term ∧ find T.terminals s = some n
  | n, .inl s => ∃ k, g n = some (.inlined (some k)) ∧ find T.symbols s = some k
  | n, .ann _ i => ∃ m, g n = some (.annot m) ∧ Rep g T m i
  | n, .plus i => ∃ m, g n = some (.plus m) ∧ Rep g T m i
  | n, .star i => ∃ m, g n = some (.star m) ∧ Rep g T m i
  | n, .code _ => g n = some (.action none)
  | n, .act i _ => ∃ m, g n = some (.action (some m)) ∧ Rep g T m i
  | n, .alt i j => ∃ m k, g n = some (.alt m k) ∧ Rep g T m i ∧ Rep g T k j
  | n, .cons i j => ∃ m k, g n = some (.cons m k) ∧ Rep g T m i ∧ Rep g T k j
  | n, .cond _ i => ∃ m, g n = some (.cond m) ∧ Rep g T m i
  | n, .recover i => ∃ m, g n = some (.tryc m none) ∧ Rep g T m i
  | n, .rollback i j => ∃ m k, g n = some (.tryc m (some k)) ∧ Rep g T m i ∧ Rep g T k j
  | _, .op _ => False
  | _, .wild => False

theorem Rep.mono {g g' : Nat → Option Grammar.Item} {T T' : Tables Name} (hg : ∀ n it, g n = some it → g' n = some it)
    (hs : ∀ s k, find T.symbols s = some k → find T'.symbols s = some k) (ht : ∀ s k, find T.terminals s = some k → find T'.terminals s = some k) :
    ∀ {i : Syntax.Item} {n : Nat}, Rep g T n i → Rep g' T' n i := by
  intro i
  induction i with
  | zero => exact fun h => hg _ _ h
  | nonterm s a => exact fun ⟨k, h1, h2⟩ => ⟨k, hg _ _ h1, hs _ _ h2⟩
  | term s => exact fun ⟨h1, h2⟩ => ⟨hg _ _ h1, ht _ _ h2⟩
  | inl s => exact fun ⟨k, h1, h2⟩ => ⟨k, hg _ _ h1, hs _ _ h2⟩
  | ann l i ih => exact fun ⟨m, h1, h2⟩ => ⟨m, hg _ _ h1, ih h2⟩
  | plus i ih => exact fun ⟨m, h1, h2⟩ => ⟨m, hg _ _ h1, ih h2⟩
  | star i ih => exact fun ⟨m, h1, h2⟩ => ⟨m, hg _ _ h1, ih h2⟩
  | code c => exact fun h => hg _ _ h
  | act i c ih => exact fun ⟨m, h1, h2⟩ => ⟨m, hg _ _ h1, ih h2⟩
  | alt i j ih jh => exact fun ⟨m, k, h1, h2, h3⟩ => ⟨m, k, hg _ _ h1, ih h2, jh h3⟩
  | cons i j ih jh => exact fun ⟨m, k, h1, h2, h3⟩ => ⟨m, k, hg _ _ h1, ih h2, jh h3⟩
  | cond c i ih => exact fun ⟨m, h1, h2⟩ => ⟨m, hg _ _ h1, ih h2⟩
  | recover i ih => exact fun ⟨m, h1, h2⟩ => ⟨m, hg _ _ h1, ih h2⟩
  | rollback i j ih jh => exact fun ⟨m, k, h1, h2, h3⟩ => ⟨m, k, hg _ _ h1, ih h2, jh h3⟩
  | op o => exact fun h => h
  | wild => exact fun h => h

theorem Rep.valid {g : Nat → Option Grammar.Item} {T : Tables Name} : ∀ {i : Syntax.Item} {n : Nat}, Rep g T n i → Valid i := by
  intro i
  induction i with
  | ann l i ih => exact fun ⟨m, h1, h2⟩ => ih h2
  | plus i ih => exact fun ⟨m, h1, h2⟩ => ih h2
  | star i ih => exact fun ⟨m, h1, h2⟩ => ih h2
  | act i c ih => exact fun ⟨m, h1, h2⟩ => ih h2
  | alt i j ih jh => exact fun ⟨m, k, h1, h2, h3⟩ => ⟨ih h2, jh h3⟩
  | cons i j ih jh => exact fun ⟨m, k, h1, h2, h3⟩ => ⟨ih h2, jh h3⟩
  | cond c i ih => exact fun ⟨m, h1, h2⟩ => ih h2
  | recover i ih => exact fun ⟨m, h1, h2⟩ => ih h2
  | rollback i j ih jh => exact fun ⟨m, k, h1, h2, h3⟩ => ⟨ih h2, jh h3⟩
  | op o => exact fun h => h.elim
  | wild => exact fun h => h
  | _ => exact fun _ => trivial

/-- The node of an item: there is one, and it is neither a rule nor a symbol nor an operator expression. -/
theorem Rep.node {g : Nat → Option Grammar.Item} {T : Tables Name} {i : Syntax.Item} {n : Nat} (h : Rep g T n i) : ∃ it, g n = some it ∧ (∀ j s, it ≠ .evolve j s) ∧ it ≠ .sym ∧ ∀ o, it ≠ .op o := by
  cases i <;> simp only [Rep] at h
  case zero => exact ⟨_, h, by simp⟩
  case code => exact ⟨_, h, by simp⟩
  case term => exact ⟨_, h.1, by simp⟩
  all_goals first
    | exact h.elim
    | (obtain ⟨_, h, _⟩ := h; exact ⟨_, h, by simp⟩)
    | (obtain ⟨_, _, h, _⟩ := h; exact ⟨_, h, by simp⟩)

/-! ### Heaps -/

/-- Node `m` is made before `n` and is no rule and no symbol. -/
def BelowR (h : List Grammar.Item) (n m : Nat) : Prop := m < n ∧ (∀ j s, h[m]? ≠ some (.evolve j s)) ∧ h[m]? ≠ some .sym

/-- Nor is it an operator expression. -/
def Below (h : List Grammar.Item) (n m : Nat) : Prop := BelowR h n m ∧ ∀ o, h[m]? ≠ some (.op o)

/-- What holds of a node of the heap. -/
def Good (h : List Grammar.Item) (n : Nat) : Grammar.Item → Prop
  | .plus i => Below h n i
  | .star i => Below h n i
  | .action none => True
  | .action (some i) => Below h n i
  | .alt l r => Below h n l ∧ Below h n r
  | .cons l r => Below h n l ∧ Below h n r
  | .evolve i s => BelowR h n i ∧ h[s]? = some .sym
  | .tryc t none => Below h n t
  | .tryc t (some c) => Below h n t ∧ Below h n c
  | .nonterm s => h[s]? = some .sym
  | .annot i => Below h n i
  | .cond i => Below h n i
  | .inlined (some s) => h[s]? = some .sym
  | .inlined none => False
  | .op o => o.base < n ∧ (∃ k, h[o.base]? = some (.nonterm k)) ∧ ∀ t, t ∈ o.pre ∨ t ∈ o.post ∨ t ∈ o.bin ∨ (∃ u, (t, u) ∈ o.tern ∨ (u, t) ∈ o.tern ∨ (t, u) ∈ o.paren ∨ (u, t) ∈ o.paren) → t < n ∧ h[t]? = some .term
  | _ => True

def Items (h : List Grammar.Item) : Prop := ∀ n it, h[n]? = some it → Good h n it

theorem get_more {h : List Grammar.Item} {n : Nat} {it : Grammar.Item} (hn : h[n]? = some it) (more : List Grammar.Item) : (h ++ more)[n]? = some it := by
  have := (List.getElem?_eq_some_iff.1 hn).1
  rw [List.getElem?_append_left this, hn]

theorem get_lt {h : List Grammar.Item} {n : Nat} {it : Grammar.Item} (hn : h[n]? = some it) : n < h.length := (List.getElem?_eq_some_iff.1 hn).1

theorem get_last (h : List Grammar.Item) (it : Grammar.Item) : (h ++ [it])[h.length]? = some it := by simp

theorem BelowR.more {h : List Grammar.Item} {n m : Nat} (hb : BelowR h n m) (hn : n ≤ h.length) (more : List Grammar.Item) : BelowR (h ++ more) n m := by
  have e : (h ++ more)[m]? = h[m]? := List.getElem?_append_left (by have := hb.1; omega)
  exact ⟨hb.1, fun j s => by rw [e]; exact hb.2.1 j s, by rw [e]; exact hb.2.2⟩

theorem Below.more {h : List Grammar.Item} {n m : Nat} (hb : Below h n m) (hn : n ≤ h.length) (more : List Grammar.Item) : Below (h ++ more) n m := by
  have e : (h ++ more)[m]? = h[m]? := List.getElem?_append_left (by have := hb.1.1; omega)
  exact ⟨hb.1.more hn _, fun o => by rw [e]; exact hb.2 o⟩

theorem Good.more {h : List Grammar.Item} {n : Nat} {it : Grammar.Item} (hg : Good h n it) (hn : n ≤ h.length) (more : List Grammar.Item) : Good (h ++ more) n it := by
  cases it with
  | plus i => exact Below.more hg hn _
  | star i => exact Below.more hg hn _
  | action i => cases i with
    | none => trivial
    | some i => exact Below.more hg hn _
  | alt l r => exact ⟨hg.1.more hn _, hg.2.more hn _⟩
  | cons l r => exact ⟨hg.1.more hn _, hg.2.more hn _⟩
  | evolve i s => exact ⟨hg.1.more hn _, get_more hg.2 _⟩
  | tryc t c => cases c with
    | none => exact Below.more hg hn _
    | some c => exact ⟨hg.1.more hn _, hg.2.more hn _⟩
  | nonterm s => exact get_more hg _
  | annot i => exact Below.more hg hn _
  | cond i => exact Below.more hg hn _
  | inlined s => cases s with
    | none => exact hg
    | some s => exact get_more (show h[s]? = _ from hg) _
  | op o => exact ⟨hg.1, hg.2.1.imp fun k hk => get_more hk _, fun t ht => ⟨(hg.2.2 t ht).1, get_more (hg.2.2 t ht).2 _⟩⟩
  | zero => trivial
  | sym => trivial
  | term => trivial

theorem Items.append {h : List Grammar.Item} (hi : Items h) {it : Grammar.Item} (hg : Good h h.length it) : Items (h ++ [it]) := by
  intro n x hn
  rcases Nat.lt_or_ge n h.length with hl | hl
  · rw [List.getElem?_append_left hl] at hn
    exact (hi n x hn).more (by omega) _
  · rw [List.getElem?_append_right hl] at hn
    rcases Nat.eq_zero_or_pos (n - h.length) with h0 | h0
    · have : n = h.length := by omega
      subst this
      simp at hn
      subst hn
      exact hg.more (Nat.le_refl _) _
    · rw [List.getElem?_eq_none (by simp; omega)] at hn
      cases hn

/-- The nodes added are neither symbols nor terminals nor zero nodes. -/
def Grow (h h' : List Grammar.Item) : Prop := ∃ more, h' = h ++ more ∧ ∀ it ∈ more, it ≠ .zero ∧ it ≠ .term ∧ it ≠ .sym

theorem Grow.refl (h : List Grammar.Item) : Grow h h := ⟨[], by simp, by simp⟩

theorem Grow.trans {a b c : List Grammar.Item} (h1 : Grow a b) (h2 : Grow b c) : Grow a c := by
  obtain ⟨m, rfl, hm⟩ := h1
  obtain ⟨m', rfl, hm'⟩ := h2
  refine ⟨m ++ m', by simp, fun it hit => ?_⟩
  rcases List.mem_append.1 hit with h | h
  · exact hm _ h
  · exact hm' _ h

theorem Grow.one (h : List Grammar.Item) {it : Grammar.Item} (hit : it ≠ .zero ∧ it ≠ .term ∧ it ≠ .sym) : Grow h (h ++ [it]) := ⟨[it], rfl, by simpa using hit⟩

theorem Grow.get {h h' : List Grammar.Item} (hg : Grow h h') (n : Nat) (it : Grammar.Item) (hn : h[n]? = some it) : h'[n]? = some it := by
  obtain ⟨m, rfl, _⟩ := hg
  exact get_more hn m

theorem Grow.le {h h' : List Grammar.Item} (hg : Grow h h') : h.length ≤ h'.length := by
  obtain ⟨m, rfl, _⟩ := hg
  simp

theorem Grow.rep {h h' : List Grammar.Item} (hg : Grow h h') {T : Tables Name} {n : Nat} {i : Syntax.Item} (hr : Rep (h[·]?) T n i) : Rep (h'[·]?) T n i :=
  hr.mono (fun n it hn => hg.get n it hn) (fun _ _ h => h) fun _ _ h => h

theorem Rep.below {h : List Grammar.Item} {T : Tables Name} {n : Nat} {i : Syntax.Item} (hr : Rep (h[·]?) T n i) : Below h h.length n := by
  obtain ⟨it, h1, h2⟩ := hr.node
  exact ⟨⟨get_lt h1, fun j s h3 => h2.1 j s (Option.some.inj (h1.symm.trans h3)), fun h3 => h2.2.1 (Option.some.inj (h1.symm.trans h3))⟩, fun o h3 => h2.2.2 o (Option.some.inj (h1.symm.trans h3))⟩

theorem bind_some {α β : Type} {x : Option α} {f : α → Option β} {y : β} (h : x.bind f = some y) : ∃ a, x = some a ∧ f a = some y := by
  cases x with
  | none => simp at h
  | some a => exact ⟨a, rfl, by simpa using h⟩

/-- What `CloneTree` makes for the node of an item represents the clone of the item. -/
theorem visit_rep {T : Tables Name} {i : Syntax.Item} : ∀ {f n c : Nat} {h h' : List Grammar.Item}, Clone.visit h f n = some (h', c) → Items h → Rep (h[·]?) T n i →
    Grow h h' ∧ Items h' ∧ Rep (h'[·]?) T c (Syntax.clone i) := by
  induction i with
  | zero =>
    intro f n c h h' hv hi hr
    cases f with
    | zero => simp [Clone.visit] at hv
    | succ f =>
      rw [Clone.visit, show h[n]? = _ from hr] at hv
      cases hv
      exact ⟨.refl _, hi, hr⟩
  | nonterm s a =>
    intro f n c h h' hv hi hr
    obtain ⟨k, h1, h2⟩ := hr
    cases f with
    | zero => simp [Clone.visit] at hv
    | succ f =>
      rw [Clone.visit, show h[n]? = _ from h1] at hv
      cases hv
      exact ⟨.one _ (by simp), hi.append (hi n _ h1), k, get_last _ _, h2⟩
  | inl s =>
    intro f n c h h' hv hi hr
    obtain ⟨k, h1, h2⟩ := hr
    cases f with
    | zero => simp [Clone.visit] at hv
    | succ f =>
      rw [Clone.visit, show h[n]? = _ from h1] at hv
      cases hv
      exact ⟨.one _ (by simp), hi.append (hi n _ h1), k, get_last _ _, h2⟩
  | term s =>
    intro f n c h h' hv hi hr
    cases f with
    | zero => simp [Clone.visit] at hv
    | succ f =>
      rw [Clone.visit, show h[n]? = _ from hr.1] at hv
      cases hv
      exact ⟨.refl _, hi, hr⟩
  | ann l i ih =>
    intro f n c h h' hv hi hr
    obtain ⟨m, h1, h2⟩ := hr
    cases f with
    | zero => simp [Clone.visit] at hv
    | succ f =>
      rw [Clone.visit, show h[n]? = _ from h1] at hv
      obtain ⟨⟨h3, k⟩, e1, e2⟩ := bind_some hv
      obtain ⟨g1, g2, g3⟩ := ih e1 hi h2
      cases e2
      exact ⟨g1.trans (.one _ (by simp)), g2.append g3.below, k, get_last _ _, (Grow.one h3 (it := .annot k) (by simp)).rep g3⟩
  | plus i ih =>
    intro f n c h h' hv hi hr
    obtain ⟨m, h1, h2⟩ := hr
    cases f with
    | zero => simp [Clone.visit] at hv
    | succ f =>
      rw [Clone.visit, show h[n]? = _ from h1] at hv
      obtain ⟨⟨h3, k⟩, e1, e2⟩ := bind_some hv
      obtain ⟨g1, g2, g3⟩ := ih e1 hi h2
      cases e2
      exact ⟨g1.trans (.one _ (by simp)), g2.append g3.below, k, get_last _ _, (Grow.one h3 (it := .plus k) (by simp)).rep g3⟩
  | star i ih =>
    intro f n c h h' hv hi hr
    obtain ⟨m, h1, h2⟩ := hr
    cases f with
    | zero => simp [Clone.visit] at hv
    | succ f =>
      rw [Clone.visit, show h[n]? = _ from h1] at hv
      obtain ⟨⟨h3, k⟩, e1, e2⟩ := bind_some hv
      obtain ⟨g1, g2, g3⟩ := ih e1 hi h2
      cases e2
      exact ⟨g1.trans (.one _ (by simp)), g2.append g3.below, k, get_last _ _, (Grow.one h3 (it := .star k) (by simp)).rep g3⟩
  | code c =>
    intro f n c h h' hv hi hr
    cases f with
    | zero => simp [Clone.visit] at hv
    | succ f =>
      rw [Clone.visit, show h[n]? = _ from hr] at hv
      cases hv
  | act i c ih =>
    intro f n c h h' hv hi hr
    obtain ⟨m, h1, h2⟩ := hr
    cases f with
    | zero => simp [Clone.visit] at hv
    | succ f =>
      rw [Clone.visit, show h[n]? = _ from h1] at hv
      obtain ⟨⟨h3, k⟩, e1, e2⟩ := bind_some hv
      obtain ⟨g1, g2, g3⟩ := ih e1 hi h2
      cases e2
      exact ⟨g1.trans (.one _ (by simp)), g2.append g3.below, k, get_last _ _, (Grow.one h3 (it := .action (some k)) (by simp)).rep g3⟩
  | alt i j ih jh =>
    intro f n c h h' hv hi hr
    obtain ⟨m, k, h1, h2, h2'⟩ := hr
    cases f with
    | zero => simp [Clone.visit] at hv
    | succ f =>
      rw [Clone.visit, show h[n]? = _ from h1] at hv
      obtain ⟨⟨h3, a⟩, e1, e2⟩ := bind_some hv
      obtain ⟨⟨h4, b⟩, e3, e4⟩ := bind_some e2
      obtain ⟨g1, g2, g3⟩ := ih e1 hi h2
      obtain ⟨g4, g5, g6⟩ := jh e3 g2 (g1.rep h2')
      cases e4
      have g7 := Grow.one h4 (it := .alt a b) (by simp)
      exact ⟨g1.trans (g4.trans g7), g5.append ⟨(g4.rep g3).below, g6.below⟩, a, b, get_last _ _, g7.rep (g4.rep g3), g7.rep g6⟩
  | cons i j ih jh =>
    intro f n c h h' hv hi hr
    obtain ⟨m, k, h1, h2, h2'⟩ := hr
    cases f with
    | zero => simp [Clone.visit] at hv
    | succ f =>
      rw [Clone.visit, show h[n]? = _ from h1] at hv
      obtain ⟨⟨h3, a⟩, e1, e2⟩ := bind_some hv
      obtain ⟨⟨h4, b⟩, e3, e4⟩ := bind_some e2
      obtain ⟨g1, g2, g3⟩ := ih e1 hi h2
      obtain ⟨g4, g5, g6⟩ := jh e3 g2 (g1.rep h2')
      cases e4
      have g7 := Grow.one h4 (it := .cons a b) (by simp)
      exact ⟨g1.trans (g4.trans g7), g5.append ⟨(g4.rep g3).below, g6.below⟩, a, b, get_last _ _, g7.rep (g4.rep g3), g7.rep g6⟩
  | cond c i ih =>
    intro f n c h h' hv hi hr
    obtain ⟨m, h1, h2⟩ := hr
    cases f with
    | zero => simp [Clone.visit] at hv
    | succ f =>
      rw [Clone.visit, show h[n]? = _ from h1] at hv
      exact ih hv hi h2
  | recover i ih =>
    intro f n c h h' hv hi hr
    obtain ⟨m, h1, h2⟩ := hr
    cases f with
    | zero => simp [Clone.visit] at hv
    | succ f =>
      rw [Clone.visit, show h[n]? = _ from h1] at hv
      obtain ⟨⟨h3, k⟩, e1, e2⟩ := bind_some hv
      obtain ⟨g1, g2, g3⟩ := ih e1 hi h2
      cases e2
      exact ⟨g1.trans (.one _ (by simp)), g2.append (it := .tryc k none) g3.below, k, get_last _ _, (Grow.one h3 (it := .tryc k none) (by simp)).rep g3⟩
  | rollback i j ih jh =>
    intro f n c h h' hv hi hr
    obtain ⟨m, k, h1, h2, h2'⟩ := hr
    cases f with
    | zero => simp [Clone.visit] at hv
    | succ f =>
      rw [Clone.visit, show h[n]? = _ from h1] at hv
      obtain ⟨⟨h3, a⟩, e1, e2⟩ := bind_some hv
      obtain ⟨⟨h4, b⟩, e3, e4⟩ := bind_some e2
      obtain ⟨g1, g2, g3⟩ := ih e1 hi h2
      obtain ⟨g4, g5, g6⟩ := jh e3 g2 (g1.rep h2')
      cases e4
      have g7 := Grow.one h4 (it := .tryc a (some b)) (by simp)
      exact ⟨g1.trans (g4.trans g7), g5.append (it := .tryc a (some b)) ⟨(g4.rep g3).below, g6.below⟩, a, b, get_last _ _, g7.rep (g4.rep g3), g7.rep g6⟩
  | op o => exact fun _ _ hr => hr.elim
  | wild => exact fun _ _ hr => hr.elim

theorem sepList_rep {T : Tables Name} {i j : Syntax.Item} {n m k : Nat} {h h' : List Grammar.Item} (hv : Clone.sepList h n m = some (h', k)) (hi : Items h) (hn : Rep (h[·]?) T n i)
    (hm : Rep (h[·]?) T m j) : Grow h h' ∧ Items h' ∧ Rep (h'[·]?) T k (Syntax.sep i j) := by
  obtain ⟨⟨h1, a⟩, e1, hv⟩ := bind_some hv
  obtain ⟨⟨h2, b⟩, e2, hv⟩ := bind_some hv
  obtain ⟨g1, i1, r1⟩ := visit_rep e1 hi hm
  obtain ⟨g2, i2, r2⟩ := visit_rep e2 i1 (g1.rep hn)
  cases hv
  have g3 := Grow.one h2 (it := .cons a b) (by simp)
  have i3 := i2.append (it := .cons a b) ⟨(g2.rep r1).below, r2.below⟩
  have r3 : Rep ((h2 ++ [.cons a b])[·]?) T h2.length (.cons (Syntax.clone j) (Syntax.clone i)) := ⟨a, b, get_last _ _, g3.rep (g2.rep r1), g3.rep r2⟩
  have g4 := Grow.one (h2 ++ [.cons a b]) (it := .star h2.length) (by simp)
  have i4 := i3.append (it := .star h2.length) r3.below
  have r4 : Rep ((h2 ++ [Grammar.Item.cons a b] ++ [Grammar.Item.star h2.length])[·]?) T (h2 ++ [Grammar.Item.cons a b]).length (.star (.cons (Syntax.clone j) (Syntax.clone i))) := ⟨_, get_last _ _, g4.rep r3⟩
  have gn := g1.trans (g2.trans (g3.trans g4))
  have g5 := Grow.one (h2 ++ [Grammar.Item.cons a b] ++ [.star h2.length]) (it := .cons n (h2 ++ [Grammar.Item.cons a b]).length) (by simp)
  exact ⟨gn.trans g5, i4.append (it := .cons n (h2 ++ [Grammar.Item.cons a b]).length) ⟨(gn.rep hn).below, r4.below⟩, _, _, get_last _ _, g5.rep (gn.rep hn), g5.rep r4⟩

/-- Cloning comes to an end. -/
theorem visit_some {T : Tables Name} {i : Syntax.Item} : ∀ {f n : Nat} {h : List Grammar.Item}, n < f → Items h → Rep (h[·]?) T n i → Valid (Syntax.clone i) →
    ∃ r, Clone.visit h f n = some r := by
  have lt : ∀ {h : List Grammar.Item} {n m f : Nat}, n < f + 1 → Below h n m → m < f := fun h1 h2 => by have := h2.1.1; omega
  induction i with
  | zero =>
    intro f n h hf hi hr hv
    cases f with
    | zero => omega
    | succ f => rw [Clone.visit, show h[n]? = _ from hr]; exact ⟨_, rfl⟩
  | nonterm s a =>
    intro f n h hf hi hr hv
    obtain ⟨k, h1, h2⟩ := hr
    cases f with
    | zero => omega
    | succ f => rw [Clone.visit, show h[n]? = _ from h1]; exact ⟨_, rfl⟩
  | inl s =>
    intro f n h hf hi hr hv
    obtain ⟨k, h1, h2⟩ := hr
    cases f with
    | zero => omega
    | succ f => rw [Clone.visit, show h[n]? = _ from h1]; exact ⟨_, rfl⟩
  | term s =>
    intro f n h hf hi hr hv
    cases f with
    | zero => omega
    | succ f => rw [Clone.visit, show h[n]? = _ from hr.1]; exact ⟨_, rfl⟩
  | code c => intro _ _ _ _ _ _ hv; exact hv.elim
  | ann l i ih =>
    intro f n h hf hi hr hv
    obtain ⟨m, h1, h2⟩ := hr
    cases f with
    | zero => omega
    | succ f =>
      obtain ⟨r, e⟩ := ih (lt hf (hi n _ h1)) hi h2 hv
      rw [Clone.visit, show h[n]? = _ from h1]
      exact ⟨_, by dsimp only; rw [e]; rfl⟩
  | plus i ih =>
    intro f n h hf hi hr hv
    obtain ⟨m, h1, h2⟩ := hr
    cases f with
    | zero => omega
    | succ f =>
      obtain ⟨r, e⟩ := ih (lt hf (hi n _ h1)) hi h2 hv
      rw [Clone.visit, show h[n]? = _ from h1]
      exact ⟨_, by dsimp only; rw [e]; rfl⟩
  | star i ih =>
    intro f n h hf hi hr hv
    obtain ⟨m, h1, h2⟩ := hr
    cases f with
    | zero => omega
    | succ f =>
      obtain ⟨r, e⟩ := ih (lt hf (hi n _ h1)) hi h2 hv
      rw [Clone.visit, show h[n]? = _ from h1]
      exact ⟨_, by dsimp only; rw [e]; rfl⟩
  | act i c ih =>
    intro f n h hf hi hr hv
    obtain ⟨m, h1, h2⟩ := hr
    cases f with
    | zero => omega
    | succ f =>
      obtain ⟨r, e⟩ := ih (lt hf (hi n (.action (some m)) h1)) hi h2 hv
      rw [Clone.visit, show h[n]? = _ from h1]
      exact ⟨_, by dsimp only; rw [e]; rfl⟩
  | cond c i ih =>
    intro f n h hf hi hr hv
    obtain ⟨m, h1, h2⟩ := hr
    cases f with
    | zero => omega
    | succ f =>
      rw [Clone.visit, show h[n]? = _ from h1]
      exact ih (lt hf (hi n _ h1)) hi h2 hv
  | recover i ih =>
    intro f n h hf hi hr hv
    obtain ⟨m, h1, h2⟩ := hr
    cases f with
    | zero => omega
    | succ f =>
      obtain ⟨r, e⟩ := ih (lt hf (hi n (.tryc m none) h1)) hi h2 hv
      rw [Clone.visit, show h[n]? = _ from h1]
      exact ⟨_, by dsimp only; rw [e]; rfl⟩
  | alt i j ih jh =>
    intro f n h hf hi hr hv
    obtain ⟨m, k, h1, h2, h2'⟩ := hr
    cases f with
    | zero => omega
    | succ f =>
      obtain ⟨⟨h3, a⟩, e⟩ := ih (lt hf (hi n (.alt m k) h1).1) hi h2 hv.1
      obtain ⟨g1, g2, g3⟩ := visit_rep e hi h2
      obtain ⟨⟨h4, b⟩, e'⟩ := jh (lt hf (hi n (.alt m k) h1).2) g2 (g1.rep h2') hv.2
      rw [Clone.visit, show h[n]? = _ from h1]
      exact ⟨_, by dsimp only; rw [e]; show (Clone.visit h3 f k).bind _ = _; rw [e']; rfl⟩
  | cons i j ih jh =>
    intro f n h hf hi hr hv
    obtain ⟨m, k, h1, h2, h2'⟩ := hr
    cases f with
    | zero => omega
    | succ f =>
      obtain ⟨⟨h3, a⟩, e⟩ := ih (lt hf (hi n (.cons m k) h1).1) hi h2 hv.1
      obtain ⟨g1, g2, g3⟩ := visit_rep e hi h2
      obtain ⟨⟨h4, b⟩, e'⟩ := jh (lt hf (hi n (.cons m k) h1).2) g2 (g1.rep h2') hv.2
      rw [Clone.visit, show h[n]? = _ from h1]
      exact ⟨_, by dsimp only; rw [e]; show (Clone.visit h3 f k).bind _ = _; rw [e']; rfl⟩
  | rollback i j ih jh =>
    intro f n h hf hi hr hv
    obtain ⟨m, k, h1, h2, h2'⟩ := hr
    cases f with
    | zero => omega
    | succ f =>
      obtain ⟨⟨h3, a⟩, e⟩ := ih (lt hf (hi n (.tryc m (some k)) h1).1) hi h2 hv.1
      obtain ⟨g1, g2, g3⟩ := visit_rep e hi h2
      obtain ⟨⟨h4, b⟩, e'⟩ := jh (lt hf (hi n (.tryc m (some k)) h1).2) g2 (g1.rep h2') hv.2
      rw [Clone.visit, show h[n]? = _ from h1]
      exact ⟨_, by dsimp only; rw [e]; show (Clone.visit h3 f k).bind _ = _; rw [e']; rfl⟩
  | op o => exact fun _ _ hr => hr.elim
  | wild => exact fun _ _ hr => hr.elim

theorem sepList_some {T : Tables Name} {i j : Syntax.Item} {n m : Nat} {h : List Grammar.Item} (hi : Items h) (hn : Rep (h[·]?) T n i) (hm : Rep (h[·]?) T m j)
    (hv : Valid (Syntax.sep i j)) : ∃ r, Clone.sepList h n m = some r := by
  obtain ⟨⟨h1, a⟩, e1⟩ := visit_some (f := h.length + 1) (by have := hm.below.1.1; omega) hi hm hv.2.1
  obtain ⟨g1, i1, r1⟩ := visit_rep e1 hi hm
  obtain ⟨⟨h2, b⟩, e2⟩ := visit_some (f := h1.length + 1) (by have := (g1.rep hn).below.1.1; omega) i1 (g1.rep hn) hv.2.2
  exact ⟨_, by rw [Clone.sepList, Clone.clone, e1]; show (Clone.clone h1 n).bind _ = _; rw [Clone.clone, e2]; rfl⟩

end Verif.Front
