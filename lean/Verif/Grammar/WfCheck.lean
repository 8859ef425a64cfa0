import Verif.Grammar.Spec
import Mathlib.Tactic.Common

/-!
# A decision procedure for `Wf`, for concrete grammars
-/

namespace Verif.Grammar

def Item.parts : Item → List Nat
  | .plus i => [i]
  | .star i => [i]
  | .action (some i) => [i]
  | .alt l r => [l, r]
  | .cons l r => [l, r]
  | .evolve i _ => [i]
  | .tryc t none => [t]
  | .tryc t (some c) => [t, c]
  | .annot i => [i]
  | .cond i => [i]
  | .op o => [o.base]
  | _ => []

theorem part_iff {W : World} {n m : Nat} : Part W n m ↔ ∃ it, W.node n = some it ∧ m ∈ it.parts := by
  constructor
  · intro h
    cases h with
    | tryL h => rename_i r; exact ⟨_, h, by cases r <;> simp [Item.parts]⟩
    | _ h => exact ⟨_, h, by simp [Item.parts]⟩
  · rintro ⟨it, h, hm⟩
    cases it with
    | plus i => simp [Item.parts] at hm; subst hm; exact .plus h
    | star i => simp [Item.parts] at hm; subst hm; exact .star h
    | action i => cases i <;> simp [Item.parts] at hm; subst hm; exact .action h
    | alt l r => simp [Item.parts] at hm; rcases hm with rfl | rfl; exacts [.altL h, .altR h]
    | cons l r => simp [Item.parts] at hm; rcases hm with rfl | rfl; exacts [.consL h, .consR h]
    | evolve i s => simp [Item.parts] at hm; subst hm; exact .evolve h
    | tryc t c => cases c with
      | none => simp [Item.parts] at hm; subst hm; exact .tryL h
      | some c => simp [Item.parts] at hm; rcases hm with rfl | rfl; exacts [.tryL h, .tryR h]
    | annot i => simp [Item.parts] at hm; subst hm; exact .annot h
    | cond i => simp [Item.parts] at hm; subst hm; exact .cond h
    | op o => simp [Item.parts] at hm; subst hm; exact .opBase h
    | zero => simp [Item.parts] at hm
    | sym => simp [Item.parts] at hm
    | term => simp [Item.parts] at hm
    | nonterm s => simp [Item.parts] at hm
    | inlined s => simp [Item.parts] at hm

def bodyB (W : World) (top : Nat) : OpBody → Nat → Bool
  | .pre t, k => W.node k = some (.cons t top)
  | .post t, k => W.node k = some (.cons top t)
  | .bin t, k => W.node k = some (.cons top (k + 1)) && W.node (k + 1) = some (.cons t top)
  | .tern t u, k => W.node k = some (.cons top (k + 1)) && W.node (k + 1) = some (.cons t (k + 2)) &&
      W.node (k + 2) = some (.cons top (k + 3)) && W.node (k + 3) = some (.cons u top)
  | .paren t u, k => W.node k = some (.cons t (k + 1)) && W.node (k + 1) = some (.cons top u)

def chainB (W : World) (top base : Nat) : List OpBody → Nat → Bool
  | [], k => k = base
  | b :: bs, k => match W.node k with
    | some (.alt l r) => l = k + 1 && bodyB W top b (k + 1) && (bs = [] || r = k + 1 + b.size) && chainB W top base bs r
    | _ => false

def isTermB (W : World) (n : Nat) : Bool := W.node n = some .term
def isSymB (W : World) (n : Nat) : Bool := W.node n = some .sym
def isEvolveB (W : World) (n : Nat) : Bool := match W.node n with
  | some (.evolve _ _) => true
  | _ => false
def isNontermB (W : World) (n : Nat) : Bool := match W.node n with
  | some (.nonterm _) => true
  | _ => false

def itemB (W : World) (n : Nat) : Item → Bool
  | .plus i => match W.bnf n with
    | some c => match W.node c with
      | some (.cons i' a) => i' = i && W.node a = some (.alt W.zero c)
      | _ => false
    | none => false
  | .star i => match W.bnf n with
    | some a => match W.node a with
      | some (.alt z c) => z = W.zero && W.node c = some (.cons i a)
      | _ => false
    | none => false
  | .op o => (match W.bnf n with
    | some k => chainB W k o.base o.bodies k && (o.bodies = [] || W.parsed ≤ k)
    | none => false) && isNontermB W o.base && (o.pre ++ o.post ++ o.bin).all (isTermB W) &&
      (o.tern ++ o.paren).all fun p => isTermB W p.1 && isTermB W p.2
  | .zero => n = W.zero
  | .nonterm s => isSymB W s
  | .inlined (some s) => isSymB W s
  | .inlined none => false
  | .evolve _ s => isSymB W s
  | _ => true

def Item.isOp : Item → Bool
  | .op _ => true
  | _ => false

def Item.isMade : Item → Bool
  | .cons _ _ => true
  | .alt _ _ => true
  | _ => false

def nodeB (W : World) (n : Nat) (it : Item) : Bool :=
  itemB W n it && it.parts.all (fun m => (W.node m).isSome && !isEvolveB W m && (W.parsed ≤ n || m < n || it.isOp)) && (n < W.parsed || it.isMade)

def wfB (W : World) : Bool :=
  W.node W.zero = some .zero && W.terminals.all (isTermB W) && W.rules.all (fun r => r < W.parsed && isEvolveB W r) &&
    (List.range W.heap.length).all fun n => match W.node n with
      | some it => nodeB W n it
      | none => true

theorem chainB_iff {W : World} {top base : Nat} {bs : List OpBody} {k : Nat} (h : chainB W top base bs k = true) : ChainAt W top base bs k := by
  induction bs generalizing k with
  | nil => simpa [chainB, ChainAt] using h
  | cons b bs ih =>
    simp only [chainB] at h
    split at h
    · next l r e =>
      simp only [Bool.and_eq_true, Bool.or_eq_true, decide_eq_true_eq] at h
      obtain ⟨⟨⟨h1, h2⟩, h3⟩, h4⟩ := h
      subst h1
      refine ⟨r, e, ?_, fun hne => h3.resolve_left hne, ih h4⟩
      cases b <;> simp_all [bodyB, BodyAt]
    · cases h

theorem wf_of_wfB {W : World} (h : wfB W = true) : Wf W := by
  simp only [wfB, Bool.and_eq_true, decide_eq_true_eq, List.all_eq_true, List.mem_range] at h
  obtain ⟨⟨⟨hz, ht⟩, hr⟩, hn⟩ := h
  have node : ∀ n it, W.node n = some it → nodeB W n it = true := by
    intro n it e
    have hlt : n < W.heap.length := by
      rcases Nat.lt_or_ge n W.heap.length with h | h
      · exact h
      · simp [World.node, List.getElem?_eq_none h] at e
    have := hn n hlt
    rw [e] at this; exact this
  have item : ∀ n it, W.node n = some it → itemB W n it = true := by
    intro n it e
    have := node n it e
    simp only [nodeB, Bool.and_eq_true] at this
    exact this.1.1
  have part : ∀ n m, Part W n m → (W.node m).isSome = true ∧ isEvolveB W m = false ∧ (W.parsed ≤ n ∨ m < n ∨ ∃ o, W.node n = some (.op o)) := by
    intro n m hp
    obtain ⟨it, e, hm⟩ := part_iff.1 hp
    have := node n it e
    simp only [nodeB, Bool.and_eq_true, List.all_eq_true] at this
    have := this.1.2 m hm
    simp only [Bool.or_eq_true, Bool.not_eq_true', decide_eq_true_eq, Bool.and_eq_true] at this
    refine ⟨this.1.1, this.1.2, ?_⟩
    rcases this.2 with (h | h) | h
    · exact .inl h
    · exact .inr (.inl h)
    · cases it <;> simp [Item.isOp] at h
      exact .inr (.inr ⟨_, e⟩)
  refine ⟨⟨?_, ?_, ?_⟩, hz, ?_, ?_, ?_, ?_, ?_, ?_, ?_, ?_, ?_, ?_, ?_⟩
  · intro n i e
    have := item n _ e
    simp only [itemB] at this
    split at this
    · next c e1 =>
      split at this
      · next i' a e2 =>
        simp only [Bool.and_eq_true, decide_eq_true_eq] at this
        exact ⟨c, a, e1, by rw [e2, this.1], this.2⟩
      · cases this
    · cases this
  · intro n i e
    have := item n _ e
    simp only [itemB] at this
    split at this
    · next c e1 =>
      split at this
      · next z a e2 =>
        simp only [Bool.and_eq_true, decide_eq_true_eq] at this
        exact ⟨a, c, e1, this.2, by rw [e2, this.1]⟩
      · cases this
    · cases this
  · intro n o e
    have := item n _ e
    simp only [itemB, Bool.and_eq_true] at this
    have := this.1.1.1
    split at this
    · next k e1 =>
      simp only [Bool.and_eq_true, Bool.or_eq_true, decide_eq_true_eq] at this
      exact ⟨k, e1, chainB_iff this.1, fun hne => this.2.resolve_left hne⟩
    · cases this
  · intro n e
    simpa [itemB] using item n _ e
  · intro t h
    simpa [isTermB] using ht t h
  · intro r h
    have := hr r h
    simp only [isEvolveB] at this
    refine ⟨this.1, ?_⟩
    have := this.2
    split at this
    · exact ⟨_, _, ‹_›⟩
    · cases this
  · intro n m hp
    exact Option.isSome_iff_exists.1 (part n m hp).1
  · intro n m i s hp e
    have := (part n m hp).2.1
    simp [isEvolveB, e] at this
  · intro n m hlt hp
    rcases (part n m hp).2.2 with h | h | h
    · omega
    · exact .inl h
    · exact .inr h
  · intro n it hge e
    have := node n it e
    simp only [nodeB, Bool.and_eq_true, Bool.or_eq_true, decide_eq_true_eq] at this
    rcases this.2 with h | h
    · omega
    · cases it <;> simp [Item.isMade] at h
      · exact .inr ⟨_, _, rfl⟩
      · exact .inl ⟨_, _, rfl⟩
  · rintro n s (e | e | ⟨i, e⟩)
    · simpa [itemB, isSymB] using item n _ e
    · simpa [itemB, isSymB] using item n _ e
    · simpa [itemB, isSymB] using item n _ e
  · intro n e
    have := item n _ e
    simp [itemB] at this
  · intro n o e
    have := item n _ e
    simp only [itemB, Bool.and_eq_true] at this
    have := this.1.1.2
    simp only [isNontermB] at this
    split at this
    · exact ⟨_, ‹_›⟩
    · cases this
  · intro n o e
    have := item n _ e
    simp only [itemB, Bool.and_eq_true, List.all_eq_true] at this
    refine ⟨fun t ht => by simpa [isTermB] using this.1.2 t ht, fun p hp => ?_⟩
    simpa [isTermB] using this.2 p hp

end Verif.Grammar
