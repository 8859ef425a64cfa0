import Verif.Check.Model
import Verif.Check.Spec
import Verif.Grammar.WfCheck
import Verif.Grammar.BnfProps

/-! # What the checkers visit -/

namespace Verif.Check

open Verif.Grammar

variable {W : World}

theorem inside_below {n m : Nat} (h : Inside W n m) : Below W n m := by
  induction h with
  | refl => exact .refl
  | part _ _ hp ih => exact .part ih hp

theorem Inside.trans {a b c : Nat} (h1 : Inside W a b) (h2 : Inside W b c) : Inside W a c := by
  induction h2 with
  | refl => exact h1
  | part _ ho hp ih => exact .part ih ho hp

theorem inside_cases {n m : Nat} (h : Inside W n m) : m = n ∨ ∃ k, (∀ o, W.node n ≠ some (.op o)) ∧ Part W n k ∧ Inside W k m := by
  induction h with
  | refl => exact .inl rfl
  | part _ ho hp ih =>
    rcases ih with rfl | ⟨k, h1, h2, h3⟩
    · exact .inr ⟨_, ho, hp, .refl⟩
    · exact .inr ⟨k, h1, h2, .part h3 ho hp⟩

/-- Only the base of an operator expression is not inside. -/
theorem below_inside (hw : Wf W) {n m : Nat} (h : Below W n m) (hm : ∀ s, W.node m ≠ some (.nonterm s)) : Inside W n m := by
  have key : Inside W n m ∨ ∃ s, W.node m = some (.nonterm s) := by
    clear hm
    induction h with
    | refl => exact .inl .refl
    | part _ hp ih =>
      rename_i m k _
      rcases ih with h | ⟨s, h⟩
      · by_cases ho : ∃ o, W.node m = some (.op o)
        · obtain ⟨o, ho⟩ := ho
          obtain ⟨it, h', hk⟩ := part_iff.mp hp
          rw [ho] at h'; cases h'
          simp only [Item.parts, List.mem_singleton] at hk
          subst hk
          exact .inr (hw.opBase _ o ho)
        · exact .inl (.part h (fun o h => ho ⟨o, h⟩) hp)
      · obtain ⟨it, h', hk⟩ := part_iff.mp hp
        rw [h] at h'; cases h'
        simp [Item.parts] at hk
  rcases key with h | ⟨s, h⟩
  · exact h
  · exact absurd h (hm s)

theorem walk_total (hw : Wf W) : ∀ n, n < W.parsed → (∃ it, W.node n = some it) → ∀ f, n + 1 ≤ f → ∃ l, walk W f n = some l := by
  intro n
  induction n using Nat.strongRecOn with
  | ind n ih =>
  rintro hn ⟨it, hit⟩ f hf
  obtain ⟨f, rfl⟩ := Nat.exists_eq_add_of_le' (show 1 ≤ f by omega)
  have one : ∀ i, Part W n i → (∀ o, it ≠ .op o) → ∃ l, walk W f i = some l := by
    intro i hi ho
    have hlt : i < n := by
      rcases hw.order n i hn hi with h | ⟨o, h⟩
      · exact h
      · rw [hit] at h; cases h; exact absurd rfl (ho o)
    exact ih i hlt (by omega) (hw.valid n i hi) f (by omega)
  have map : ∀ i (g : List Nat → List Nat), Part W n i → (∀ o, it ≠ .op o) → ∃ l, (walk W f i).map g = some l := by
    intro i g hi ho
    obtain ⟨l, h⟩ := one i hi ho
    exact ⟨g l, by rw [h]; rfl⟩
  have two : ∀ l r, Part W n l → Part W n r → (∀ o, it ≠ .op o) → ∃ x, ((walk W f l).bind fun a => (walk W f r).map fun b => a ++ b ++ [n]) = some x := by
    intro l r hl hr ho
    obtain ⟨a, h1⟩ := one l hl ho
    obtain ⟨b, h2⟩ := one r hr ho
    exact ⟨a ++ b ++ [n], by rw [h1, h2]; rfl⟩
  unfold walk
  rw [hit]
  cases it with
  | zero => exact ⟨_, rfl⟩
  | sym => exact ⟨_, rfl⟩
  | term => exact ⟨_, rfl⟩
  | nonterm s => exact ⟨_, rfl⟩
  | op o => exact ⟨_, rfl⟩
  | inlined s => exact ⟨_, rfl⟩
  | plus i => exact map i _ (.plus hit) (by simp)
  | star i => exact map i _ (.star hit) (by simp)
  | cond i => exact map i _ (.cond hit) (by simp)
  | annot i => exact map i _ (.annot hit) (by simp)
  | evolve i s => exact map i _ (.evolve hit) (by simp)
  | action i =>
    cases i with
    | none => exact ⟨_, rfl⟩
    | some i => exact map i _ (.action hit) (by simp)
  | alt l r => exact two l r (.altL hit) (.altR hit) (by simp)
  | cons l r => exact two l r (.consL hit) (.consR hit) (by simp)
  | tryc l r =>
    cases r with
    | none => exact map l _ (.tryL hit) (by simp)
    | some r => exact two l r (.tryL hit) (.tryR hit) (by simp)

/-- The symbol of a node that a checker visits with the node. -/
def SymOf (W : World) (k s : Nat) : Prop := W.node k = some (.nonterm s) ∨ ∃ i, W.node k = some (.evolve i s)

theorem walk_mem : ∀ {f n : Nat} {l : List Nat}, walk W f n = some l → ∀ m, m ∈ l ↔ Inside W n m ∨ ∃ k, Inside W n k ∧ SymOf W k m
  | 0, _, _, h => by cases h
  | f + 1, n, l, h => by
    intro m
    have leaf : ∀ it, W.node n = some it → it.parts = [] ∨ (∃ o, it = .op o) → (∀ s, it ≠ .nonterm s) → (∀ i s, it ≠ .evolve i s) → some [n] = some l →
        (m ∈ l ↔ Inside W n m ∨ ∃ k, Inside W n k ∧ SymOf W k m) := by
      intro it hn hp h1 h2 he
      cases he
      have only : ∀ m, Inside W n m → m = n := by
        intro m hm
        rcases inside_cases hm with h | ⟨k, ho, hk, -⟩
        · exact h
        · exfalso
          rcases hp with hp | ⟨o, rfl⟩
          · obtain ⟨it', h', hk⟩ := part_iff.mp hk
            rw [hn] at h'; cases h'
            rw [hp] at hk; cases hk
          · exact ho o hn
      rw [List.mem_singleton]
      constructor
      · rintro rfl; exact .inl .refl
      · rintro (h | ⟨k, hk, hs⟩)
        · exact only m h
        · rw [only k hk] at hs
          rcases hs with hs | ⟨i, hs⟩
          · rw [hn] at hs; cases hs; exact absurd rfl (h1 _)
          · rw [hn] at hs; cases hs; exact absurd rfl (h2 _ _)
    have node : ∀ it, W.node n = some it → (∀ o, it ≠ .op o) → (∀ s, it ≠ .nonterm s) → ∀ (ls : List (List Nat)) (e : List Nat),
        (∀ s, s ∈ e ↔ ∃ i, it = .evolve i s) → l = ls.flatten ++ e ++ [n] → List.Forall₂ (fun i x => walk W f i = some x) it.parts ls →
        (m ∈ l ↔ Inside W n m ∨ ∃ k, Inside W n k ∧ SymOf W k m) := by
      intro it hn ho hnt ls e he hl hw
      have ho' : ∀ o, W.node n ≠ some (.op o) := fun o h => by rw [hn] at h; cases h; exact ho o rfl
      have hmem : m ∈ ls.flatten ↔ ∃ i, Part W n i ∧ (Inside W i m ∨ ∃ k, Inside W i k ∧ SymOf W k m) := by
        have : ∀ is (ls : List (List Nat)), List.Forall₂ (fun i x => walk W f i = some x) is ls →
            (m ∈ ls.flatten ↔ ∃ i ∈ is, (Inside W i m ∨ ∃ k, Inside W i k ∧ SymOf W k m)) := by
          intro is ls h
          induction h with
          | nil => simp
          | cons h1 _ ih => simp only [List.flatten_cons, List.mem_append, ih, walk_mem h1, List.mem_cons, exists_eq_or_imp]
        rw [this _ _ hw]
        constructor
        · rintro ⟨i, hi, h⟩; exact ⟨i, part_iff.mpr ⟨it, hn, hi⟩, h⟩
        · rintro ⟨i, hi, h⟩
          obtain ⟨it', h', hk⟩ := part_iff.mp hi
          rw [hn] at h'; cases h'
          exact ⟨i, hk, h⟩
      rw [hl]
      simp only [List.mem_append, List.mem_singleton, hmem, he]
      constructor
      · rintro ((⟨i, hi, h | ⟨k, hk, hs⟩⟩ | ⟨i, rfl⟩) | rfl)
        · exact .inl (Inside.trans (.part .refl ho' hi) h)
        · exact .inr ⟨k, Inside.trans (.part .refl ho' hi) hk, hs⟩
        · exact .inr ⟨n, .refl, .inr ⟨i, hn⟩⟩
        · exact .inl .refl
      · rintro (h | ⟨k, hk, hs⟩)
        · rcases inside_cases h with rfl | ⟨i, -, h1, h2⟩
          · exact .inr rfl
          · exact .inl (.inl ⟨i, h1, .inl h2⟩)
        · rcases inside_cases hk with rfl | ⟨i, -, h1, h2⟩
          · rcases hs with hs | ⟨i, hs⟩
            · rw [hn] at hs; cases hs; exact absurd rfl (hnt _)
            · rw [hn] at hs; cases hs; exact .inl (.inr ⟨i, rfl⟩)
          · exact .inl (.inl ⟨i, h1, .inr ⟨k, h2, hs⟩⟩)
    have one : ∀ it i, W.node n = some it → it.parts = [i] → (∀ o, it ≠ .op o) → (∀ s, it ≠ .nonterm s) → (∀ i s, it ≠ .evolve i s) →
        (walk W f i).map (· ++ [n]) = some l → (m ∈ l ↔ Inside W n m ∨ ∃ k, Inside W n k ∧ SymOf W k m) := by
      intro it i hn hp h1 h2 h3 h
      obtain ⟨a, ha, rfl⟩ := Option.map_eq_some_iff.1 h
      exact node it hn h1 h2 [a] [] (by simp [h3]) (by simp) (by rw [hp]; exact .cons ha .nil)
    have two : ∀ it a b, W.node n = some it → it.parts = [a, b] → (∀ o, it ≠ .op o) → (∀ s, it ≠ .nonterm s) → (∀ i s, it ≠ .evolve i s) →
        ((walk W f a).bind fun a => (walk W f b).map fun b => a ++ b ++ [n]) = some l → (m ∈ l ↔ Inside W n m ∨ ∃ k, Inside W n k ∧ SymOf W k m) := by
      intro it a b hn hp h1 h2 h3 h
      obtain ⟨x, hx, h⟩ := Option.bind_eq_some_iff.1 h
      obtain ⟨y, hy, rfl⟩ := Option.map_eq_some_iff.1 h
      exact node it hn h1 h2 [x, y] [] (by simp [h3]) (by simp) (by rw [hp]; exact .cons hx (.cons hy .nil))
    unfold walk at h
    split at h
    · cases h
    · next hn => exact leaf _ hn (.inl rfl) (by simp) (by simp) h
    · next hn => exact leaf _ hn (.inl rfl) (by simp) (by simp) h
    · next hn => exact leaf _ hn (.inl rfl) (by simp) (by simp) h
    · next s hn =>
      cases h
      have only : ∀ m, Inside W n m → m = n := by
        intro m hm
        rcases inside_cases hm with h | ⟨k, ho, hk, -⟩
        · exact h
        · obtain ⟨it', h', hk⟩ := part_iff.mp hk
          rw [hn] at h'; cases h'
          cases hk
      simp only [List.mem_cons, List.not_mem_nil, or_false]
      constructor
      · rintro (rfl | rfl)
        · exact .inr ⟨n, .refl, .inl hn⟩
        · exact .inl .refl
      · rintro (h | ⟨k, hk, hs⟩)
        · exact .inr (only m h)
        · rw [only k hk] at hs
          rcases hs with hs | ⟨i, hs⟩
          · rw [hn] at hs; cases hs; exact .inl rfl
          · rw [hn] at hs; cases hs
    · next hn => exact leaf _ hn (.inr ⟨_, rfl⟩) (by simp) (by simp) h
    · next hn => exact leaf _ hn (.inl rfl) (by simp) (by simp) h
    · next hn => exact one _ _ hn rfl (by simp) (by simp) (by simp) h
    · next hn => exact one _ _ hn rfl (by simp) (by simp) (by simp) h
    · next hn => exact leaf _ hn (.inl rfl) (by simp) (by simp) h
    · next hn => exact one _ _ hn rfl (by simp) (by simp) (by simp) h
    · next hn => exact one _ _ hn rfl (by simp) (by simp) (by simp) h
    · next hn => exact one _ _ hn rfl (by simp) (by simp) (by simp) h
    · next i s hn =>
      obtain ⟨a, ha, rfl⟩ := Option.map_eq_some_iff.1 h
      exact node _ hn (by simp) (by simp) [a] [s] (by intro s'; simp [eq_comm]) (by simp) (.cons ha .nil)
    · next hn => exact one _ _ hn rfl (by simp) (by simp) (by simp) h
    · next hn => exact two _ _ _ hn rfl (by simp) (by simp) (by simp) h
    · next hn => exact two _ _ _ hn rfl (by simp) (by simp) (by simp) h
    · next hn => exact two _ _ _ hn rfl (by simp) (by simp) (by simp) h

theorem inside_lt (hw : Wf W) {n m : Nat} (hn : n < W.parsed) (h : Inside W n m) : m < W.parsed := by
  induction h with
  | refl => exact hn
  | part _ ho hp ih =>
    rcases hw.order _ _ ih hp with h | ⟨o, h⟩
    · omega
    · exact absurd h (ho o)

end Verif.Check
