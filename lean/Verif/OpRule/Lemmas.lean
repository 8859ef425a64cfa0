import Verif.OpRule.Spec
import Mathlib.Data.List.Induction

/-!
# Lemmas: expressions have one value
-/

namespace Verif.OpRule

/-- A descent parser that calculates values. -/
def run (ρ : Nat → Nat) : Nat → Level → List T → Option (Nat × List T)
  | 0, _, _ => none
  | f + 1, .prim, ts => match ts with
    | .atom n :: r => some (ρ n, r)
    | .num n :: r => some (n, r)
    | .lp :: r => match run ρ f .expr r with
      | some (v, .rp :: r) => some (v, r)
      | _ => none
    | _ => none
  | f + 1, .eq, ts => match run ρ f .prim ts with
    | some (v, .eq :: r) => (run ρ f .prim r).map fun p => (if v = p.1 then 1 else 0, p.2)
    | x => x
  | f + 1, .land, ts => match run ρ f .eq ts with
    | some (v, .and :: r) => (run ρ f .land r).map fun p => (if v ≠ 0 ∧ p.1 ≠ 0 then 1 else 0, p.2)
    | x => x
  | f + 1, .lor, ts => match run ρ f .land ts with
    | some (v, .or :: r) => (run ρ f .lor r).map fun p => (if v ≠ 0 ∨ p.1 ≠ 0 then 1 else 0, p.2)
    | x => x
  | f + 1, .cond, ts => match run ρ f .lor ts with
    | some (v, .quest :: r) => match run ρ f .expr r with
      | some (w, .colon :: r) => (run ρ f .cond r).map fun p => (if v ≠ 0 then w else p.1, p.2)
      | _ => none
    | x => x
  | f + 1, .expr, ts => match run ρ f .cond ts with
    | some (_, .comma :: r) => (run ρ f .expr r).map fun p => (p.1, p.2)
    | x => x

/-- What may not follow, as it would go on. -/
def goOn : Level → List T
  | .prim => []
  | .eq => [.eq]
  | .land => [.eq, .and]
  | .lor => [.eq, .and, .or]
  | .cond => [.eq, .and, .or, .quest]
  | .expr => [.eq, .and, .or, .quest, .comma]

def Stop (l : Level) (r : List T) : Prop := ∀ t ∈ goOn l, r.head? ≠ some t

theorem run_complete {ρ : Nat → Nat} {l : Level} {ts : List T} {v : Nat} (h : E ρ l ts v) :
    ∀ r, Stop l r → ∃ f0, ∀ f, f0 ≤ f → run ρ f l (ts ++ r) = some (v, r) := by
  induction h with
  | atom => exact fun r _ => ⟨1, fun f hf => by obtain ⟨f, rfl⟩ := Nat.exists_eq_add_of_le' hf; rfl⟩
  | num => exact fun r _ => ⟨1, fun f hf => by obtain ⟨f, rfl⟩ := Nat.exists_eq_add_of_le' hf; rfl⟩
  | paren _ ih =>
    intro r _
    obtain ⟨f0, h⟩ := ih (.rp :: r) (by intro t ht; simp [goOn] at ht; rcases ht with rfl | rfl | rfl | rfl | rfl <;> simp)
    refine ⟨f0 + 1, fun f hf => ?_⟩
    obtain ⟨f, rfl⟩ : ∃ g, f = g + 1 := ⟨f - 1, by omega⟩
    simp [run, h f (by omega)]
  | eq1 _ ih =>
    intro r hr
    obtain ⟨f0, h⟩ := ih r (by simp [Stop, goOn])
    refine ⟨f0 + 1, fun f hf => ?_⟩
    obtain ⟨f, rfl⟩ : ∃ g, f = g + 1 := ⟨f - 1, by omega⟩
    rw [run, h f (by omega)]
    cases r with
    | nil => rfl
    | cons t r => cases t <;> first | rfl | exact absurd rfl (hr _ (by simp [goOn]))
  | eq _ _ ih1 ih2 =>
    rename_i us v w _ _
    intro r hr
    obtain ⟨f1, h1⟩ := ih1 (.eq :: (us ++ r)) (by simp [Stop, goOn])
    obtain ⟨f2, h2⟩ := ih2 r (by simp [Stop, goOn])
    refine ⟨f1 + f2 + 1, fun f hf => ?_⟩
    obtain ⟨f, rfl⟩ : ∃ g, f = g + 1 := ⟨f - 1, by omega⟩
    rw [List.append_assoc, List.cons_append, run, h1 f (by omega)]
    simp [h2 f (by omega)]
  | land1 _ ih =>
    intro r hr
    obtain ⟨f0, h⟩ := ih r fun t ht => hr t (by simp [goOn] at ht ⊢; simp [ht])
    refine ⟨f0 + 1, fun f hf => ?_⟩
    obtain ⟨f, rfl⟩ : ∃ g, f = g + 1 := ⟨f - 1, by omega⟩
    rw [run, h f (by omega)]
    cases r with
    | nil => rfl
    | cons t r => cases t <;> first | rfl | exact absurd rfl (hr _ (by simp [goOn]))
  | land _ _ ih1 ih2 =>
    rename_i us v w _ _
    intro r hr
    obtain ⟨f1, h1⟩ := ih1 (.and :: (us ++ r)) (by simp [Stop, goOn])
    obtain ⟨f2, h2⟩ := ih2 r hr
    refine ⟨f1 + f2 + 1, fun f hf => ?_⟩
    obtain ⟨f, rfl⟩ : ∃ g, f = g + 1 := ⟨f - 1, by omega⟩
    rw [List.append_assoc, List.cons_append, run, h1 f (by omega)]
    simp [h2 f (by omega)]
  | lor1 _ ih =>
    intro r hr
    obtain ⟨f0, h⟩ := ih r fun t ht => hr t (by simp [goOn] at ht ⊢; rcases ht with rfl | rfl <;> simp)
    refine ⟨f0 + 1, fun f hf => ?_⟩
    obtain ⟨f, rfl⟩ : ∃ g, f = g + 1 := ⟨f - 1, by omega⟩
    rw [run, h f (by omega)]
    cases r with
    | nil => rfl
    | cons t r => cases t <;> first | rfl | exact absurd rfl (hr _ (by simp [goOn]))
  | lor _ _ ih1 ih2 =>
    rename_i us v w _ _
    intro r hr
    obtain ⟨f1, h1⟩ := ih1 (.or :: (us ++ r)) (by simp [Stop, goOn])
    obtain ⟨f2, h2⟩ := ih2 r hr
    refine ⟨f1 + f2 + 1, fun f hf => ?_⟩
    obtain ⟨f, rfl⟩ : ∃ g, f = g + 1 := ⟨f - 1, by omega⟩
    rw [List.append_assoc, List.cons_append, run, h1 f (by omega)]
    simp [h2 f (by omega)]
  | cond1 _ ih =>
    intro r hr
    obtain ⟨f0, h⟩ := ih r fun t ht => hr t (by simp [goOn] at ht ⊢; rcases ht with rfl | rfl | rfl <;> simp)
    refine ⟨f0 + 1, fun f hf => ?_⟩
    obtain ⟨f, rfl⟩ : ∃ g, f = g + 1 := ⟨f - 1, by omega⟩
    rw [run, h f (by omega)]
    cases r with
    | nil => rfl
    | cons t r => cases t <;> first | rfl | exact absurd rfl (hr _ (by simp [goOn]))
  | cond _ _ _ ih1 ih2 ih3 =>
    rename_i us vs v w x _ _ _
    intro r hr
    obtain ⟨f1, h1⟩ := ih1 (.quest :: (us ++ .colon :: (vs ++ r))) (by simp [Stop, goOn])
    obtain ⟨f2, h2⟩ := ih2 (.colon :: (vs ++ r)) (by simp [Stop, goOn])
    obtain ⟨f3, h3⟩ := ih3 r hr
    refine ⟨f1 + f2 + f3 + 1, fun f hf => ?_⟩
    obtain ⟨f, rfl⟩ : ∃ g, f = g + 1 := ⟨f - 1, by omega⟩
    rw [List.append_assoc, List.cons_append, List.append_assoc, List.cons_append, run, h1 f (by omega)]
    simp [h2 f (by omega), h3 f (by omega)]
  | expr1 _ ih =>
    intro r hr
    obtain ⟨f0, h⟩ := ih r fun t ht => hr t (by simp [goOn] at ht ⊢; rcases ht with rfl | rfl | rfl | rfl <;> simp)
    refine ⟨f0 + 1, fun f hf => ?_⟩
    obtain ⟨f, rfl⟩ : ∃ g, f = g + 1 := ⟨f - 1, by omega⟩
    rw [run, h f (by omega)]
    cases r with
    | nil => rfl
    | cons t r => cases t <;> first | rfl | exact absurd rfl (hr _ (by simp [goOn]))
  | comma _ _ ih1 ih2 =>
    rename_i us v w _ _
    intro r hr
    obtain ⟨f1, h1⟩ := ih1 (.comma :: (us ++ r)) (by simp [Stop, goOn])
    obtain ⟨f2, h2⟩ := ih2 r hr
    refine ⟨f1 + f2 + 1, fun f hf => ?_⟩
    obtain ⟨f, rfl⟩ : ∃ g, f = g + 1 := ⟨f - 1, by omega⟩
    rw [List.append_assoc, List.cons_append, run, h1 f (by omega)]
    simp [h2 f (by omega)]

/-- An expression has one value. -/
theorem E.unique {ρ : Nat → Nat} {l : Level} {ts : List T} {v w : Nat} (h : E ρ l ts v) (h' : E ρ l ts w) : v = w := by
  obtain ⟨f, h1⟩ := run_complete h [] (by simp [Stop])
  obtain ⟨g, h2⟩ := run_complete h' [] (by simp [Stop])
  have := (h1 (f + g) (by omega)).symm.trans (h2 (f + g) (by omega))
  simpa using this

theorem E.expr {ρ : Nat → Nat} {ts : List T} {v : Nat} (h : E ρ .land ts v) : E ρ .expr ts v := .expr1 (.cond1 (.lor1 h))

/-- The tests for tokens. -/
theorem tests_E (ρ : Nat → Nat) : ∀ (as : List Nat), as ≠ [] → ∃ v, E ρ .lor (tests as) v ∧ (v ≠ 0 ↔ ρ 0 ∈ as)
  | [a], _ => ⟨_, .lor1 (.land1 (.eq (ts := [.atom 0]) (us := [.num a]) .atom .num)), by simp⟩
  | a :: b :: as, _ => by
    obtain ⟨v, h1, h2⟩ := tests_E ρ (b :: as) (by simp)
    refine ⟨_, .lor (ts := [.atom 0, .eq, .num a]) (.land1 (.eq (ts := [.atom 0]) (us := [.num a]) .atom .num)) h1, ?_⟩
    rw [List.mem_cons, ← h2]
    by_cases h : ρ 0 = a <;> by_cases hv : v = 0 <;> simp [h, hv]

theorem E.prim_expr {ρ : Nat → Nat} {ts : List T} {v : Nat} (h : E ρ .prim ts v) : E ρ .eq ts v := .eq1 h

/-! ### Numbers -/

theorem value_snoc (b : Nat) (n : List Nat) (c : Nat) : value b (n ++ [c]) = b * value b n + (c - 48) := by simp [value]

theorem value_le (n : List Nat) : value 8 n ≤ value 10 n := by
  induction n using List.reverseRecOn with
  | nil => simp [value]
  | append_singleton n c ih => rw [value_snoc, value_snoc]; omega

theorem value_pos {b c : Nat} (hb : 0 < b) (h : 48 < c) (n : List Nat) : 0 < value b (c :: n) := by
  induction n using List.reverseRecOn with
  | nil => simp [value]; omega
  | append_singleton n d ih =>
    rw [← List.cons_append, value_snoc]
    exact Nat.lt_of_lt_of_le (Nat.mul_pos hb ih) (Nat.le_add_right _ _)

/-! ### Texts -/

open Verif.Top (Text txt)

theorem takeWhile_nz : ∀ {c : Text}, 0 ∉ c → c.takeWhile (· ≠ 0) = c
  | [], _ => rfl
  | x :: c, h => by
    rw [List.takeWhile_cons, if_pos (by simp; exact fun h0 => h (h0 ▸ List.mem_cons_self)), takeWhile_nz fun h0 => h (List.mem_cons_of_mem _ h0)]

theorem choice_eq {c t : Text} (hc : 0 ∉ c) (ht : 0 ∉ t) (hl : t.length = 5) : choice c t = some (40 :: c ++ t) := by
  have e1 := takeWhile_nz hc
  have e2 := takeWhile_nz ht
  have l1 : strlen c = c.length := by rw [strlen, e1]
  have l2 : strlen t = 5 := by rw [strlen, e2, hl]
  have s1 : store (List.replicate (strlen c + 7) 0) 0 40 = some (40 :: List.replicate (c.length + 6) 0) := by
    rw [store, if_pos (by simp), l1]; rfl
  have s2 : strcpy (40 :: List.replicate (c.length + 6) 0) 1 c = some (40 :: c ++ 0 :: List.replicate 5 0) := by
    rw [strcpy, if_pos (by simp [l1]; omega), e1, l1]
    have : (40 :: List.replicate (c.length + 6) 0).drop (1 + c.length + 1) = List.replicate 5 0 := by
      rw [show 1 + c.length + 1 = (c.length + 1) + 1 by omega, List.drop_succ_cons, List.drop_replicate]
      congr 1
      omega
    rw [this]
    rfl
  have s3 : strcpy (40 :: c ++ 0 :: List.replicate 5 0) (strlen c + 6 - 6 + 1) t = some (40 :: c ++ t ++ [0]) := by
    rw [strcpy, if_pos (by simp [l1, l2]), e2, l1, l2]
    have h1 : (40 :: c ++ 0 :: List.replicate 5 0).take (c.length + 6 - 6 + 1) = 40 :: c := by
      rw [show c.length + 6 - 6 + 1 = (40 :: c).length by simp, List.take_left]
    have h2 : (40 :: c ++ 0 :: List.replicate 5 0).drop (c.length + 6 - 6 + 1 + 5 + 1) = [] := by
      rw [List.drop_eq_nil_iff]; simp
    rw [h1, h2]
  have s4 : cstr (40 :: c ++ t ++ [0]) = some (40 :: c ++ t) := by
    rw [cstr, if_pos (by simp)]
    have hn : 0 ∉ 40 :: c ++ t := by simp [hc, ht]
    rw [List.takeWhile_append_of_pos, List.takeWhile_cons]
    · simp
    · intro x hx
      simp only [ne_eq, decide_not, Bool.not_eq_eq_eq_not, Bool.not_true, decide_eq_false_iff_not]
      exact fun h0 => hn (h0 ▸ hx)
  rw [choice, s1, Option.bind_some, s2, Option.bind_some, s3, Option.bind_some, s4]

end Verif.OpRule
