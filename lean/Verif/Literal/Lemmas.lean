import Verif.Literal.Spec

/-! # Lemmas for literals -/

namespace Verif.Literal

open Verif.Top (Text txt)
open Spec

theorem prefix_unique {p : Nat → Bool} : ∀ {a b s t : Text}, a ++ s = b ++ t → (∀ d ∈ a, p d = true) → (∀ d ∈ b, p d = true) → (∀ c, s.head? = some c → p c = false) → (∀ c, t.head? = some c → p c = false) → a = b ∧ s = t
  | [], [], _, _, e, _, _, _, _ => ⟨rfl, e⟩
  | [], y :: b, s, t, e, _, hb, hs, _ => by
    simp only [List.nil_append, List.cons_append] at e
    have h1 := hs y (by rw [e]; rfl)
    rw [hb y (.head _)] at h1
    cases h1
  | x :: a, [], s, t, e, ha, _, _, ht => by
    simp only [List.nil_append, List.cons_append] at e
    have h1 := ht x (by rw [← e]; rfl)
    rw [ha x (.head _)] at h1
    cases h1
  | x :: a, y :: b, s, t, e, ha, hb, hs, ht => by
    simp only [List.cons_append, List.cons.injEq] at e
    obtain ⟨rfl, e2⟩ := prefix_unique e.2 (fun d h => ha d (.tail _ h)) (fun d h => hb d (.tail _ h)) hs ht
    exact ⟨by rw [e.1], e2⟩

/-- Octal digits: three, or as many as there are. -/
theorem octal_unique {a b s t : Text} (e : a ++ s = b ++ t) (ha : ∀ d ∈ a, octal d = true) (hb : ∀ d ∈ b, octal d = true) (la : a.length ≤ 3) (lb : b.length ≤ 3)
    (hs : a.length = 3 ∨ ∀ c, s.head? = some c → octal c = false) (ht : b.length = 3 ∨ ∀ c, t.head? = some c → octal c = false) : a = b ∧ s = t := by
  have key : ∀ {a b s t : Text}, a ++ s = b ++ t → (∀ d ∈ b, octal d = true) → a.length ≤ b.length → b.length ≤ 3 → (a.length = 3 ∨ ∀ c, s.head? = some c → octal c = false) → a = b ∧ s = t := by
    intro a b s t e hb l lb hs
    rcases List.append_eq_append_iff.1 e with ⟨z, e1, e2⟩ | ⟨z, e1, e2⟩
    · cases z with
      | nil => simp at e1 e2; exact ⟨e1.symm, e2⟩
      | cons c z =>
        exfalso
        have hl : b.length = a.length + (z.length + 1) := by rw [e1]; simp
        rcases hs with h | h
        · omega
        · have := h c (by rw [e2]; rfl)
          rw [hb c (by rw [e1]; simp)] at this
          cases this
    · have : z = [] := by
        have := congrArg List.length e1
        simp at this
        exact List.length_eq_zero_iff.1 (by omega)
      subst this
      simp at e1 e2
      exact ⟨e1, e2.symm⟩
  rcases Nat.le_total a.length b.length with l | l
  · exact key e hb l lb hs
  · obtain ⟨h1, h2⟩ := key e.symm ha l la ht
    exact ⟨h1.symm, h2.symm⟩

theorem not_simple_of_octal {e x : Nat} (h : (e, x) ∈ simples) : octal e = false ∧ e ≠ 120 ∧ e ≠ 117 ∧ e ≠ 85 := by
  have : ∀ q ∈ simples, octal q.1 = false ∧ q.1 ≠ 120 ∧ q.1 ≠ 117 ∧ q.1 ≠ 85 := by decide
  exact this _ h

theorem simple_unique {e x y : Nat} (h : (e, x) ∈ simples) (h' : (e, y) ∈ simples) : x = y := by
  have : ∀ p ∈ simples, ∀ q ∈ simples, p.1 = q.1 → p.2 = q.2 := by decide
  exact this _ h _ h' rfl

theorem octal_head {t ds s : Text} (h : t = ds ++ s) (h1 : ds ≠ []) (h2 : ∀ d ∈ ds, octal d = true) : ∃ c u, t = c :: u ∧ octal c = true := by
  cases ds with
  | nil => exact absurd rfl h1
  | cons c ds => exact ⟨c, ds ++ s, h, h2 c (.head _)⟩

/-- A literal has one value. -/
theorem Spec.Lit.unique {s v r : Text} (h : Lit s v r) : ∀ {v' r'}, Lit s v' r' → v' = v ∧ r' = r := by
  induction h with
  | close =>
    intro v' r' h'
    cases h' with
    | close => exact ⟨rfl, rfl⟩
    | plain h1 => exact absurd rfl h1
  | plain h1 h2 h3 h4 _ ih =>
    intro v' r' h'
    cases h' with
    | close => exact absurd rfl h1
    | plain _ _ _ _ k => obtain ⟨rfl, rfl⟩ := ih k; exact ⟨rfl, rfl⟩
    | simple => exact absurd rfl h2
    | octal => exact absurd rfl h2
    | hex => exact absurd rfl h2
    | short => exact absurd rfl h2
    | long => exact absurd rfl h2
  | simple h1 _ ih =>
    intro v' r' h'
    obtain ⟨n1, n2, n3, n4⟩ := not_simple_of_octal h1
    cases h' with
    | plain _ k => exact absurd rfl k
    | simple k1 k => obtain ⟨rfl, rfl⟩ := ih k; exact ⟨by rw [simple_unique h1 k1], rfl⟩
    | octal k1 k2 _ k3 =>
      obtain ⟨c, u, e, hc⟩ := octal_head k1 k2 k3
      cases e
      rw [hc] at n1
      cases n1
    | hex => exact absurd rfl n2
    | short => exact absurd rfl n3
    | long => exact absurd rfl n4
  | octal h1 h2 h3 h4 h5 _ ih =>
    intro v' r' h'
    obtain ⟨c, u, e, hc⟩ := octal_head h1 h2 h4
    cases h' with
    | plain _ k => exact absurd rfl k
    | simple k1 k =>
      cases e
      rw [(not_simple_of_octal k1).1] at hc
      cases hc
    | octal k1 k2 k3 k4 k5 k =>
      obtain ⟨rfl, rfl⟩ := octal_unique (h1.symm.trans k1) h4 k4 h3 k3 h5 k5
      obtain ⟨rfl, rfl⟩ := ih k
      exact ⟨rfl, rfl⟩
    | hex => cases e; exact absurd hc (by decide)
    | short => cases e; exact absurd hc (by decide)
    | long => cases e; exact absurd hc (by decide)
  | hex h1 h2 h3 h4 _ _ ih =>
    intro v' r' h'
    cases h' with
    | plain _ k => exact absurd rfl k
    | simple k1 k => exact absurd rfl (not_simple_of_octal k1).2.1
    | octal k1 k2 _ k3 =>
      obtain ⟨c, u, e, hc⟩ := octal_head k1 k2 k3
      cases e
      exact absurd hc (by decide)
    | hex k1 _ k3 k4 _ k =>
      obtain ⟨rfl, rfl⟩ := prefix_unique (h1.symm.trans k1) h3 k3 h4 k4
      obtain ⟨rfl, rfl⟩ := ih k
      exact ⟨rfl, rfl⟩
  | short h1 h2 _ _ _ ih =>
    intro v' r' h'
    cases h' with
    | plain _ k => exact absurd rfl k
    | simple k1 k => exact absurd rfl (not_simple_of_octal k1).2.2.1
    | octal k1 k2 _ k3 =>
      obtain ⟨c, u, e, hc⟩ := octal_head k1 k2 k3
      cases e
      exact absurd hc (by decide)
    | short k1 k2 _ _ k =>
      obtain ⟨rfl, rfl⟩ := List.append_inj (h1.symm.trans k1) (h2.trans k2.symm)
      obtain ⟨rfl, rfl⟩ := ih k
      exact ⟨rfl, rfl⟩
  | long h1 h2 _ _ _ ih =>
    intro v' r' h'
    cases h' with
    | plain _ k => exact absurd rfl k
    | simple k1 k => exact absurd rfl (not_simple_of_octal k1).2.2.2
    | octal k1 k2 _ k3 =>
      obtain ⟨c, u, e, hc⟩ := octal_head k1 k2 k3
      cases e
      exact absurd hc (by decide)
    | long k1 k2 _ _ k =>
      obtain ⟨rfl, rfl⟩ := List.append_inj (h1.symm.trans k1) (h2.trans k2.symm)
      obtain ⟨rfl, rfl⟩ := ih k
      exact ⟨rfl, rfl⟩

theorem utf16_length (n : Nat) : (utf16 n).length ≤ 2 := by unfold utf16; split <;> simp

/-- Escape sequences are longer than what they denote. -/
theorem Spec.Lit.length {s v r : Text} (h : Lit s v r) : v.length + 1 + r.length < s.length ∨ s = v ++ 34 :: r ∧ ∀ c ∈ v, c ≠ 34 ∧ c ≠ 92 ∧ c ≠ 10 ∧ c ≠ 13 := by
  induction h with
  | close => exact .inr ⟨rfl, by simp⟩
  | plain h1 h2 h3 h4 _ ih =>
    rcases ih with ih | ⟨ih, hc⟩
    · exact .inl (by simp only [List.length_cons]; omega)
    · exact .inr ⟨by rw [ih]; rfl, fun c h => by
        rcases List.mem_cons.1 h with rfl | h
        · exact ⟨h1, h2, h3, h4⟩
        · exact hc c h⟩
  | @simple e x s v r _ _ ih =>
    have : v.length + 1 + r.length ≤ s.length := by
      rcases ih with ih | ⟨ih, -⟩
      · omega
      · rw [ih]; simp; omega
    exact .inl (by simp only [List.length_cons]; omega)
  | @octal t ds s v r h1 h2 _ _ _ _ ih =>
    have : v.length + 1 + r.length ≤ s.length := by
      rcases ih with ih | ⟨ih, -⟩
      · omega
      · rw [ih]; simp; omega
    have hd : ds.length ≠ 0 := fun e => h2 (List.length_eq_zero_iff.1 e)
    exact .inl (by rw [h1]; simp only [List.length_cons, List.length_append]; omega)
  | @hex t ds s v r h1 h2 _ _ _ _ ih =>
    have : v.length + 1 + r.length ≤ s.length := by
      rcases ih with ih | ⟨ih, -⟩
      · omega
      · rw [ih]; simp; omega
    exact .inl (by rw [h1]; simp only [List.length_cons, List.length_append]; omega)
  | @short t ds s v r h1 h2 _ _ _ ih =>
    have : v.length + 1 + r.length ≤ s.length := by
      rcases ih with ih | ⟨ih, -⟩
      · omega
      · rw [ih]; simp; omega
    have := utf16_length (value 16 ds)
    exact .inl (by rw [h1]; simp only [List.length_cons, List.length_append]; omega)
  | @long t ds s v r h1 h2 _ _ _ ih =>
    have : v.length + 1 + r.length ≤ s.length := by
      rcases ih with ih | ⟨ih, -⟩
      · omega
      · rw [ih]; simp; omega
    have := utf16_length (value 16 ds)
    exact .inl (by rw [h1]; simp only [List.length_cons, List.length_append]; omega)

theorem denotes_of {s v : Text} (h : ∀ r, Lit (s ++ 34 :: r) v r) : Denotes s v := fun r => ⟨h r, fun _ _ h' => (h r).unique h'⟩

theorem replace_cons (c : Nat) (b : Text) (x : Nat) (t : Text) : replace c b (x :: t) = (if x = c then b else [x]) ++ replace c b t := rfl

theorem replace_append (c : Nat) (b : Text) (s t : Text) : replace c b (s ++ t) = replace c b s ++ replace c b t := by simp [replace]

theorem escape_cons (x : Nat) (t : Text) : escape (x :: t) = (if x = 92 then [92, 92] else if x = 34 then [92, 34] else [x]) ++ escape t := by
  rw [escape, replace_cons, replace_append]
  congr 1
  by_cases h : x = 92
  · subst h; rfl
  · by_cases h2 : x = 34
    · subst h2; rfl
    · rw [if_neg h, if_neg h, if_neg h2, replace_cons, if_neg h2]; rfl

/-- Escaped texts denote themselves. -/
theorem escape_denotes {t : Text} (h : OneLine t) : Denotes (escape t) t := by
  refine denotes_of fun r => ?_
  induction t with
  | nil => exact .close
  | cons x t ih =>
    have ih := ih (fun c hc => h c (.tail _ hc))
    rw [escape_cons]
    by_cases h1 : x = 92
    · subst h1; exact .simple (by decide) ih
    · by_cases h2 : x = 34
      · subst h2; rw [if_neg h1]; exact .simple (by decide) ih
      · rw [if_neg h1, if_neg h2]; exact .plain h2 h1 (h x (.head _)).1 (h x (.head _)).2 ih

end Verif.Literal
