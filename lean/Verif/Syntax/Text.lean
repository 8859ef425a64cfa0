import Verif.Syntax.Scan

/-!
# The text of the pretty printer, and its tokens
-/

namespace Verif.Syntax

open GLex (bytes isWord)

theorem Lexes.weaken {C C' : List Nat → Prop} {t : List Nat} {ts : List Tok} (h : Lexes C t ts) (hc : ∀ r, C' r → C r) : Lexes C' t ts :=
  fun E st rest hr hC => h E st rest hr (hc rest hC)

theorem Lexes.any {C : List Nat → Prop} {t : List Nat} {ts : List Tok} (h : Lexes Any t ts) : Lexes C t ts := h.weaken fun _ _ => trivial

theorem Lexes.cast {C : List Nat → Prop} {t t' : List Nat} {ts ts' : List Tok} (h : Lexes C t ts) (e : t' = t) (e' : ts' = ts) : Lexes C t' ts' := by
  subst e; subst e'; exact h

theorem stop_cons {c : Nat} {s : List Nat} (h : isWord c = false) (h' : c ≠ 47) : Stop (c :: s) := fun d hd => by
  simp at hd; subst hd; exact ⟨h, h'⟩

/-- Tokens in front of something that ends names. -/
theorem Lexes.front {C : List Nat → Prop} {t u : List Nat} {ts us : List Tok} (h : Lexes Stop t ts) (h' : Lexes C u us) (hs : ∃ c s, u = c :: s ∧ isWord c = false ∧ c ≠ 47) :
    Lexes C (t ++ u) (ts ++ us) := by
  obtain ⟨c, s, rfl, h1, h2⟩ := hs
  exact h.append h' fun _ _ => stop_cons h1 h2

/-- In parentheses. -/
theorem Lexes.parens {t : List Nat} {ts : List Tok} (h : Lexes Stop t ts) : Lexes Any (bytes "(" ++ t ++ bytes ")") ([.lp] ++ ts ++ [.rp]) :=
  Lexes.front (lexes_lp.append h fun _ _ => trivial) lexes_rp ⟨41, [], rfl, rfl, by decide⟩

/-! ## Alternatives -/

def leaves : Item → List Item
  | .alt l r => leaves l ++ leaves r
  | i => [i]

theorem size_pos : ∀ i : Item, 0 < i.size := by
  intro i; cases i <;> simp [Item.size]

theorem flatten_eq : ∀ (F : Nat) (work found : List Item), (work.map Item.size).sum ≤ F → flatten F work found = found ++ work.flatMap leaves
  | 0, [], found, _ => by simp [flatten]
  | 0, i :: work, found, h => by
    have := size_pos i
    simp at h; omega
  | F + 1, [], found, _ => by simp [flatten]
  | F + 1, i :: work, found, h => by
    have hp := size_pos i
    simp only [List.map_cons, List.sum_cons] at h
    cases i with
    | alt l r =>
      rw [flatten, flatten_eq F]
      · simp [leaves]
      · simp only [List.map_cons, List.sum_cons, Item.size] at h ⊢; omega
    | _ => rw [flatten, flatten_eq F _ _ (by omega)] <;> simp [leaves]

theorem leaves_ne : ∀ i : Item, leaves i ≠ []
  | .alt l r => by simp [leaves, leaves_ne l]
  | .zero | .nonterm .. | .term _ | .inl _ | .ann .. | .plus _ | .star _ | .code _ | .act .. | .cons .. | .cond .. | .recover _ | .rollback .. | .op _ | .wild => by simp [leaves]

theorem bars_append : ∀ {a b : List (List Nat)}, a ≠ [] → b ≠ [] → bars (a ++ b) = bars a ++ bytes " | " ++ bars b
  | [], _, h, _ => absurd rfl h
  | [x], [], _, h => absurd rfl h
  | [x], y :: b, _, _ => rfl
  | x :: y :: a, b, _, h => by
    have := bars_append (a := y :: a) (b := b) (by simp) h
    simp only [List.cons_append] at this ⊢
    simp only [bars, this, List.append_assoc]

theorem lexes_bars {f : Nat} (ih : ∀ i : Item, i.size ≤ f → Named i → Shown i → Lexes Stop (printF f i) (toks i)) :
    ∀ i : Item, i.size ≤ f → Named i → Shown i → Lexes Stop (bars ((leaves i).map (printF f))) (inner i)
  | .alt l r, hf, hn, hs => by
    simp only [Item.size] at hf
    have h1 := lexes_bars ih l (by omega) hn.1 hs.1.1
    have h2 := lexes_bars ih r (by omega) hn.2 hs.2.1
    have hb : Lexes Any (bytes " | ") [.bar] := ((Lexes.blank (C := Any)).append (lexes_bar.append Lexes.blank fun _ _ => trivial) fun _ _ => trivial : Lexes Any (bytes " " ++ (bytes "|" ++ bytes " ")) ([] ++ ([.bar] ++ [])))
    refine (h1.front (hb.append h2 fun _ _ => trivial) ⟨32, _, rfl, rfl, by decide⟩).cast ?_ ?_
    · simp only [leaves, List.map_append]
      rw [bars_append (by simpa using leaves_ne l) (by simpa using leaves_ne r), List.append_assoc]
    · simp [inner]
  | .zero, hf, hn, hs | .nonterm .., hf, hn, hs | .term _, hf, hn, hs | .inl _, hf, hn, hs | .ann .., hf, hn, hs | .plus _, hf, hn, hs | .star _, hf, hn, hs
  | .code _, hf, hn, hs | .act .., hf, hn, hs | .cons .., hf, hn, hs | .cond .., hf, hn, hs | .recover _, hf, hn, hs | .rollback .., hf, hn, hs => ih _ hf hn hs

/-- The text of an item is read as its tokens. -/
theorem lexes_print : ∀ (f : Nat) (i : Item), i.size ≤ f → Named i → Shown i → Lexes Stop (printF f i) (toks i)
  | 0, i, hf, _, _ => by have := size_pos i; omega
  | f + 1, i, hf, hn, hs => by
    have ih := lexes_print f
    cases i with
    | zero => exact lexes_zero
    | nonterm s a => exact lexes_ident hn
    | inl s => exact lexes_ident hn
    | term s => exact lexes_term hn
    | ann l i =>
      obtain ⟨n, q, t⟩ := l
      simp only [Item.size] at hf
      have hi := ih i (by omega) hn.2 (by rcases hs with ⟨s, a, rfl⟩ | ⟨s, rfl⟩ <;> trivial)
      have hname : Lexes Stop n [.ident n] := lexes_ident hn.1
      have hsym : Lexes Stop ((if t then bytes ":" else bytes "=") ++ printF f i) ([if t then .colon else .eq] ++ toks i) := by
        cases t
        · exact lexes_eq.append hi fun _ _ => trivial
        · exact lexes_colon.append hi fun _ _ => trivial
      have h1 := hname.front hsym (by cases t <;> exact ⟨_, _, rfl, rfl, by decide⟩)
      cases q
      · exact h1.cast (by simp [printF]) (by simp [toks, wrap, inner])
      · exact (lexes_hash.append h1 fun _ _ => trivial).cast (by simp [printF]) (by simp [toks, wrap, inner])
    | plus i =>
      simp only [Item.size] at hf
      have hi := ih i (by omega) hn hs.1
      exact (hi.parens.append lexes_plus.any fun _ _ => trivial).cast rfl (by simp [toks, wrap, inner])
    | star i =>
      simp only [Item.size] at hf
      have hi := ih i (by omega) hn hs.1
      exact (hi.parens.append lexes_star.any fun _ _ => trivial).cast rfl (by simp [toks, wrap, inner])
    | code c => exact .nil
    | act i c => simp only [Item.size] at hf; exact ih i (by omega) hn hs
    | alt l r =>
      simp only [Item.size] at hf
      have h1 := lexes_bars ih l (by omega) hn.1 hs.1.1
      have h2 := lexes_bars ih r (by omega) hn.2 hs.2.1
      have hb : Lexes Any (bytes " | ") [.bar] := ((Lexes.blank (C := Any)).append (lexes_bar.append Lexes.blank fun _ _ => trivial) fun _ _ => trivial : Lexes Any (bytes " " ++ (bytes "|" ++ bytes " ")) ([] ++ ([.bar] ++ [])))
      have h3 := h1.front (hb.append h2 fun _ _ => trivial) ⟨32, _, rfl, rfl, by decide⟩
      refine h3.parens.any.cast ?_ (by simp [toks, wrap, inner])
      simp only [printF]
      rw [flatten_eq _ _ _ (by simp; omega)]
      simp only [List.nil_append, List.flatMap_cons, List.flatMap_nil, List.append_nil, List.map_append]
      rw [bars_append (by simpa using leaves_ne l) (by simpa using leaves_ne r), List.append_assoc (bars _)]
    | cons l r =>
      simp only [Item.size] at hf
      have h1 := ih l (by omega) hn.1 hs.1
      have h2 := ih r (by omega) hn.2 hs.2
      exact (h1.front ((Lexes.blank (C := Any)).append h2 fun _ _ => trivial : Lexes Stop _ ([] ++ _)) ⟨32, _, rfl, rfl, by decide⟩).cast (by simp [printF]) rfl
    | cond c i => simp only [Item.size] at hf; exact ih i (by omega) hn hs
    | recover i =>
      simp only [Item.size] at hf
      have hi := ih i (by omega) hn hs.1
      exact (lexes_recover.append hi.parens fun _ _ => trivial).any.cast (by
        simp only [printF, ← List.append_assoc]
        rw [show bytes "try/" ++ bytes "recover" = bytes "try/recover" from rfl]) (by simp [toks, wrap, inner])
    | rollback i j =>
      simp only [Item.size] at hf
      have hi := ih i (by omega) hn.1 hs.1.1
      have hj := ih j (by omega) hn.2 hs.2.1
      have hc := ((Lexes.blank (C := Any)).append (lexes_catch.front hj.parens ⟨40, _, rfl, rfl, by decide⟩) fun _ _ => trivial : Lexes Any (bytes " " ++ _) ([] ++ _))
      exact ((lexes_rollback.append hi.parens fun _ _ => trivial).append hc fun _ _ => trivial).any.cast (by
        simp only [printF, ← List.append_assoc]
        rw [show bytes "try/" ++ bytes "rollback" = bytes "try/rollback" from rfl, List.append_assoc _ (bytes " ") (bytes "catch"), List.append_assoc _ (bytes " " ++ bytes "catch") (bytes "("),
          show bytes " " ++ bytes "catch" ++ bytes "(" = bytes " catch(" from rfl]) (by simp [toks, wrap, inner])
    | op => exact absurd hs id
    | wild => exact absurd hs id

/-- A rule, with the semicolon behind it. -/
theorem lexes_rule {r : Rule} (hn : Named r.item) (hsym : IsIdent r.sym) (hs : Shown r.item) :
    Lexes (· = []) (r.print ++ bytes ";") (toks r.item ++ [.arrow, .ident r.sym, .semi]) := by
  have h1 := lexes_print r.item.size r.item (Nat.le_refl _) hn hs
  have h2 : Lexes (· = []) (r.sym ++ bytes ";") ([.ident r.sym] ++ [.semi]) := (lexes_ident hsym).front lexes_semi ⟨59, [], rfl, rfl, by decide⟩
  have h3 : Lexes Any (bytes " " ++ (bytes "->" ++ bytes " ")) ([] ++ ([.arrow] ++ [])) := (Lexes.blank (C := Any)).append (lexes_arrow.append Lexes.blank fun _ _ => trivial) fun _ _ => trivial
  exact (h1.front (h3.append h2 fun _ _ => trivial) ⟨32, _, rfl, rfl, by decide⟩).cast (by
    simp only [Rule.print, print, ← List.append_assoc]
    rw [List.append_assoc (printF _ _) (bytes " ") (bytes "->"), List.append_assoc (printF _ _) (bytes " " ++ bytes "->") (bytes " "), show bytes " " ++ bytes "->" ++ bytes " " = bytes " -> " from rfl]) rfl

end Verif.Syntax
