import Verif.LexSyn.Spec
import Verif.LexSyn.Rules

/-!
# The text of an expression is read as that expression
-/

namespace Verif.LexSyn

open Spec

/-- The nonterminal for a strength. -/
def lv : Nat → Lv
  | 0 => .alt | 1 => .and | 2 => .but | 3 => .pre | 4 => .seq | 5 => .sep | 6 => .rep | _ => .atom

theorem D.down {o b : Bool} {k : Nat} {ts : List Tok} {x : E} (d : D o b (lv (k + 1)) ts x) : D o b (lv k) ts x := by
  match k, d with
  | 0, d => exact .altOne d
  | 1, d => exact .andOne d
  | 2, d => exact .butOne d
  | 3, d => exact .preOne d
  | 4, d => exact .seqOne d
  | 5, d => exact .sepOne d
  | 6, d => exact .repOne d
  | _ + 7, d => exact d

theorem D.le {o b : Bool} {j k : Nat} (h : j ≤ k) {ts : List Tok} {x : E} (d : D o b (lv k) ts x) : D o b (lv j) ts x := by
  induction k with
  | zero => obtain rfl : j = 0 := by omega
            exact d
  | succ k ih =>
    rcases Nat.lt_or_ge k j with h' | h'
    · obtain rfl : j = k + 1 := by omega
      exact d
    · exact ih h' d.down

/-- What is proved of the text of an expression. -/
structure Written (b : Bool) (k : Nat) (ts : List Tok) (x : E) : Prop where
  reads : D true b (lv k) ts x
  closed : open_ ts = false
  begins : 4 ≤ k → begins b ts = true

theorem open_snoc (ts : List Tok) {t : Tok} (h : t ≠ .at_) : open_ (ts ++ [t]) = false := by
  simp [open_, h]

theorem Written.paren {b : Bool} {k : Nat} {ts : List Tok} {x : E} (h : Written false k ts x) : Written b 7 (.lp :: ts ++ [.rp]) x :=
  ⟨.paren (h.reads.le (Nat.zero_le k)), open_snoc (.lp :: ts) (by simp), fun _ => rfl⟩

theorem Written.brackets {b : Bool} {k : Nat} {ts : List Tok} {x : E} (h : D true true (lv k) ts x) : Written b 7 (.lb :: ts ++ [.rb]) x :=
  ⟨.bracket (h.le (Nat.zero_le k)), open_snoc (.lb :: ts) (by simp), fun _ => rfl⟩

theorem open_more {ts us : List Tok} (h : open_ us = false) : open_ (ts ++ us) = false := by
  have hne : us ≠ [] := by rintro rfl; cases h
  rw [open_append hne]; exact h

theorem open_mid {ts us : List Tok} {t : Tok} (h : open_ us = false) : open_ (ts ++ t :: us) = false := by
  have := open_more (ts := ts ++ [t]) h
  simpa using this

theorem begins_more {b : Bool} {ts us : List Tok} (h : begins b ts = true) : begins b (ts ++ us) = true := by
  cases ts with
  | nil => cases h
  | cons t ts => cases t <;> first | rfl | exact h | (cases h)

theorem Written.operand {b : Bool} {x : E} {ts : List Tok} (h : Written b (strength b x) ts x) (k : Nat) (hk : k ≤ 7) :
    ∃ j, k ≤ j ∧ Written b j (operand b k x ts) x := by
  unfold Spec.operand
  split
  · refine ⟨7, hk, ?_⟩
    cases b with
    | false => exact h.paren
    | true => exact Written.brackets h.reads
  · exact ⟨_, by omega, h⟩

theorem written (b : Bool) (x : E) : Written b (strength b x) (text b x) x := by
  induction x generalizing b with
  | eps => exact ⟨.paren (ts := []) (.altOne (.andOne (.butOne (.preOne (.seqOne (.sepOne (.repOne .eps))))))), rfl, fun _ => rfl⟩
  | dot => exact ⟨.dot, rfl, fun _ => rfl⟩
  | str s => exact ⟨.str, rfl, fun _ => rfl⟩
  | word s =>
    have h : Written false 7 [.unq s] (.word s) := ⟨.word, rfl, fun _ => rfl⟩
    cases b with
    | false => exact h
    | true => exact h.paren
  | coll s =>
    have h : Written true 7 [.unq s] (.coll s) := ⟨.coll, rfl, fun _ => rfl⟩
    cases b with
    | false => exact Written.brackets h.reads
    | true => exact h
  | range s =>
    have h : Written true 7 [.range s] (.range s) := ⟨.range, rfl, fun _ => rfl⟩
    cases b with
    | false => exact Written.brackets h.reads
    | true => exact h
  | named s => exact ⟨.named, rfl, fun _ => rfl⟩
  | alt x y ihx ihy =>
    obtain ⟨i, hi, h1⟩ := (ihx b).operand 0 (by omega)
    obtain ⟨j, hj, h2⟩ := (ihy b).operand 1 (by omega)
    exact ⟨.alt (h1.reads.le hi) (h2.reads.le hj), open_mid h2.closed, fun h => absurd h (by simp [strength])⟩
  | and x y ihx ihy =>
    obtain ⟨i, hi, h1⟩ := (ihx b).operand 1 (by omega)
    obtain ⟨j, hj, h2⟩ := (ihy b).operand 2 (by omega)
    exact ⟨.and (h1.reads.le hi) (h2.reads.le hj), open_mid h2.closed, fun h => absurd h (by simp [strength])⟩
  | but x y ihx ihy =>
    obtain ⟨i, hi, h1⟩ := (ihx b).operand 3 (by omega)
    obtain ⟨j, hj, h2⟩ := (ihy b).operand 2 (by omega)
    exact ⟨.but (h1.reads.le hi) (h2.reads.le hj), open_mid h2.closed, fun h => absurd h (by simp [strength])⟩
  | neg x ih =>
    obtain ⟨i, hi, h1⟩ := (ih b).operand 3 (by omega)
    exact ⟨.neg (h1.reads.le hi), open_mid (ts := []) h1.closed, fun h => absurd h (by simp [strength])⟩
  | opt x ih =>
    obtain ⟨i, hi, h1⟩ := (ih b).operand 3 (by omega)
    exact ⟨.opt (h1.reads.le hi), open_mid (ts := []) h1.closed, fun h => absurd h (by simp [strength])⟩
  | cat x y ihx ihy =>
    obtain ⟨i, hi, h1⟩ := (ihx false).operand 4 (by omega)
    obtain ⟨j, hj, h2⟩ := (ihy false).operand 5 (by omega)
    have h : Written false 4 (operand false 4 x (text false x) ++ operand false 5 y (text false y)) (.cat x y) :=
      ⟨.cat (h1.reads.le hi) (h2.reads.le hj) fun _ => ⟨h1.closed, h2.begins (by omega)⟩, open_more h2.closed, fun _ => begins_more (h1.begins (by omega))⟩
    cases b with
    | false => exact h
    | true => exact h.paren
  | sepBy x y ihx ihy =>
    obtain ⟨i, hi, h1⟩ := (ihx b).operand 5 (by omega)
    obtain ⟨j, hj, h2⟩ := (ihy b).operand 6 (by omega)
    exact ⟨.sep (h1.reads.le hi) (h2.reads.le hj), open_mid h2.closed, fun _ => begins_more (h1.begins (by omega))⟩
  | star x ih =>
    obtain ⟨i, hi, h1⟩ := (ih b).operand 6 (by omega)
    exact ⟨.star (h1.reads.le hi), open_snoc _ (by simp), fun _ => begins_more (h1.begins (by omega))⟩
  | plus x ih =>
    obtain ⟨i, hi, h1⟩ := (ih b).operand 6 (by omega)
    exact ⟨.plus (h1.reads.le hi), open_snoc _ (by simp), fun _ => begins_more (h1.begins (by omega))⟩

/-! ### Prefix operators -/

/-- `t` stands at the beginning or behind one of the tokens that may be in front of it. -/
def Placed (first : Bool) (ts : List Tok) : Prop :=
  ∀ p t q, ts = p ++ t :: q → t = .tilde ∨ t = .opt → first = true ∧ p = [] ∨ ∃ p' u, p = p' ++ [u] ∧ Before u

/-- Nonterminals whose text may begin with a prefix operator. -/
def mayPrefix : Lv → Bool
  | .alt | .and | .but | .pre => true
  | _ => false

theorem Placed.nil {f : Bool} : Placed f [] := by
  intro p t q e; simp at e

theorem Placed.append {f : Bool} {ts us : List Tok} (h : Placed f ts) (h' : Placed false us) : Placed f (ts ++ us) := by
  intro p t q e ht
  rcases List.append_eq_append_iff.1 e with ⟨m, rfl, rfl⟩ | ⟨m, rfl, e2⟩
  · rcases h' m t q rfl ht with ⟨h1, _⟩ | ⟨p', u, rfl, hu⟩
    · cases h1
    · exact Or.inr ⟨ts ++ p', u, by simp, hu⟩
  · cases m with
    | nil =>
      rcases h' [] t q (by simpa using e2.symm) ht with ⟨h1, _⟩ | ⟨p', u, e3, hu⟩
      · cases h1
      · simp at e3
    | cons a m =>
      simp only [List.cons_append, List.cons.injEq] at e2
      exact h p t m (by rw [e2.1]) ht

/-- Behind a token that may be in front of it. -/
theorem Placed.cons {f : Bool} {u : Tok} {us : List Tok} (hu : Before u) (hp : f = true ∨ (u ≠ .tilde ∧ u ≠ .opt)) (h : Placed true us) : Placed f (u :: us) := by
  intro p t q e ht
  cases p with
  | nil =>
    simp only [List.nil_append, List.cons.injEq] at e
    rcases hp with hp | hp
    · exact Or.inl ⟨hp, rfl⟩
    · rw [e.1] at hp
      rcases ht with rfl | rfl
      · exact absurd rfl hp.1
      · exact absurd rfl hp.2
  | cons a p =>
    simp only [List.cons_append, List.cons.injEq] at e
    rcases h p t q e.2 ht with ⟨_, rfl⟩ | ⟨p', v, rfl, hv⟩
    · exact Or.inr ⟨[], a, by simp, e.1 ▸ hu⟩
    · exact Or.inr ⟨a :: p', v, by simp, hv⟩

theorem Placed.single {f : Bool} {t : Tok} (h : t ≠ .tilde ∧ t ≠ .opt) : Placed f [t] := by
  intro p t' q e ht
  cases p with
  | nil =>
    simp only [List.nil_append, List.cons.injEq] at e
    rw [e.1] at h
    rcases ht with rfl | rfl
    · exact absurd rfl h.1
    · exact absurd rfl h.2
  | cons a p => simp at e

/-- Behind any other token nothing that begins with a prefix operator. -/
theorem Placed.other {f : Bool} {u : Tok} {us : List Tok} (hu : u ≠ .tilde ∧ u ≠ .opt) (h : Placed false us) : Placed f (u :: us) :=
  Placed.append (ts := [u]) (.single hu) h

theorem Placed.weaken {f : Bool} {ts : List Tok} (h : Placed false ts) : Placed f ts := by
  intro p t q e ht
  rcases h p t q e ht with ⟨h1, _⟩ | h1
  · cases h1
  · exact Or.inr h1

theorem placed {o b : Bool} {n : Lv} {ts : List Tok} {x : E} (d : D o b n ts x) : Placed (mayPrefix n) ts := by
  induction d with
  | alt _ _ ih1 ih2 => exact ih1.append (.cons (by simp [Before]) (Or.inr (by simp)) ih2)
  | and _ _ ih1 ih2 => exact ih1.append (.cons (by simp [Before]) (Or.inr (by simp)) ih2)
  | but _ _ ih1 ih2 => exact ih1.append (.cons (by simp [Before]) (Or.inr (by simp)) ih2)
  | altOne _ ih | andOne _ ih | butOne _ ih => exact ih
  | neg _ ih | opt _ ih => exact .cons (by simp [Before]) (Or.inl rfl) ih
  | preOne _ ih => exact ih.weaken
  | cat _ _ _ ih1 ih2 | union _ _ _ ih1 ih2 => exact ih1.append ih2
  | seqOne _ ih | sepOne _ ih | repOne _ ih => exact ih
  | sep _ _ ih1 ih2 => exact ih1.append (.other (by simp) ih2)
  | star _ ih | plus _ ih => exact ih.append (.single (by simp))
  | paren _ ih | bracket _ ih => exact Placed.append (.cons (by simp [Before]) (Or.inr (by simp)) ih) (.single (by simp))
  | eps => exact .nil
  | _ => exact .single (by simp)

/-! ### Sequences -/

theorem Spec.Single.atom {o b : Bool} {t : Tok} {x : E} (h : Single b t x) : D o b .atom [t] x := by
  cases h with
  | dot => exact .dot
  | str => exact .str
  | unq => cases b with
    | false => exact .word
    | true => exact .coll
  | range h => subst h; exact .range
  | named => exact .named

theorem Spec.Single.begins {b : Bool} {t : Tok} {x : E} (h : Single b t x) : begins b [t] = true ∧ open_ [t] = false := by
  cases h with
  | range h => subst h; exact ⟨rfl, rfl⟩
  | _ => exact ⟨rfl, rfl⟩

theorem sequence {b : Bool} {ts : List Tok} {x : E} (d : D true b .seq ts x) (hc : open_ ts = false) {us : List (Tok × E)} (h : ∀ p ∈ us, Single b p.1 p.2) :
    D true b .seq (ts ++ us.map (·.1)) (us.foldl (fun y p => join b y p.2) x) := by
  induction us generalizing ts x with
  | nil => simpa using d
  | cons p us ih =>
    have hp := h p List.mem_cons_self
    have hs : D true b .sep [p.1] p.2 := .sepOne (.repOne hp.atom)
    have hj : joins b ts [p.1] := ⟨hc, hp.begins.1⟩
    have hn : D true b .seq (ts ++ [p.1]) (join b x p.2) := by
      cases b with
      | false => exact .cat d hs fun _ => hj
      | true => exact .union d hs fun _ => hj
    have := ih hn (open_more hp.begins.2) fun q hq => h q (List.mem_cons_of_mem _ hq)
    simpa using this

end Verif.LexSyn
