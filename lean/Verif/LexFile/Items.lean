import Verif.LexFile.Code
import Verif.Lexer.LookaheadProps

set_option linter.unusedSectionVars false

/-!
# Rules with lookahead and barrier
-/

namespace Verif.LexFile

open Verif.Auto Verif.LexSyn Verif.Read

variable {C : Type} [CharSetLike C]

local notation "size" => CharSetLike.size C

/-- An automaton on which the length functions are right (C23). -/
def Neat (o : Option (NFA C)) : Prop := ∀ n, o = some n → Tidy n.rules ∧ NoEmpty n.rules ∧ Trim n ∧ Ranked n.rules

/-- Expressions of which the length functions are right: no names; nothing matching the empty word is iterated; intersections, differences and complements match something. -/
def Measured (A : Chars C) (K : LexSyn.Spec.Reading) (N : Text → Lang) : E → Prop
  | .eps => True
  | .dot => Neat A.dot
  | .str s | .word s => Neat (A.word s)
  | .coll s => Neat (A.coll s)
  | .range s => Neat (A.range s)
  | .named _ => False
  | .alt a b | .cat a b => Measured A K N a ∧ Measured A K N b
  | .and a b => Measured A K N a ∧ Measured A K N b ∧ ∃ w, LexSyn.Spec.den K size N a w ∧ LexSyn.Spec.den K size N b w
  | .but a b => Measured A K N a ∧ Measured A K N b ∧ ∃ w, LexSyn.Spec.den K size N a w ∧ ¬ LexSyn.Spec.den K size N b w
  | .neg a => Measured A K N a ∧ ∃ w, (∀ x ∈ w, x < size) ∧ ¬ LexSyn.Spec.den K size N a w
  | .opt a => Measured A K N a
  | .star a | .plus a => Measured A K N a ∧ ¬ LexSyn.Spec.den K size N a []
  | .sepBy a b => Measured A K N a ∧ Measured A K N b ∧ ¬ (LexSyn.Spec.den K size N a [] ∧ LexSyn.Spec.den K size N b [])

variable {A : Chars C} {order : List Bits → List Bits} {ns : Text → Option (Rx C)} {K : LexSyn.Spec.Reading} {N : Text → Lang} {tok num : Text → Nat}

theorem measured_rx (hN : LexSyn.Named ns N) {y : E} {b : Rx C} (h : Resolves A ns y b) (hf : Faithful A K y) (hm : Measured A K N y) :
    b.Plain ∧ b.Solid ∧ b.Useful ∧ b.Strict := by
  induction h with
  | eps => exact ⟨trivial, trivial, trivial, trivial⟩
  | dot h e => obtain ⟨h1, h2, h3, h4⟩ := hm _ e; exact ⟨h1, h2, h3, h4⟩
  | str h e => obtain ⟨h1, h2, h3, h4⟩ := hm _ e; exact ⟨h1, h2, h3, h4⟩
  | word h e => obtain ⟨h1, h2, h3, h4⟩ := hm _ e; exact ⟨h1, h2, h3, h4⟩
  | coll h e => obtain ⟨h1, h2, h3, h4⟩ := hm _ e; exact ⟨h1, h2, h3, h4⟩
  | range h e => obtain ⟨h1, h2, h3, h4⟩ := hm _ e; exact ⟨h1, h2, h3, h4⟩
  | named _ => exact hm.elim
  | alt r1 r2 ih1 ih2 | cat r1 r2 ih1 ih2 =>
    obtain ⟨a1, a2, a3, a4⟩ := ih1 hf.1 hm.1
    obtain ⟨b1, b2, b3, b4⟩ := ih2 hf.2 hm.2
    exact ⟨⟨a1, b1⟩, ⟨a2, b2⟩, ⟨a3, b3⟩, ⟨a4, b4⟩⟩
  | and r1 r2 ih1 ih2 =>
    obtain ⟨a1, a2, a3, a4⟩ := ih1 hf.1 hm.1
    obtain ⟨b1, b2, b3, b4⟩ := ih2 hf.2 hm.2.1
    obtain ⟨w, w1, w2⟩ := hm.2.2
    exact ⟨⟨a1, b1⟩, ⟨a2, b2⟩, ⟨w, (resolves_den hN r1 hf.1 w).2 w1, (resolves_den hN r2 hf.2 w).2 w2⟩, trivial⟩
  | but r1 r2 ih1 ih2 =>
    obtain ⟨a1, a2, a3, a4⟩ := ih1 hf.1 hm.1
    obtain ⟨b1, b2, b3, b4⟩ := ih2 hf.2 hm.2.1
    obtain ⟨w, w1, w2⟩ := hm.2.2
    exact ⟨⟨a1, b1⟩, ⟨a2, b2⟩, ⟨w, (resolves_den hN r1 hf.1 w).2 w1, fun h => w2 ((resolves_den hN r2 hf.2 w).1 h)⟩, trivial⟩
  | neg r ih =>
    obtain ⟨a1, a2, a3, a4⟩ := ih hf hm.1
    obtain ⟨w, w1, w2⟩ := hm.2
    exact ⟨a1, a2, ⟨w, w1, fun h => w2 ((resolves_den hN r hf w).1 h)⟩, trivial⟩
  | opt r ih => exact ih hf hm
  | star r ih | plus r ih =>
    obtain ⟨a1, a2, a3, a4⟩ := ih hf hm.1
    exact ⟨a1, a2, a3, a4, fun h => hm.2 ((resolves_den hN r hf []).1 h)⟩
  | sepBy r1 r2 ih1 ih2 =>
    obtain ⟨a1, a2, a3, a4⟩ := ih1 hf.1 hm.1
    obtain ⟨b1, b2, b3, b4⟩ := ih2 hf.2 hm.2.1
    exact ⟨⟨a1, b1⟩, ⟨a2, b2⟩, ⟨a3, b3⟩, a4, b4, fun h => hm.2.2 ⟨(resolves_den hN r1 hf.1 []).1 h.1, (resolves_den hN r2 hf.2 []).1 h.2⟩⟩

/-- An automaton and a text that do what a rule says. -/
def Good (tok num : Text → Nat) (p : NFA C × Text) (e : Lang × Rule) : Prop := p.1.Wf ∧ (∀ w, p.1.Lang w ↔ e.1 w) ∧ meaning tok num p.2 = some (ruleStmts e.2)

/-- The conditions on what stands behind a rule. -/
def BehindOk (A : Chars C) (K : LexSyn.Spec.Reading) (N : Text → Lang) (kn : Text → Prop) : Behind → Prop
  | .nothing => True
  | .lookahead y => Faithful A K y ∧ LexSyn.Spec.Closed kn y ∧ LexSyn.Spec.Safe K size N y ∧ Measured A K N y
  | .barrier y => Faithful A K y ∧ LexSyn.Spec.Closed kn y ∧ LexSyn.Spec.Safe K size N y ∧ Measured A K N y ∧ A.dot = some (.ofSet CharSetLike.full)

theorem ruleText_none' (c : Text) (a : Act) : ruleText none c a = c ++ actText a := rfl

theorem fixed_len (hsz : 0 < size) (order : List Bits → List Bits) (ho : Enumerates order) (hN : LexSyn.Named ns N) {y : E} {b : Rx C} (h : Resolves A ns y b) (hf : Faithful A K y)
    (hm : Measured A K N y) (hs : b.Safe) :
    ∃ F l o, (∀ fuel, F ≤ fuel → b.build order fuel = some l) ∧ (∀ fuel, F ≤ fuel → Lexer.fixedLen fuel l = some o) ∧ l.Wf ∧ Tidy l.rules ∧ NoEmpty l.rules ∧
      (∀ w, l.Lang w ↔ LexSyn.Spec.den K size N y w) ∧
      ((∃ m, Spec.Fixed (LexSyn.Spec.den K size N y) m ∧ o = some (m : Int) ∧ ∀ m', Spec.Fixed (LexSyn.Spec.den K size N y) m' → m' = m) ∨
        ((¬ ∃ m, Spec.Fixed (LexSyn.Spec.den K size N y) m) ∧ o = none)) := by
  obtain ⟨p1, p2, p3, p4⟩ := measured_rx hN h hf hm
  obtain ⟨F, l, o, h1, h2, h3⟩ := Lexer.C54_decision_partial hsz b hs p1 p2 p3 p4 order ho
  obtain ⟨F', l', g1, g2⟩ := build_shape hsz order ho b p1
  obtain ⟨F'', l'', i1, i2⟩ := build_spec order ho b hs
  have e1 := h1 (max F (max F' F'')) (by omega)
  have e2 := g1 (max F (max F' F'')) (by omega)
  have e3 := i1 (max F (max F' F'')) (by omega)
  rw [e1] at e2 e3; cases e2; cases e3
  have hden : ∀ w, b.den w ↔ LexSyn.Spec.den K size N y w := fun w => resolves_den hN h hf w
  have key : ∀ m : Nat, Spec.Fixed (LexSyn.Spec.den K size N y) m → o = some (m : Int) := fun m hm => (h3 m).2 ⟨m, hm.1, rfl, fun v hv => hm.2 v ((hden v).1 hv)⟩
  refine ⟨F, l, o, h1, h2, g2.wf, g2.tidy, g2.noEmpty p2, fun w => (i2.lang w).trans (hden w), ?_⟩
  by_cases hx : ∃ m, Spec.Fixed (LexSyn.Spec.den K size N y) m
  · obtain ⟨m, hm⟩ := hx
    refine Or.inl ⟨m, hm, key m hm, fun m' hm' => ?_⟩
    have := (key m hm).symm.trans (key m' hm')
    simp only [Option.some.injEq] at this
    omega
  · refine Or.inr ⟨hx, ?_⟩
    cases o with
    | none => rfl
    | some k =>
      obtain ⟨m, m1, _, m3⟩ := (h3 k).1 rfl
      exact absurd ⟨m, m1, fun v hv => m3 v ((hden v).2 hv)⟩ hx

/-- What a rule makes of itself is what it stands for. -/
theorem item_rules (hsz : 0 < size) (ho : Enumerates order) (hK : K.Bounded) (hN : LexSyn.Named ns N) (hns : ∀ s a, ns s = some a → a.Safe) {kn : Text → Prop} (hkn : ∀ s, kn s → ns s ≠ none)
    {x : E} {a : Rx C} (hx : Resolves A ns x a) (hfx : Faithful A K x) (hax : a.Safe) {y : Behind} (hy : BehindOk A K N kn y) (c : Text) (t : Act) :
    ∃ b : Option (Bool × Rx C), ResolvesBehind A ns y b ∧ (∀ p, b = some p → p.2.Safe) ∧
      ∃ F rs, (∀ fuel, F ≤ fuel → (Item.mk a b c t).rules A order fuel = some rs) ∧
        ∀ es, Spec.Entry K size tok num N x y c t es → List.Forall₂ (Good tok num) (rs.map fun r => (r.nfa, ruleText r.rewind c t)) es := by
  obtain ⟨F, r, r1, r2⟩ := build_spec order ho a hax
  have rl : ∀ w, r.Lang w ↔ LexSyn.Spec.den K size N x w := fun w => (r2.lang w).trans (resolves_den hN hx hfx w)
  cases y with
  | nothing =>
    refine ⟨none, .nothing, by simp, F, [⟨r, none⟩], fun fuel hf => by simp [Item.rules, r1 fuel hf], ?_⟩
    intro es he
    cases he with
    | plain hd ha => exact .cons ⟨r2.wf, rl, (means_does hd ha).meaning⟩ .nil
  | lookahead y =>
    obtain ⟨hfy, hcy, hsy, hmy⟩ := hy
    obtain ⟨b, b1, b2, _⟩ := resolves_safe hK hN hns hfy (closed_congr hkn hcy) hsy
    obtain ⟨F', l, o, l1, l2, l3, l4, l5, l6, l7⟩ := fixed_len hsz order ho hN b1 hfy hmy b2
    refine ⟨some (false, b), .lookahead b1, by simpa using b2, ?_⟩
    obtain ⟨n, n1, n2, n3⟩ := concat_spec r2.wf l3
    rcases l7 with ⟨m, m1, rfl, m3⟩ | ⟨m1, rfl⟩
    · refine ⟨max F F', [⟨n, some (m : Int)⟩], fun fuel hf => ?_, ?_⟩
      · simp [Item.rules, r1 fuel (by omega), l1 fuel (by omega), Lexer.lookaheadRule, l2 fuel (by omega), n1]
      · intro es he
        cases he with
        | ahead hd ha hm' =>
          cases m3 _ hm'
          refine .cons ⟨n2, fun w => ?_, (means_does_back hd ha m1.1).meaning⟩ .nil
          rw [n3]
          exact exists_congr fun u => exists_congr fun v => by rw [rl, l6]
        | noAhead hd ha h => exact absurd ⟨m, m1⟩ h
    · refine ⟨max F F', [⟨r, none⟩], fun fuel hf => ?_, ?_⟩
      · simp [Item.rules, r1 fuel (by omega), l1 fuel (by omega), Lexer.lookaheadRule, l2 fuel (by omega)]
      · intro es he
        cases he with
        | ahead hd ha h => exact absurd ⟨_, h⟩ m1
        | noAhead hd ha _ => exact .cons ⟨r2.wf, rl, (means_does hd ha).meaning⟩ .nil
  | barrier y =>
    obtain ⟨hfy, hcy, hsy, hmy, hdot⟩ := hy
    obtain ⟨b, b1, b2, _⟩ := resolves_safe hK hN hns hfy (closed_congr hkn hcy) hsy
    obtain ⟨F', l, o, l1, l2, l3, l4, l5, l6, l7⟩ := fixed_len hsz order ho hN b1 hfy hmy b2
    refine ⟨some (true, b), .barrier b1, by simpa using b2, ?_⟩
    rcases l7 with ⟨m, m1, rfl, m3⟩ | ⟨m1, rfl⟩
    · obtain ⟨F2, n1, n2, q1, q2, q3, q4, q5, _⟩ := Lexer.C58_barrier r2.wf l3 l4 l5 order ho l2
      refine ⟨max F (max F' F2), [⟨n1, none⟩, ⟨n2, some (m : Int)⟩], fun fuel hf => ?_, ?_⟩
      · simp [Item.rules, r1 fuel (by omega), l1 fuel (by omega), hdot, q1 fuel (by omega)]
      · intro es he
        have hb : ∀ v, l.Lang v ↔ LexSyn.Spec.den K size N y v := l6
        have hc : ∀ w, Lexer.Contains l.Lang w ↔ Spec.Contains (LexSyn.Spec.den K size N y) w := fun w =>
          exists_congr fun _ => exists_congr fun _ => exists_congr fun _ => by rw [hb]
        have hE : ∀ w, Lexer.EndsEarly l.Lang w ↔ Spec.EndsEarly (LexSyn.Spec.den K size N y) w := fun w =>
          exists_congr fun _ => exists_congr fun _ => exists_congr fun _ => by rw [hb]
        cases he with
        | barrier hd ha hm' =>
          cases m3 _ hm'
          refine .cons ⟨q2, fun w => ?_, (means_does hd ha).meaning⟩ (.cons ⟨q3, fun w => ?_, (means_does_back hd ha m1.1).meaning⟩ .nil)
          · rw [q4, rl, hc]
          · rw [q5, hE]
            refine and_congr_left' ?_
            exact exists_congr fun u => exists_congr fun v => by rw [rl, l6]
        | noBarrier hd ha h => exact absurd ⟨m, m1⟩ h
    · refine ⟨max F F', [⟨r, none⟩], fun fuel hf => ?_, ?_⟩
      · simp [Item.rules, r1 fuel (by omega), l1 fuel (by omega), hdot, Lexer.barrierRule, l2 fuel (by omega)]
      · intro es he
        cases he with
        | barrier hd ha h => exact absurd ⟨_, h⟩ m1
        | noBarrier hd ha _ => exact .cons ⟨r2.wf, rl, (means_does hd ha).meaning⟩ .nil

end Verif.LexFile
