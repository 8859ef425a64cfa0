import Verif.Clone.Model
import Verif.Clone.Spec
import Verif.Grammar.BnfProps

/-! # Lemmas about copies -/

namespace Verif.Clone

open Verif.Grammar

variable {W : World}

/-- The world with another heap. -/
abbrev on (W : World) (h : List Item) : World := { W with heap := h }

theorem node_on {h : List Item} {n : Nat} : (on W h).node n = h[n]? := rfl

theorem get_pre {g h : List Item} (hp : g <+: h) {n : Nat} {it : Item} (hn : g[n]? = some it) : h[n]? = some it := by
  obtain ⟨t, rfl⟩ := hp
  rw [List.getElem?_append_left]
  · exact hn
  · exact (List.getElem?_eq_some_iff.1 hn).1

theorem alloc_get (h : List Item) (it : Item) : (h ++ [it])[h.length]? = some it := by simp

theorem alloc_pre (h : List Item) (it : Item) : h <+: h ++ [it] := List.prefix_append _ _

/-- What `visit` makes: a copy without the conditions. -/
inductive Near (W V : World) : Nat → Nat → Prop
  | single {n it} : Single it → W.node n = some it → V.node n = some it → Near W V n n
  | nonterm {n c s} : W.node n = some (.nonterm s) → V.node c = some (.nonterm s) → W.heap.length ≤ c → Near W V n c
  | inlined {n c s} : W.node n = some (.inlined s) → V.node c = some (.inlined s) → W.heap.length ≤ c → Near W V n c
  | plus {n c i j} : W.node n = some (.plus i) → V.node c = some (.plus j) → W.heap.length ≤ c → Near W V i j → Near W V n c
  | star {n c i j} : W.node n = some (.star i) → V.node c = some (.star j) → W.heap.length ≤ c → Near W V i j → Near W V n c
  | action {n c i j} : W.node n = some (.action (some i)) → V.node c = some (.action (some j)) → W.heap.length ≤ c → Near W V i j → Near W V n c
  | alt {n c l r l' r'} : W.node n = some (.alt l r) → V.node c = some (.alt l' r') → W.heap.length ≤ c → Near W V l l' → Near W V r r' → Near W V n c
  | cons {n c l r l' r'} : W.node n = some (.cons l r) → V.node c = some (.cons l' r') → W.heap.length ≤ c → Near W V l l' → Near W V r r' → Near W V n c
  | evolve {n c i j s} : W.node n = some (.evolve i s) → V.node c = some (.evolve j s) → W.heap.length ≤ c → Near W V i j → Near W V n c
  | try0 {n c i j} : W.node n = some (.tryc i none) → V.node c = some (.tryc j none) → W.heap.length ≤ c → Near W V i j → Near W V n c
  | tryc {n c l r l' r'} : W.node n = some (.tryc l (some r)) → V.node c = some (.tryc l' (some r')) → W.heap.length ≤ c → Near W V l l' → Near W V r r' → Near W V n c
  | annot {n c i j} : W.node n = some (.annot i) → V.node c = some (.annot j) → W.heap.length ≤ c → Near W V i j → Near W V n c
  | cond {n c i} : W.node n = some (.cond i) → Near W V i c → Near W V n c

theorem Near.mono {g h : List Item} (hp : g <+: h) {n c : Nat} (hn : Near W (on W g) n c) : Near W (on W h) n c := by
  induction hn with
  | single h1 h2 h3 => exact .single h1 h2 (get_pre hp h3)
  | nonterm h1 h2 h3 => exact .nonterm h1 (get_pre hp h2) h3
  | inlined h1 h2 h3 => exact .inlined h1 (get_pre hp h2) h3
  | plus h1 h2 h3 _ ih => exact .plus h1 (get_pre hp h2) h3 ih
  | star h1 h2 h3 _ ih => exact .star h1 (get_pre hp h2) h3 ih
  | action h1 h2 h3 _ ih => exact .action h1 (get_pre hp h2) h3 ih
  | alt h1 h2 h3 _ _ ih1 ih2 => exact .alt h1 (get_pre hp h2) h3 ih1 ih2
  | cons h1 h2 h3 _ _ ih1 ih2 => exact .cons h1 (get_pre hp h2) h3 ih1 ih2
  | evolve h1 h2 h3 _ ih => exact .evolve h1 (get_pre hp h2) h3 ih
  | try0 h1 h2 h3 _ ih => exact .try0 h1 (get_pre hp h2) h3 ih
  | tryc h1 h2 h3 _ _ ih1 ih2 => exact .tryc h1 (get_pre hp h2) h3 ih1 ih2
  | annot h1 h2 h3 _ ih => exact .annot h1 (get_pre hp h2) h3 ih
  | cond h1 _ ih => exact .cond h1 ih

theorem part_on {n m : Nat} (hc : Closed W) (h : Part W n m) : m < W.heap.length := hc.part n m h

/-- One child: what `visit` does after it. -/
theorem visit_near (hc : Closed W) (f : Nat) : ∀ {h h' : List Item} {n c : Nat}, W.heap <+: h → n < W.heap.length → visit h f n = some (h', c) →
    h <+: h' ∧ Near W (on W h') n c := by
  induction f with
  | zero => intro h h' n c _ _ e; cases e
  | succ f ih =>
    intro h h' n c hp hn e
    obtain ⟨it, hit⟩ : ∃ it, W.node n = some it := ⟨_, List.getElem?_eq_getElem hn⟩
    have hg : h[n]? = some it := get_pre hp hit
    have hl : ∀ {g : List Item}, h <+: g → W.heap.length ≤ g.length := fun hq => (hp.trans hq).length_le
    have one : ∀ {i : Nat} {g : List Item} {j : Nat}, Part W n i → visit h f i = some (g, j) → h <+: g ∧ Near W (on W g) i j :=
      fun hi hv => ih hp (hc.part _ _ hi) hv
    have two : ∀ {l r : Nat} {g g' : List Item} {l' r' : Nat} (mk : Item), Part W n l → Part W n r → visit h f l = some (g, l') → visit g f r = some (g', r') →
        h <+: g' ++ [mk] ∧ W.heap.length ≤ g'.length ∧ Near W (on W (g' ++ [mk])) l l' ∧ Near W (on W (g' ++ [mk])) r r' := by
      intro l r g g' l' r' mk hl' hr' h1 h2
      obtain ⟨p1, n1⟩ := one hl' h1
      obtain ⟨p2, n2⟩ := ih (hp.trans p1) (hc.part _ _ hr') h2
      exact ⟨(p1.trans p2).trans (alloc_pre _ _), hl (p1.trans p2), n1.mono (p2.trans (alloc_pre _ _)), n2.mono (alloc_pre _ _)⟩
    have oneA : ∀ {i : Nat} {g : List Item} {j : Nat} (mk : Item), Part W n i → visit h f i = some (g, j) →
        h <+: g ++ [mk] ∧ W.heap.length ≤ g.length ∧ Near W (on W (g ++ [mk])) i j := by
      intro i g j mk hi hv
      obtain ⟨p1, n1⟩ := one hi hv
      exact ⟨p1.trans (alloc_pre _ _), hl p1, n1.mono (alloc_pre _ _)⟩
    unfold visit at e
    rw [hg] at e
    cases it with
    | zero => cases e; exact ⟨List.prefix_refl _, .single .zero hit hg⟩
    | sym => cases e; exact ⟨List.prefix_refl _, .single .sym hit hg⟩
    | term => cases e; exact ⟨List.prefix_refl _, .single .term hit hg⟩
    | op o => cases e; exact ⟨List.prefix_refl _, .single (.op o) hit hg⟩
    | nonterm s => cases e; exact ⟨alloc_pre _ _, .nonterm hit (alloc_get _ _) (hl (List.prefix_refl _))⟩
    | inlined s => cases e; exact ⟨alloc_pre _ _, .inlined hit (alloc_get _ _) (hl (List.prefix_refl _))⟩
    | plus i =>
      simp only [Option.bind_eq_bind, Option.bind_eq_some_iff, Option.pure_def, Option.some.injEq, Prod.exists] at e
      obtain ⟨g, j, h1, h2⟩ := e
      obtain ⟨p, q, r⟩ := oneA (.plus j) (.plus hit) h1
      cases h2; exact ⟨p, .plus hit (alloc_get _ _) q r⟩
    | star i =>
      simp only [Option.bind_eq_bind, Option.bind_eq_some_iff, Option.pure_def, Option.some.injEq, Prod.exists] at e
      obtain ⟨g, j, h1, h2⟩ := e
      obtain ⟨p, q, r⟩ := oneA (.star j) (.star hit) h1
      cases h2; exact ⟨p, .star hit (alloc_get _ _) q r⟩
    | action i =>
      cases i with
      | none => cases e
      | some i =>
        simp only [Option.bind_eq_bind, Option.bind_eq_some_iff, Option.pure_def, Option.some.injEq, Prod.exists] at e
        obtain ⟨g, j, h1, h2⟩ := e
        obtain ⟨p, q, r⟩ := oneA (.action (some j)) (.action hit) h1
        cases h2; exact ⟨p, .action hit (alloc_get _ _) q r⟩
    | alt l r =>
      simp only [Option.bind_eq_bind, Option.bind_eq_some_iff, Option.pure_def, Option.some.injEq, Prod.exists] at e
      obtain ⟨g, l', h1, g', r', h2, h3⟩ := e
      obtain ⟨p, q, r1, r2⟩ := two (.alt l' r') (.altL hit) (.altR hit) h1 h2
      cases h3; exact ⟨p, .alt hit (alloc_get _ _) q r1 r2⟩
    | cons l r =>
      simp only [Option.bind_eq_bind, Option.bind_eq_some_iff, Option.pure_def, Option.some.injEq, Prod.exists] at e
      obtain ⟨g, l', h1, g', r', h2, h3⟩ := e
      obtain ⟨p, q, r1, r2⟩ := two (.cons l' r') (.consL hit) (.consR hit) h1 h2
      cases h3; exact ⟨p, .cons hit (alloc_get _ _) q r1 r2⟩
    | evolve i s =>
      simp only [Option.bind_eq_bind, Option.bind_eq_some_iff, Option.pure_def, Option.some.injEq, Prod.exists] at e
      obtain ⟨g, j, h1, h2⟩ := e
      obtain ⟨p, q, r⟩ := oneA (.evolve j s) (.evolve hit) h1
      cases h2; exact ⟨p, .evolve hit (alloc_get _ _) q r⟩
    | tryc l r =>
      cases r with
      | none =>
        simp only [Option.bind_eq_bind, Option.bind_eq_some_iff, Option.pure_def, Option.some.injEq, Prod.exists] at e
        obtain ⟨g, j, h1, h2⟩ := e
        obtain ⟨p, q, r⟩ := oneA (.tryc j none) (.tryL hit) h1
        cases h2; exact ⟨p, .try0 hit (alloc_get _ _) q r⟩
      | some r =>
        simp only [Option.bind_eq_bind, Option.bind_eq_some_iff, Option.pure_def, Option.some.injEq, Prod.exists] at e
        obtain ⟨g, l', h1, g', r', h2, h3⟩ := e
        obtain ⟨p, q, r1, r2⟩ := two (.tryc l' (some r')) (.tryL hit) (.tryR hit) h1 h2
        cases h3; exact ⟨p, .tryc hit (alloc_get _ _) q r1 r2⟩
    | annot i =>
      simp only [Option.bind_eq_bind, Option.bind_eq_some_iff, Option.pure_def, Option.some.injEq, Prod.exists] at e
      obtain ⟨g, j, h1, h2⟩ := e
      obtain ⟨p, q, r⟩ := oneA (.annot j) (.annot hit) h1
      cases h2; exact ⟨p, .annot hit (alloc_get _ _) q r⟩
    | cond i =>
      obtain ⟨p, r⟩ := one (.cond hit) e
      exact ⟨p, .cond hit r⟩

theorem In.trans {n m k : Nat} (h : In W n m) (h' : In W m k) : In W n k := by
  induction h' with
  | self => exact h
  | part _ h2 ih => exact .part ih h2

theorem In.head {n m k : Nat} (h : Part W n m) (h' : In W m k) : In W n k := In.trans (.part .self h) h'

theorem Near.copy {V : World} {n c : Nat} (h : Near W V n c) (hc : ¬ Conditional W n) : Copy W V n c := by
  have sub : ∀ {n i}, ¬ Conditional W n → Part W n i → ¬ Conditional W i := fun hn hp ⟨m, j, h1, h2⟩ => hn ⟨m, j, .head hp h1, h2⟩
  induction h with
  | single h1 h2 h3 => exact .single h1 h2 h3
  | nonterm h1 h2 h3 => exact .nonterm h1 h2 h3
  | inlined h1 h2 h3 => exact .inlined h1 h2 h3
  | plus h1 h2 h3 _ ih => exact .plus h1 h2 h3 (ih (sub hc (.plus h1)))
  | star h1 h2 h3 _ ih => exact .star h1 h2 h3 (ih (sub hc (.star h1)))
  | action h1 h2 h3 _ ih => exact .action h1 h2 h3 (ih (sub hc (.action h1)))
  | alt h1 h2 h3 _ _ ih1 ih2 => exact .alt h1 h2 h3 (ih1 (sub hc (.altL h1))) (ih2 (sub hc (.altR h1)))
  | cons h1 h2 h3 _ _ ih1 ih2 => exact .cons h1 h2 h3 (ih1 (sub hc (.consL h1))) (ih2 (sub hc (.consR h1)))
  | evolve h1 h2 h3 _ ih => exact .evolve h1 h2 h3 (ih (sub hc (.evolve h1)))
  | try0 h1 h2 h3 _ ih => exact .try0 h1 h2 h3 (ih (sub hc (.tryL h1)))
  | tryc h1 h2 h3 _ _ ih1 ih2 => exact .tryc h1 h2 h3 (ih1 (sub hc (.tryL h1))) (ih2 (sub hc (.tryR h1)))
  | annot h1 h2 h3 _ ih => exact .annot h1 h2 h3 (ih (sub hc (.annot h1)))
  | cond h1 _ _ => exact absurd ⟨_, _, .self, h1⟩ hc

end Verif.Clone
