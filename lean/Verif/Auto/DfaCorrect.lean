import Verif.Auto.DfaLemmas
import Verif.Auto.DfaSpec

set_option linter.unusedSectionVars false

/-! # Correctness of `dfa` -/

namespace Verif.Auto

variable {C : Type} [CharSetLike C]

/-- The hash set is traversed in some order: every element once. -/
def Enumerates (order : List Bits → List Bits) : Prop := ∀ l, (order l).Nodup ∧ ∀ x, x ∈ order l ↔ x ∈ l

theorem Run.snoc {rs : Rules C} {i k : Nat} {w : List Nat} {y : Nat} :
    Run rs i (w ++ [y]) k ↔ ∃ p c j, Run rs i w p ∧ HasEdge rs p c j ∧ CharSetLike.isEps c = false ∧
      CharSetLike.accepts c y = true ∧ Run rs j [] k := by
  constructor
  · intro h
    generalize hw : w ++ [y] = v at h
    induction h generalizing w with
    | nil => simp at hw
    | eps e he _ ih =>
      obtain ⟨p, c, j, h1, h2⟩ := ih hw
      exact ⟨p, c, j, .eps e he h1, h2⟩
    | @chr i c j x v k e he ha hr ih =>
      cases w with
      | nil =>
        simp at hw
        obtain ⟨rfl, rfl⟩ := hw
        exact ⟨i, c, j, .nil, e, he, ha, hr⟩
      | cons z w =>
        simp at hw
        obtain ⟨rfl, hw⟩ := hw
        obtain ⟨p, c', j', h1, h2⟩ := ih hw
        exact ⟨p, c', j', .chr e he ha h1, h2⟩
  · rintro ⟨p, c, j, h1, e, he, ha, h2⟩
    exact h1.trans (.chr e he ha h2)

/-- Without epsilon transitions an empty run stays. -/
theorem run_nil_noEps {rs : Rules C} (h : ∀ i c j, HasEdge rs i c j → CharSetLike.isEps c = false) {i k : Nat}
    (hr : Run rs i [] k) : i = k :=
  run_nil_closed (P := fun k => i = k) (fun p c j hp e he => by rw [h p c j e] at he; cases he) hr rfl

theorem actionOf_zero {n : NFA C} {x : Bits} : n.actionOf x = 0 ↔ ∀ k, n.accept + k < n.nstates → ¬ B x (n.accept + k) := by
  unfold NFA.actionOf
  split
  · rename_i k hk
    have h1 := List.find?_some hk
    have h2 := List.mem_of_find?_eq_some hk
    simp at h1 h2
    simp only [Nat.add_eq_zero_iff, Nat.succ_ne_self, and_false, false_iff]
    intro h; exact absurd h1 (h k (by omega))
  · rename_i hk
    simp only [List.find?_eq_none, List.mem_range, beq_iff_eq] at hk
    simp only [true_iff]
    intro k hlt; exact hk k (by omega)

theorem actionOf_succ {n : NFA C} {x : Bits} (k : Nat) : n.actionOf x = k + 1 ↔
    (n.accept + k < n.nstates ∧ B x (n.accept + k)) ∧ ∀ k' < k, ¬ B x (n.accept + k') := by
  unfold NFA.actionOf
  split
  · rename_i j hj
    have h1 := List.find?_some hj
    have h2 := List.mem_of_find?_eq_some hj
    simp at h1 h2
    have h3 : ∀ k' < j, ¬ B x (n.accept + k') := by
      intro k' hk'
      rw [List.find?_range_eq_some] at hj
      have := hj.2.2 k' hk'
      unfold B; simpa using this
    simp only [Nat.add_right_cancel_iff]
    constructor
    · rintro rfl; exact ⟨⟨by omega, h1⟩, h3⟩
    · rintro ⟨⟨_, hb⟩, hk⟩
      rcases Nat.lt_trichotomy j k with hlt | rfl | hgt
      · exact absurd h1 (hk j hlt)
      · rfl
      · exact absurd hb (h3 k hgt)
  · rename_i hk
    simp only [List.find?_eq_none, List.mem_range, beq_iff_eq] at hk
    constructor
    · intro h; cases h
    · rintro ⟨⟨h1, h2⟩, _⟩; exact absurd h2 (hk k (by omega))

/-- Everything about `dfa()`: its states are sets of states. -/
structure DfaSpec (n : NFA C) (d : DFA C) : Prop where
  sets : ∃ st : Bits → Nat → Prop,
    (∀ x q, st x q → x.length = n.nstates ∧ q < d.nstates) ∧
    (∀ x y q, st x q → st y q → x = y) ∧ (∀ x p q, st x p → st x q → p = q) ∧
    (∀ q, q < d.nstates → ∃ x, st x q) ∧
    (∃ s, st s 0 ∧ ∀ k, B s k ↔ Run n.rules 0 [] k) ∧
    (∀ x q, st x q → ∃ t, SuccSpec n x t ∧ (∀ e ∈ t, ∃ q', st e.2 q') ∧
      ∀ c j, HasEdge d.rules q c j ↔ ∃ y, (c, y) ∈ t ∧ st y j) ∧
    (∀ x q, st x q → d.accept[q]? = some (n.actionOf x))
  nrules : d.rules.length = d.nstates
  naccept : d.accept.length = d.nstates
  nactions : d.numActions = n.nstates - n.accept

theorem dfa_spec {n : NFA C} (hn : n.WfM) (order : List Bits → List Bits) (ho : Enumerates order) :
    ∃ F d, (∀ fuel, F ≤ fuel → n.dfa order fuel = some d) ∧ DfaSpec n d := by
  obtain ⟨s0, e0, l0, b0⟩ := single_spec hn.start
  obtain ⟨start, e1, l1, b1⟩ := closure_spec hn l0
  obtain ⟨F, log, hF, hI, hsub⟩ := dfaLoop_spec hn [] [start] ⟨by simp, by simpa using l1, by simp⟩
  have hstart : start ∈ keys log := hsub start (Or.inr (by simp))
  obtain ⟨hnd, hmem⟩ := ho (keys log)
  have hso : start ∈ order (keys log) := (hmem start).mpr hstart
  obtain ⟨first, hfirst⟩ : ∃ first, (order (keys log)).head? = some first := by
    cases h : order (keys log) with
    | nil => rw [h] at hso; cases hso
    | cons a l => exact ⟨a, rfl⟩
  obtain ⟨n1, n2, n3, n4⟩ := number_spec hnd hso hfirst
  generalize hst : numberLoop start first (order (keys log)) 0 (fun _ => none) = st at n1 n2 n3 n4
  -- the key of a number
  have hkey : ∀ k, k < (order (keys log)).length → ∃ x, x ∈ order (keys log) ∧ st x = some k ∧
      ((order (keys log)).find? fun x => st x == some k) = some x := by
    intro k hk
    obtain ⟨x, hx, hxk⟩ := n3 k hk
    cases hf : (order (keys log)).find? fun x => st x == some k with
    | none =>
      rw [List.find?_eq_none] at hf
      exact absurd (by simp [hxk]) (hf x hx)
    | some y =>
      have h1 := List.find?_some hf
      have h2 := List.mem_of_find?_eq_some hf
      simp at h1
      exact ⟨y, h2, h1, rfl⟩
  -- the transitions of a processed set
  have hlog : ∀ x, x ∈ keys log → ∃ t, n.succs x = some t ∧ SuccSpec n x t ∧ x.length = n.nstates ∧
      (∀ e ∈ t, e.2 ∈ keys log) ∧ ∀ e, e ∈ ((log.filter fun e => e.1 == x).map (·.2)).flatten ↔ e ∈ t := by
    intro x hx
    obtain ⟨⟨x', t⟩, hm, hxe⟩ := List.mem_map.mp hx
    simp only at hxe; subst hxe
    obtain ⟨hl, hs⟩ := hI.entry _ _ hm
    obtain ⟨t', ht', hts⟩ := succs_spec hn hl
    rw [hs] at ht'; cases ht'
    refine ⟨t, hs, hts, hl, fun e he => ?_, fun e => ?_⟩
    · rcases hI.succ _ _ hm e he with h | ⟨A, D, h, _⟩
      · exact h
      · simp at h
    · simp only [List.mem_flatten, List.mem_map, List.mem_filter, beq_iff_eq]
      constructor
      · rintro ⟨t1, ⟨⟨x1, t2⟩, ⟨hm1, rfl⟩, rfl⟩, he⟩
        have := (hI.entry _ _ hm1).2
        simp only at this he
        rw [hs] at this; cases this; exact he
      · intro he; exact ⟨t, ⟨(x', t), ⟨hm, rfl⟩, rfl⟩, he⟩
  -- the rules
  let ruleF : Nat → Option (List (C × Nat)) := fun k => do
    let x ← (order (keys log)).find? fun x => st x == some k
    ((log.filter fun e => e.1 == x).map (·.2)).flatten.mapM fun e => do return (e.1, ← st e.2)
  have hrule : ∀ k, k < (order (keys log)).length → ∃ x t es, x ∈ order (keys log) ∧ st x = some k ∧ n.succs x = some t ∧ SuccSpec n x t ∧
      x.length = n.nstates ∧ (∀ e ∈ t, e.2 ∈ keys log) ∧ ruleF k = some es ∧ ∀ c j, (c, j) ∈ es ↔ ∃ y, (c, y) ∈ t ∧ st y = some j := by
    intro k hk
    obtain ⟨x, hx, hxk, hf⟩ := hkey k hk
    obtain ⟨t, g1, g2, g3, g4, g5⟩ := hlog x ((hmem x).mp hx)
    obtain ⟨es, h1, h2, h3⟩ := mapM_some (fun e : C × Bits => do return (e.1, ← st e.2))
      ((log.filter fun e => e.1 == x).map (·.2)).flatten (by
      intro e he
      have := g4 e ((g5 e).mp he)
      obtain ⟨k, _, hk⟩ := n2 e.2 ((hmem _).mpr this)
      exact ⟨(e.1, k), by simp [hk]⟩)
    refine ⟨x, t, es, hx, hxk, g1, g2, g3, g4, by simp only [ruleF, hf]; exact h1, fun c j => ?_⟩
    rw [mapM_mem h3]
    constructor
    · rintro ⟨⟨c', y⟩, he, hf⟩
      rw [g5] at he
      obtain ⟨k, _, hk⟩ := n2 y ((hmem _).mpr (g4 _ he))
      simp [hk] at hf
      obtain ⟨rfl, rfl⟩ := hf
      exact ⟨y, he, hk⟩
    · rintro ⟨y, he, hy⟩
      exact ⟨(c, y), (g5 _).mpr he, by simp [hy]⟩
  obtain ⟨rules, r1, r2, r3⟩ := mapM_some ruleF (List.range (order (keys log)).length) (by
    intro k hk
    obtain ⟨_, _, es, _, _, _, _, _, _, h, _⟩ := hrule k (by simpa using hk)
    exact ⟨es, h⟩)
  let accF : Nat → Option Nat := fun k => do return n.actionOf (← (order (keys log)).find? fun x => st x == some k)
  obtain ⟨acc, a1, a2, a3⟩ := mapM_some accF (List.range (order (keys log)).length) (by
    intro k hk
    obtain ⟨x, _, _, h⟩ := hkey k (by simpa using hk)
    exact ⟨n.actionOf x, by simp [accF, h]⟩)
  refine ⟨F, ⟨(order (keys log)).length, rules, n.nstates - n.accept, acc⟩, fun fuel hf => ?_, ?_, by simpa using r2,
    by simpa using a2, rfl⟩
  · simp only [NFA.dfa, e0, e1, hF fuel hf, hfirst, Option.bind_eq_bind, Option.bind_some]
    rw [hst]
    have r1' := r1
    have a1' := a1
    simp only [ruleF, accF, Option.bind_eq_bind] at r1' a1'
    rw [r1', Option.bind_some, a1', Option.bind_some]
    rfl
  · refine ⟨fun x q => x ∈ order (keys log) ∧ st x = some q, ?_, ?_, ?_, ?_, ?_, ?_, ?_⟩
    · rintro x q ⟨hx, hq⟩
      obtain ⟨k, hk, hk'⟩ := n2 x hx
      rw [hq] at hk'; cases hk'
      obtain ⟨_, _, _, h, _⟩ := hlog x ((hmem x).mp hx)
      exact ⟨h, hk⟩
    · rintro x y q ⟨hx, hxq⟩ ⟨hy, hyq⟩; exact n4 x y q hx hy hxq hyq
    · rintro x p q ⟨_, hp⟩ ⟨_, hq⟩; rw [hp] at hq; cases hq; rfl
    · intro q hq
      obtain ⟨x, hx, hxq⟩ := n3 q hq
      exact ⟨x, hx, hxq⟩
    · refine ⟨start, ⟨hso, n1⟩, fun k => ?_⟩
      rw [b1]
      constructor
      · rintro ⟨j, hj, hr⟩; rw [b0] at hj; subst hj; exact hr
      · intro hr; exact ⟨0, (b0 0).mpr rfl, hr⟩
    · rintro x q ⟨hx, hxq⟩
      obtain ⟨k, hk, hk'⟩ := n2 x hx
      rw [hxq] at hk'; cases hk'
      obtain ⟨x', t, es, hx', hxk', g1, g2, g3, g4, g5, g6⟩ := hrule q hk
      have := n4 x x' q hx hx' hxq hxk'
      subst this
      refine ⟨t, g2, fun e he => ?_, fun c j => ?_⟩
      · obtain ⟨q', _, hq'⟩ := n2 e.2 ((hmem _).mpr (g4 e he))
        exact ⟨q', (hmem _).mpr (g4 e he), hq'⟩
      · have hr : rules[q]? = some es := (r3 q es).mpr ⟨q, by simp [hk], g5⟩
        constructor
        · rintro ⟨es', he', hm⟩
          simp only at he'
          rw [hr] at he'; cases he'
          obtain ⟨y, hy, hj⟩ := (g6 c j).mp hm
          exact ⟨y, hy, (hmem _).mpr (g4 _ hy), hj⟩
        · rintro ⟨y, hy, _, hj⟩
          exact ⟨es, hr, (g6 c j).mpr ⟨y, hy, hj⟩⟩
    · rintro x q ⟨hx, hxq⟩
      obtain ⟨k, hk, hk'⟩ := n2 x hx
      rw [hxq] at hk'; cases hk'
      obtain ⟨x', hx', hxk', hf⟩ := hkey q hk
      have := n4 x x' q hx hx' hxq hxk'
      subst this
      exact (a3 q _).mpr ⟨q, by simp [hk], by simp [accF, hf]⟩

theorem DfaSpec.wf {n : NFA C} {d : DFA C} (h : DfaSpec n d) : d.Wf := by
  obtain ⟨st, s1, s2, s3, s4, s5, s6, s7⟩ := h.sets
  have src : ∀ i c j, HasEdge d.rules i c j → ∃ x, st x i := by
    intro i c j he
    have := he.lt
    rw [h.nrules] at this
    exact s4 i this
  refine ⟨h.nrules, h.naccept, ?_, ?_, ?_, ?_⟩
  · intro i c j he
    obtain ⟨x, hx⟩ := src i c j he
    obtain ⟨t, _, _, ht⟩ := s6 x i hx
    obtain ⟨y, _, hy⟩ := (ht c j).mp he
    exact (s1 y j hy).2
  · intro i c j he
    obtain ⟨x, hx⟩ := src i c j he
    obtain ⟨t, hs, _, ht⟩ := s6 x i hx
    obtain ⟨y, hy, _⟩ := (ht c j).mp he
    exact hs.noEps _ hy
  · intro i c j c' j' z he he' hz hz'
    obtain ⟨x, hx⟩ := src i c j he
    obtain ⟨t, hs, _, ht⟩ := s6 x i hx
    obtain ⟨y, hy, hj⟩ := (ht c j).mp he
    obtain ⟨y', hy', hj'⟩ := (ht c' j').mp he'
    obtain ⟨p, hp⟩ := List.mem_iff_getElem?.mp hy
    obtain ⟨q, hq⟩ := List.mem_iff_getElem?.mp hy'
    have hpq : p = q := Classical.byContradiction fun hne => hs.disjoint p q _ _ hp hq hne z ⟨hz, hz'⟩
    subst hpq
    rw [hp] at hq
    simp at hq
    rw [hq.2] at hj
    exact s3 _ _ _ hj hj'
  · intro a ha
    obtain ⟨q, hq⟩ := List.mem_iff_getElem?.mp ha
    have hlt := (List.getElem?_eq_some_iff.mp hq).1
    rw [h.naccept] at hlt
    obtain ⟨x, hx⟩ := s4 q hlt
    rw [s7 x q hx] at hq
    cases hq
    rw [h.nactions]
    cases ha : n.actionOf x with
    | zero => omega
    | succ k => rw [actionOf_succ] at ha; omega

/-- A run of the deterministic automaton computes the set of states reached. -/
theorem DfaSpec.run {n : NFA C} {d : DFA C} (h : DfaSpec n d) {st : Bits → Nat → Prop}
    (s5 : ∃ s, st s 0 ∧ ∀ k, B s k ↔ Run n.rules 0 [] k)
    (s6 : ∀ x q, st x q → ∃ t, SuccSpec n x t ∧ (∀ e ∈ t, ∃ q', st e.2 q') ∧
      ∀ c j, HasEdge d.rules q c j ↔ ∃ y, (c, y) ∈ t ∧ st y j) (w : List Nat) :
    (∀ q, Run d.rules 0 w q → ∃ x, st x q ∧ ∀ k, B x k ↔ Run n.rules 0 w k) ∧
    (∀ k, Run n.rules 0 w k → ∃ q, Run d.rules 0 w q) := by
  have hwf := h.wf
  -- induction on the length, taking the last character
  induction hlen : w.length generalizing w with
  | zero =>
    have : w = [] := List.length_eq_zero_iff.mp hlen
    subst this
    refine ⟨fun q hq => ?_, fun k _ => ⟨0, .nil⟩⟩
    have := run_nil_noEps hwf.noEps hq
    subst this
    exact s5
  | succ m ih =>
    obtain ⟨v, y, rfl⟩ : ∃ v y, w = v ++ [y] := by
      rcases List.eq_nil_or_concat w with rfl | ⟨v, y, h⟩
      · simp at hlen
      · exact ⟨v, y, by simpa using h⟩
    obtain ⟨ih1, ih2⟩ := ih v (by simpa using hlen)
    constructor
    · intro q hq
      obtain ⟨p, c, j, h1, e, he, ha, h2⟩ := Run.snoc.mp hq
      have := run_nil_noEps hwf.noEps h2
      subst this
      obtain ⟨x, hx, hxB⟩ := ih1 p h1
      obtain ⟨t, hs, _, ht⟩ := s6 x p hx
      obtain ⟨z, hz, hzj⟩ := (ht c j).mp e
      refine ⟨z, hzj, fun k => ?_⟩
      rw [hs.target _ hz y ha, Run.snoc]
      constructor
      · rintro ⟨i, c', j', hi, r⟩; exact ⟨i, c', j', (hxB i).mp hi, r⟩
      · rintro ⟨i, c', j', hi, r⟩; exact ⟨i, c', j', (hxB i).mpr hi, r⟩
    · intro k hk
      obtain ⟨p, c, j, h1, e, he, ha, h2⟩ := Run.snoc.mp hk
      obtain ⟨q, hq⟩ := ih2 p h1
      obtain ⟨x, hx, hxB⟩ := ih1 q hq
      obtain ⟨t, hs, hin, ht⟩ := s6 x q hx
      obtain ⟨e', he', hy⟩ := hs.complete y p c j ((hxB p).mpr h1) e he ha
      obtain ⟨q', hq'⟩ := hin e' he'
      exact ⟨q', Run.snoc.mpr ⟨q, e'.1, q', hq, (ht _ _).mpr ⟨e'.2, he', hq'⟩, hs.noEps e' he', hy, .nil⟩⟩

theorem DfaSpec.ends {n : NFA C} {d : DFA C} (h : DfaSpec n d) (w : List Nat) (k : Nat) :
    d.Ends w (k + 1) ↔ n.LangAt k w ∧ ∀ k' < k, ¬ n.LangAt k' w := by
  obtain ⟨st, s1, s2, s3, s4, s5, s6, s7⟩ := h.sets
  obtain ⟨r1, r2⟩ := h.run s5 s6 w
  constructor
  · rintro ⟨q, hq, ha⟩
    obtain ⟨x, hx, hB⟩ := r1 q hq
    rw [s7 x q hx] at ha
    simp only [Option.some.injEq] at ha
    obtain ⟨⟨h1, h2⟩, h3⟩ := (actionOf_succ k).mp ha
    refine ⟨⟨h1, (hB _).mp h2⟩, fun k' hk' hl => h3 k' hk' ((hB _).mpr hl.2)⟩
  · rintro ⟨⟨h1, h2⟩, h3⟩
    obtain ⟨q, hq⟩ := r2 _ h2
    obtain ⟨x, hx, hB⟩ := r1 q hq
    refine ⟨q, hq, ?_⟩
    rw [s7 x q hx, (actionOf_succ k).mpr ⟨⟨h1, (hB _).mpr h2⟩, fun k' hk' hb => h3 k' hk' ⟨by omega, (hB _).mp hb⟩⟩]

theorem DfaSpec.lang {n : NFA C} {d : DFA C} (h : DfaSpec n d) (w : List Nat) : d.Lang w ↔ n.Lang w := by
  constructor
  · rintro ⟨a, ha, he⟩
    obtain ⟨k, rfl⟩ : ∃ k, a = k + 1 := ⟨a - 1, by omega⟩
    exact ⟨k, ((h.ends w k).mp he).1⟩
  · rintro ⟨k, hk⟩
    -- the least accepting state reached
    induction k using Nat.strongRecOn with
    | _ k ih =>
      by_cases hex : ∃ k' < k, n.LangAt k' w
      · obtain ⟨k', hlt, hk'⟩ := hex; exact ih k' hlt hk'
      · exact ⟨k + 1, by omega, (h.ends w k).mpr ⟨hk, fun k' hlt hl => hex ⟨k', hlt, hl⟩⟩⟩

end Verif.Auto
