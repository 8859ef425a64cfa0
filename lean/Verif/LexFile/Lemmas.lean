import Verif.LexFile.Model
import Verif.LexFile.Spec
import Verif.Read.Props
import Verif.LexSyn.Props

set_option linter.unusedSectionVars false

/-!
# Lemmas on the lexer of a file
-/

namespace Verif.LexFile

open Verif.Auto Verif.LexSyn Verif.Read

variable {C : Type} [CharSetLike C]

/-! ### The automaton of a rule set -/

/-- Combining, determinising and minimising usable rules. -/
theorem rules_dfa (l : List (NFA C)) (hwf : ∀ n ∈ l, n.Wf) (hne : l ≠ [])
    (huse : ∀ r, r < l.length → ∃ w, (∃ n, l[r]? = some n ∧ n.Lang w) ∧ ∀ r' < r, ∀ n, l[r']? = some n → ¬ n.Lang w)
    (hrej : ∃ u v, (∀ n ∈ l, ¬ n.Lang u) ∧ ∃ n ∈ l, n.Lang (u ++ v))
    (order : List Bits → List Bits) (ho : Enumerates order) :
    ∃ F m, (∀ fuel, F ≤ fuel → ∃ c d, NFA.ofList l = some c ∧ c.dfa order fuel = some d ∧ d.minimize fuel = some m) ∧ m.Wf ∧ 0 < m.nstates ∧ OnePer m.rules ∧
      m.numActions = l.length ∧
      (∀ w k, m.Acts w (k + 1) ↔ (∃ n, l[k]? = some n ∧ n.Lang w) ∧ ∀ k' < k, ∀ n, l[k']? = some n → ¬ n.Lang w) ∧ ∀ w, m.Lang w ↔ ∃ n ∈ l, n.Lang w := by
  obtain ⟨c, F, d, h1, h2, h3, h4, h5, h6⟩ := C17_first_rule_wins l hwf hne order ho
  have hd0 : 0 < d.nstates := by
    obtain ⟨w, hw, hfst⟩ := huse 0 (List.length_pos_iff.mpr hne)
    obtain ⟨_, q, _, hq⟩ := (h5 w 0).mpr ⟨hw, hfst⟩
    have := (List.getElem?_eq_some_iff.mp hq).1
    rw [h3.accept] at this; omega
  have hall : ∀ a ≤ d.numActions, ∃ w v b, d.Ends w a ∧ b ≠ 0 ∧ d.Ends (w ++ v) b := by
    intro a ha
    rcases Nat.eq_zero_or_pos a with rfl | hpos
    · obtain ⟨u, v, hu, hv⟩ := hrej
      obtain ⟨b, hb, hE⟩ := (h6 (u ++ v)).mpr hv
      obtain ⟨q, hq, hqa⟩ := hE
      obtain ⟨p, hp1, hp2⟩ := hq.split
      have hlt := h3.run_lt hp1 hd0
      have hg : d.accept[p]? = some (d.accept[p]'(by rw [h3.accept]; exact hlt)) := List.getElem?_eq_getElem _
      refine ⟨u, v, b, ⟨p, hp1, ?_⟩, hb, ⟨q, hq, hqa⟩⟩
      rw [hg]
      congr 1
      refine Classical.byContradiction fun hne0 => ?_
      obtain ⟨n, hn, hl⟩ := (h6 u).mp ⟨_, hne0, p, hp1, hg⟩
      exact hu n hn hl
    · obtain ⟨r, rfl⟩ : ∃ r, a = r + 1 := ⟨a - 1, by omega⟩
      obtain ⟨w, hw, hfst⟩ := huse r (by omega)
      have := (h5 w r).mpr ⟨hw, hfst⟩
      exact ⟨w, [], r + 1, this.2, by omega, by rw [List.append_nil]; exact this.2⟩
  obtain ⟨F', m, g1, g2, g3, g4, g5, g6⟩ := C19_minimize_partial h3 hd0 hall
  have hlang : ∀ w, m.Lang w ↔ ∃ n ∈ l, n.Lang w := by
    intro w
    rw [← h6]
    exact exists_congr fun a => g6 w a
  have hm0 : 0 < m.nstates := by
    obtain ⟨u, v, _, n, hn, hl⟩ := hrej
    obtain ⟨a, _, q, _, hq⟩ := (hlang (u ++ v)).mpr ⟨n, hn, hl⟩
    have := (List.getElem?_eq_some_iff.mp hq).1
    rw [g2.accept] at this; omega
  exact ⟨max F F', m, fun fuel hf => ⟨c, d, h1, h2 fuel (by omega), g1 fuel (by omega)⟩, g2, hm0, g5, by rw [g3, h4], fun w k => (g6 w _).trans (h5 w k), hlang⟩

/-- Automata that match the words of rules, in order. -/
abbrev Matching (l : List (NFA C)) (es : Spec.Rules) : Prop := List.Forall₂ (fun n e => n.Wf ∧ ∀ w, n.Lang w ↔ e.1 w) l es

theorem Matching.get {l : List (NFA C)} {es : Spec.Rules} (h : Matching l es) : ∀ i : Nat, (∀ n, l[i]? = some n → ∃ e, es[i]? = some e ∧ ∀ w, n.Lang w ↔ e.1 w) ∧
    ∀ e, es[i]? = some e → ∃ n, l[i]? = some n ∧ ∀ w, n.Lang w ↔ e.1 w := by
  induction h with
  | nil => intro i; simp
  | cons h _ ih =>
    intro i
    cases i with
    | zero =>
      constructor
      · intro n hn; simp only [List.getElem?_cons_zero, Option.some.injEq] at hn; subst hn; exact ⟨_, rfl, h.2⟩
      · intro e he; simp only [List.getElem?_cons_zero, Option.some.injEq] at he; subst he; exact ⟨_, rfl, h.2⟩
    | succ i => simpa using ih i

/-- The automaton of a rule set, in terms of the rules. -/
structure Right (es : Spec.Rules) (m : DFA C) : Prop where
  wf : m.Wf
  pos : 0 < m.nstates
  one : OnePer m.rules
  num : m.numActions = es.length
  acts : ∀ w (k : Nat), m.Acts w (k + 1) ↔ (∃ e, es[k]? = some e ∧ e.1 w) ∧ ∀ j < k, ∀ e, es[j]? = some e → ¬ e.1 w
  lang : ∀ w, m.Lang w ↔ ∃ e ∈ es, e.1 w

theorem automaton_right (order : List Bits → List Bits) (ho : Enumerates order) {l : List (NFA C)} {es : Spec.Rules} (h : Matching l es) (hu : Spec.Usable es)
    {actions : List Text} (ha : actions.length = l.length + 1) :
    ∃ F m, (∀ fuel, F ≤ fuel → automaton order fuel l actions = some m) ∧ Right es m := by
  have hlen : l.length = es.length := h.length_eq
  have all : ∀ {P : Lang → Prop}, (∀ L L' : Lang, (∀ w, L w ↔ L' w) → P L → P L') → ((∃ n ∈ l, P n.Lang) ↔ ∃ e ∈ es, P e.1) := by
    intro P hP
    constructor
    · rintro ⟨n, hn, hp⟩
      obtain ⟨i, hi⟩ := List.mem_iff_getElem?.1 hn
      obtain ⟨e, he, hl⟩ := (h.get i).1 n hi
      exact ⟨e, List.mem_of_getElem? he, hP _ _ hl hp⟩
    · rintro ⟨e, he, hp⟩
      obtain ⟨i, hi⟩ := List.mem_iff_getElem?.1 he
      obtain ⟨n, hn, hl⟩ := (h.get i).2 e hi
      exact ⟨n, List.mem_of_getElem? hn, hP _ _ (fun w => (hl w).symm) hp⟩
  have mem : ∀ w, (∃ n ∈ l, n.Lang w) ↔ ∃ e ∈ es, e.1 w := fun w => all (P := fun L => L w) fun L L' h => (h w).1
  have one : ∀ w (k : Nat), (∃ n, l[k]? = some n ∧ n.Lang w) ↔ ∃ e, es[k]? = some e ∧ e.1 w := by
    intro w k
    constructor
    · rintro ⟨n, hn, hw⟩
      obtain ⟨e, he, hl⟩ := (h.get k).1 n hn
      exact ⟨e, he, (hl w).1 hw⟩
    · rintro ⟨e, he, hw⟩
      obtain ⟨n, hn, hl⟩ := (h.get k).2 e he
      exact ⟨n, hn, (hl w).2 hw⟩
  have first : ∀ w (k : Nat), (∀ j < k, ∀ n, l[j]? = some n → ¬ n.Lang w) ↔ ∀ j < k, ∀ e, es[j]? = some e → ¬ e.1 w := by
    intro w k
    constructor
    · intro h1 j hj e he hw
      obtain ⟨n, hn, hw⟩ := (one w j).2 ⟨e, he, hw⟩
      exact h1 j hj n hn hw
    · intro h1 j hj n hn hw
      obtain ⟨e, he, hw⟩ := (one w j).1 ⟨n, hn, hw⟩
      exact h1 j hj e he hw
  have hwf : ∀ n ∈ l, n.Wf := by
    intro n hn
    clear hu ha hlen all mem one first
    induction h with
    | nil => cases hn
    | cons h _ ih =>
      rcases List.mem_cons.1 hn with rfl | hn
      · exact h.1
      · exact ih hn
  obtain ⟨F, m, h1, h2, h3, h4, h5, h6, h7⟩ := rules_dfa l hwf (by
      intro e; subst e; cases h; exact hu.ne rfl) (by
      intro r hr
      have hr' : r < es.length := by omega
      obtain ⟨w, hw, hf⟩ := hu.use r es[r] (List.getElem?_eq_getElem hr')
      exact ⟨w, (one w r).2 ⟨_, List.getElem?_eq_getElem hr', hw⟩, (first w r).2 hf⟩) (by
      obtain ⟨u, v, h1, h2⟩ := hu.rej
      exact ⟨u, v, fun n hn hw => by obtain ⟨e, he, hw⟩ := (mem u).1 ⟨n, hn, hw⟩; exact h1 e he hw, (mem _).2 h2⟩) order ho
  refine ⟨F, m, fun fuel hf => ?_, h2, h3, h4, by omega, fun w k => by rw [h6, one, first], fun w => by rw [h7, mem]⟩
  obtain ⟨c, d, g1, g2, g3⟩ := h1 fuel hf
  simp only [automaton, g1, g2, g3, Option.bind_eq_bind, Option.bind_some]
  have : actions.length - 1 = m.numActions := by omega
  rw [this]; rfl

/-! ### The lexer -/

theorem scan_le {step : List (C × Nat) → Nat → Option Nat} {d : Nat → DFA C} {buf : List Nat} {r p q a : Nat} (h : scanOf step d buf r p = some (q, a)) : a ≤ (d r).numActions := by
  unfold scanOf Lexer.lex at h
  cases hr : Lexer.run (Lexer.bufIter Lexer.unitNext buf) step (d r) (buf.length + 1) 0 p ((Lexer.bufIter Lexer.unitNext buf).plain p) 0 with
  | none => rw [hr] at h; simp at h
  | some o =>
    rw [hr] at h
    simp only [Option.bind_eq_bind, Option.bind_some] at h
    split at h
    · rename_i hl
      simp only [Option.pure_def, Option.some.injEq, Prod.mk.injEq] at h
      rw [← h.2]; exact hl
    · cases h

/-- The statements of a rule. -/
def ruleStmts (u : Rule) : List Stmt :=
  (if u.ahead = 0 then [] else [.back u.ahead]) ++ (match u.next with | none => [] | some r' => [.ruleSet r']) ++ [match u.term with | .tok x => .ret x | .skip => .skip | .more => .cont]

theorem made {I : Numbers} {step : List (C × Nat) → Nat → Option Nat} {d : Nat → DFA C} {sys : Sys C} {buf : List Nat} {L : Lx} {es : Nat → Spec.Rules}
    (hstep : ∀ r, Lexer.StepOk step (d r)) (hd : ∀ r, Right (es r) (d r)) (hg : Generated I step d sys buf L) (hw : ∀ x ∈ buf, x < CharSetLike.size C)
    (hah : ∀ r, ∀ e ∈ es r, ∀ w, e.1 w → e.2.ahead ≤ w.length)
    (h0 : ∀ r, ∃ t, (sys.envs (I.name r)).actions[0]? = some t ∧ meaning I.tok I.num t = some [])
    (h1 : ∀ r (i : Nat) e, (es r)[i]? = some e → ∃ t, (sys.envs (I.name r)).actions[i + 1]? = some t ∧ meaning I.tok I.num t = some (ruleStmts e.2)) :
    ∃ D, Spec.Describes es buf D ∧ Made D L ∧ ((∀ r, ∀ e ∈ es r, ∀ w, e.1 w → e.2.ahead < w.length) → D.Advances) := by
  have rule : ∀ {r a : Nat} {u : Rule}, ((es r).map (·.2))[a]? = some u → ∃ e, (es r)[a]? = some e ∧ e.2 = u := by
    intro r a u h
    simpa [List.getElem?_map, Option.map_eq_some_iff] using h
  have acts : ∀ {r a : Nat} {e : Lang × Rule} {x : List Nat}, (es r)[a]? = some e → (d r).Acts x (a + 1) → e.1 x := by
    intro r a e x he ha
    obtain ⟨⟨e', he', hw⟩, _⟩ := ((hd r).acts x a).1 ha
    rw [he] at he'; cases he'; exact hw
  obtain ⟨D, k1, k2, k3, k4⟩ := longest (step := step) (d := d) (rules := fun r => (es r).map (·.2)) (buf := buf) (fun r => (hd r).wf) (fun r => (hd r).pos) hstep
    (fun r => by rw [(hd r).num]; simp) hw (by
      intro r a u h x hx
      obtain ⟨e, he, rfl⟩ := rule h
      exact hah r e (List.mem_of_getElem? he) x (acts he hx))
  refine ⟨D, ⟨k1, ?_, ?_⟩, ⟨by rw [hg.n, k1], ?_⟩, fun hlt => k4 ?_⟩
  · intro r p u q hp hf
    have := k3 r p hp
    rw [hf] at this
    obtain ⟨k, a, rfl, hl, hu⟩ := this
    obtain ⟨e, he, rfl⟩ := rule hu
    obtain ⟨_, hfst⟩ := ((hd r).acts _ a).1 hl.acts
    rw [show p + k - p = k by omega]
    exact ⟨by omega, hl.le, ⟨a, e.1, he, acts he hl.acts, hfst⟩, fun k' h1 h2 e' he' hw' => hl.max k' h2 h1 (((hd r).lang _).2 ⟨e', he', hw'⟩)⟩
  · intro r p hp hf k hk e he hw'
    have := k3 r p hp
    rw [hf] at this
    exact this k hk (((hd r).lang _).2 ⟨e, he, hw'⟩)
  · have code : ∀ r a, a ≤ (d r).numActions → ∀ s, L.code r a s = (lexerOf step d (fun r => (es r).map (·.2)) buf).code r a s := by
      intro r a ha s
      cases a with
      | zero =>
        obtain ⟨t, t1, t2⟩ := h0 r
        rw [hg.code r 0 t _ t1 t2]; rfl
      | succ a =>
        rw [(hd r).num] at ha
        have he : (es r)[a]? = some (es r)[a] := List.getElem?_eq_getElem ha
        obtain ⟨t, t1, t2⟩ := h1 r a _ he
        rw [hg.code r (a + 1) t _ t1 t2]
        simp only [lexerOf, List.getElem?_map, he, Option.map_some]
        rfl
    intro r p hp
    have := k2.fits r p hp
    revert this
    cases D.found r p with
    | none =>
      rintro ⟨a, s1, s2⟩
      exact ⟨a, by rw [hg.scan]; exact s1, fun s => by rw [code r a (scan_le s1), s2]⟩
    | some v =>
      rintro ⟨s0, a, s1, s2⟩
      exact ⟨s0, a, by rw [hg.scan]; exact s1, fun s => by rw [code r a (scan_le s1), s2]⟩
  · intro r a u h x hx
    obtain ⟨e, he, rfl⟩ := rule h
    exact hlt r e (List.mem_of_getElem? he) x (acts he hx)

end Verif.LexFile
