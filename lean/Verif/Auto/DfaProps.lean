import Verif.Auto.QuotientLemmas
import Mathlib.Data.List.Dedup

set_option linter.unusedSectionVars false

/-!
# Properties of deterministic automata

* C16 determinisation, C17 rule priority, C18 complement, intersection, difference, C19 minimisation,
  C20 removal of states, C21 conversion back.

`order` stands for the order in which the C++ hash set is traversed: any function enumerating a set without
repetition.  "There is `F` such that with any fuel `≥ F`" says that the loop terminates, with that result.
-/

namespace Verif.Auto

variable {C : Type} [CharSetLike C]

/-- **C16.** Determinisation terminates, without undefined behaviour, in a well-formed deterministic automaton; a
word is accepted with action `k + 1` iff it reaches accepting state number `k` and no earlier one. -/
theorem C16_determinisation {n : NFA C} (hn : n.WfM) (order : List Bits → List Bits) (ho : Enumerates order) :
    ∃ F d, (∀ fuel, F ≤ fuel → n.dfa order fuel = some d) ∧ d.Wf ∧ 0 < d.nstates ∧ d.numActions = n.nstates - n.accept ∧
      (∀ w k, d.Ends w (k + 1) ↔ n.LangAt k w ∧ ∀ k' < k, ¬ n.LangAt k' w) ∧ ∀ w, d.Lang w ↔ n.Lang w := by
  obtain ⟨F, d, h1, h2⟩ := dfa_spec hn order ho
  obtain ⟨st, s1, _, _, _, ⟨s, hs, _⟩, _⟩ := h2.sets
  exact ⟨F, d, h1, h2.wf, by have := (s1 s 0 hs).2; omega, h2.nactions, h2.ends, h2.lang⟩

/-- **C17.** The automaton of a list of rules accepts a word iff a rule matches it, and reports the first
matching rule (action `k + 1` for rule `k`). -/
theorem C17_first_rule_wins (l : List (NFA C)) (h : ∀ n ∈ l, n.Wf) (hne : l ≠ []) (order : List Bits → List Bits) (ho : Enumerates order) :
    ∃ r F d, NFA.ofList l = some r ∧ (∀ fuel, F ≤ fuel → r.dfa order fuel = some d) ∧ d.Wf ∧ d.numActions = l.length ∧
      (∀ w k, d.Acts w (k + 1) ↔ (∃ n, l[k]? = some n ∧ n.Lang w) ∧ ∀ k' < k, ∀ n, l[k']? = some n → ¬ n.Lang w) ∧
      ∀ w, d.Lang w ↔ ∃ n ∈ l, n.Lang w := by
  obtain ⟨r, h1, h2, h3, h4⟩ := ofList_spec l h hne
  obtain ⟨F, d, g1, g2, _, g3, g4, g5⟩ := C16_determinisation h2 order ho
  refine ⟨r, F, d, h1, g1, g2, by omega, fun w k => ?_, fun w => ?_⟩
  · simp only [DFA.Acts, g4, h4]
    constructor
    · rintro ⟨_, a, b⟩; exact ⟨a, fun k' hk n hn hw => b k' hk ⟨n, hn, hw⟩⟩
    · rintro ⟨a, b⟩; exact ⟨by omega, a, fun k' hk ⟨n, hn, hw⟩ => b k' hk n hn hw⟩
  · rw [g5]
    simp only [NFA.Lang, h4]
    constructor
    · rintro ⟨k, n, hn, hw⟩; exact ⟨n, List.mem_of_getElem? hn, hw⟩
    · rintro ⟨n, hn, hw⟩
      obtain ⟨k, hk⟩ := List.mem_iff_getElem?.mp hn
      exact ⟨k, n, hk, hw⟩

/-- The words over the code space: what an input iterator can produce. -/
def Word (C : Type) [CharSetLike C] (w : List Nat) : Prop := ∀ x ∈ w, x < CharSetLike.size C

theorem lt_of_wf {n : NFA C} (h : n.Wf) : n.accept < n.nstates := by have := h.single; omega

/-- **C18.** `~a`. -/
theorem C18_complement {n : NFA C} (hn : n.Wf) (order : List Bits → List Bits) (ho : Enumerates order) :
    ∃ F r, (∀ fuel, F ≤ fuel → n.negate order fuel = some r) ∧ r.Wf ∧ ∀ w, r.Lang w ↔ Word C w ∧ ¬ n.Lang w :=
  negate_spec hn.toM (lt_of_wf hn) order ho

/-- **C18.** `a & b`. -/
theorem C18_intersection {n o : NFA C} (hn : n.Wf) (ho : o.Wf) (order : List Bits → List Bits) (hord : Enumerates order) :
    ∃ F r, (∀ fuel, F ≤ fuel → n.and order fuel o = some r) ∧ r.Wf ∧ ∀ w, r.Lang w ↔ n.Lang w ∧ o.Lang w := by
  obtain ⟨F1, n', a1, a2, a3⟩ := C18_complement hn order hord
  obtain ⟨F2, o', b1, b2, b3⟩ := C18_complement ho order hord
  obtain ⟨u, u1, u2, u3⟩ := alt_spec a2 b2
  obtain ⟨F3, r, c1, c2, c3⟩ := C18_complement u2 order hord
  refine ⟨max F1 (max F2 F3), r, fun fuel hf => ?_, c2, fun w => ?_⟩
  · simp only [NFA.and, a1 fuel (by omega), b1 fuel (by omega), u1, c1 fuel (by omega), Option.bind_eq_bind, Option.bind_some]
  · rw [c3, u3, a3, b3]
    constructor
    · rintro ⟨h1, h2⟩
      exact ⟨Classical.byContradiction fun h => h2 (Or.inl ⟨h1, h⟩), Classical.byContradiction fun h => h2 (Or.inr ⟨h1, h⟩)⟩
    · rintro ⟨h1, h2⟩
      exact ⟨lang_words h1, by rintro (⟨_, h⟩ | ⟨_, h⟩) <;> contradiction⟩

/-- **C18.** `a ^ b`. -/
theorem C18_difference {n o : NFA C} (hn : n.Wf) (ho : o.Wf) (order : List Bits → List Bits) (hord : Enumerates order) :
    ∃ F r, (∀ fuel, F ≤ fuel → n.but order fuel o = some r) ∧ r.Wf ∧ ∀ w, r.Lang w ↔ n.Lang w ∧ ¬ o.Lang w := by
  obtain ⟨F1, n', a1, a2, a3⟩ := C18_complement hn order hord
  obtain ⟨u, u1, u2, u3⟩ := alt_spec a2 ho
  obtain ⟨F3, r, c1, c2, c3⟩ := C18_complement u2 order hord
  refine ⟨max F1 F3, r, fun fuel hf => ?_, c2, fun w => ?_⟩
  · simp only [NFA.but, a1 fuel (by omega), u1, c1 fuel (by omega), Option.bind_eq_bind, Option.bind_some]
  · rw [c3, u3, a3]
    constructor
    · rintro ⟨h1, h2⟩
      exact ⟨Classical.byContradiction fun h => h2 (Or.inl ⟨h1, h⟩), fun h => h2 (Or.inr h)⟩
    · rintro ⟨h1, h2⟩
      exact ⟨lang_words h1, by rintro (⟨_, h⟩ | h) <;> contradiction⟩

/-- **C19 (partial).** Minimisation terminates and changes neither the accepted words nor their actions, *if every
action `1..numActions` is reported for some word, and some word that is not accepted can be continued to an
accepted one* (the last clause is `a = 0`).  The result has one transition per target, none of them empty.
Missing: automata where an action (or 0) is not useful in this sense; there it is false, see
`C19_minimize_wrong`, `C19_minimize_unused_rule`, `C19_minimize_nothing`. -/
theorem C19_minimize_partial {d : DFA C} (hd : d.Wf) (h0 : 0 < d.nstates)
    (hall : ∀ a ≤ d.numActions, ∃ w v b, d.Ends w a ∧ b ≠ 0 ∧ d.Ends (w ++ v) b) :
    ∃ F d', (∀ fuel, F ≤ fuel → d.minimize fuel = some d') ∧ d'.Wf ∧ d'.numActions = d.numActions ∧
      NoEmpty d'.rules ∧ OnePer d'.rules ∧ ∀ w a, d'.Acts w a ↔ d.Acts w a := by
  obtain ⟨F, d', h1, h2, h3, h4, h5, h6⟩ := minimize_spec hd h0 hall
  refine ⟨F, d', h1, h2, h3, h4, h5, fun w a => ?_⟩
  simp only [DFA.Acts]
  constructor
  · rintro ⟨ha, h⟩; exact ⟨ha, (h6 w a ha).mp h⟩
  · rintro ⟨ha, h⟩; exact ⟨ha, (h6 w a ha).mpr h⟩

/-- **C20.** Removing unreachable states keeps every word's action (also "not accepted"), and leaves only
reachable states. -/
theorem C20_unarrivable {d : DFA C} (hd : d.Wf) (h0 : 0 < d.nstates) :
    ∃ d', d.eliminateUnarrivable = some d' ∧ d'.Wf ∧ (∀ w a, d'.Ends w a ↔ d.Ends w a) ∧
      ∀ i, i < d'.nstates → Path (fun _ => true) d'.rules 0 i := by
  obtain ⟨d', h1, h2, _, h3, h4, _⟩ := eliminateUnarrivable_spec hd h0
  exact ⟨d', h1, h2, h3, h4⟩

/-- **C20.** Removing states from which nothing is accepted (after the unreachable ones, as `minimize` does)
keeps all accepted words with their actions, and leaves only states from which something is accepted. -/
theorem C20_inactive {d : DFA C} (hd : d.Wf) (hr : ∀ i, i < d.nstates → Path (fun _ => true) d.rules 0 i) :
    ∃ d', d.eliminateInactive = some d' ∧ d'.Wf ∧ (∀ w a, d'.Acts w a ↔ d.Acts w a) ∧
      ∀ i, i < d'.nstates → ∃ k a, Path (fun _ => true) d'.rules i k ∧ d'.accept[k]? = some a ∧ a ≠ 0 := by
  obtain ⟨d', h1, h2, _, _, _, h3, h4⟩ := eliminateInactive_spec hd
  refine ⟨d', h1, h2, fun w a => ?_, h3⟩
  obtain ⟨_, h5, _⟩ := h4 hr
  simp only [DFA.Acts]
  constructor
  · rintro ⟨ha, h⟩; exact ⟨ha, (h5 w a ha).mp h⟩
  · rintro ⟨ha, h⟩; exact ⟨ha, (h5 w a ha).mpr h⟩

/-- **C21.** Conversion back to a nondeterministic automaton keeps the words and their actions. -/
theorem C21_back {d : DFA C} (hd : d.Wf) :
    ∃ n, d.nfa = some n ∧ n.WfM ∧ (∀ k w, n.LangAt k w ↔ d.Acts w (k + 1)) ∧ (∀ w, n.Lang w ↔ d.Lang w) ∧
      ((∀ a ∈ d.accept, a ≤ 1) → n.Wf) := by
  obtain ⟨n, h1, h2, h3, h4, h5, _⟩ := nfa_spec hd
  have key : ∀ k w, n.LangAt k w ↔ d.Acts w (k + 1) := fun k w => by
    rw [h4]; exact ⟨fun h => ⟨by omega, h⟩, fun h => h.2⟩
  refine ⟨n, h1, h2, key, fun w => ?_, h5⟩
  constructor
  · rintro ⟨k, h⟩; exact ⟨k + 1, (key k w).mp h⟩
  · rintro ⟨a, ha, h⟩
    obtain ⟨k, rfl⟩ : ∃ k, a = k + 1 := ⟨a - 1, by omega⟩
    exact ⟨k, (key k w).mpr ⟨ha, h⟩⟩

/-- **C21.** Determinising again recovers every word's action. -/
theorem C21_round_trip {d : DFA C} (hd : d.Wf) (order : List Bits → List Bits) (ho : Enumerates order) :
    ∃ n F d', d.nfa = some n ∧ (∀ fuel, F ≤ fuel → n.dfa order fuel = some d') ∧ ∀ w a, d'.Acts w a ↔ d.Acts w a := by
  obtain ⟨n, h1, h2, h3, _⟩ := C21_back hd
  obtain ⟨F, d', g1, g2, _, _, g3, _⟩ := C16_determinisation h2 order ho
  refine ⟨n, F, d', h1, g1, fun w a => ?_⟩
  constructor
  · rintro ⟨ha, h⟩
    obtain ⟨k, rfl⟩ : ∃ k, a = k + 1 := ⟨a - 1, by omega⟩
    exact (h3 k w).mp ((g3 w k).mp h).1
  · rintro ⟨ha, h⟩
    obtain ⟨k, rfl⟩ : ∃ k, a = k + 1 := ⟨a - 1, by omega⟩
    refine ⟨ha, (g3 w k).mpr ⟨(h3 k w).mpr ⟨ha, h⟩, fun k' hk' hl => ?_⟩⟩
    have := hd.ends_det h ((h3 k' w).mp hl).2
    omega

/-! ### Cases -/

theorem enumerates_dedup : Enumerates List.dedup := fun l => ⟨List.nodup_dedup l, fun _ => List.mem_dedup⟩

/-- The set holding one ASCII character. -/
abbrev ch (c : Nat) (h : c < 128 := by omega) : SeqCS 128 := SeqCS.single c h

/-- Case of C16, C18: the automaton of the set `a`. -/
example : (NFA.ofSet (ch 97)).Wf := wf_ofSet _

/-- Case of C17: two overlapping rules. -/
example : ∀ n ∈ [NFA.ofSet (ch 97), NFA.emptyWord, NFA.ofSet (ch 97)], n.Wf := by
  intro n hn
  simp at hn
  rcases hn with rfl | rfl | rfl <;> first | exact wf_ofSet _ | exact wf_emptyWord

/-- `a b`, deterministic. -/
def abDfa : DFA (SeqCS 128) := ⟨3, [[(ch 97, 1)], [(ch 98, 2)], []], 1, [0, 0, 1]⟩

theorem abDfa_edge {i j : Nat} {c : SeqCS 128} (h : HasEdge abDfa.rules i c j) :
    (i = 0 ∧ c = ch 97 ∧ j = 1) ∨ (i = 1 ∧ c = ch 98 ∧ j = 2) := by
  obtain ⟨es, h1, h2⟩ := h
  rcases i with _ | _ | _ | i
  · simp [abDfa] at h1; subst h1; simp at h2; exact Or.inl ⟨rfl, h2⟩
  · simp [abDfa] at h1; subst h1; simp at h2; exact Or.inr ⟨rfl, h2⟩
  · simp [abDfa] at h1; subst h1; simp at h2
  · simp [abDfa] at h1

theorem abDfa_wf : abDfa.Wf := by
  refine ⟨rfl, rfl, ?_, ?_, ?_, ?_⟩
  · intro i c j h; rcases abDfa_edge h with ⟨_, _, rfl⟩ | ⟨_, _, rfl⟩ <;> decide
  · intro i c j h; rcases abDfa_edge h with ⟨_, rfl, _⟩ | ⟨_, rfl, _⟩ <;> rfl
  · intro i c j c' j' y h h' _ _
    rcases abDfa_edge h with ⟨rfl, _, rfl⟩ | ⟨rfl, _, rfl⟩ <;> rcases abDfa_edge h' with ⟨h1, _, rfl⟩ | ⟨h1, _, rfl⟩ <;> omega
  · intro a ha; simp [abDfa] at ha ⊢; omega

theorem abDfa_accepts : abDfa.Ends [97, 98] 1 :=
  ⟨2, .chr ⟨_, rfl, List.mem_singleton.mpr rfl⟩ rfl (by decide +kernel)
    (.chr ⟨_, rfl, List.mem_singleton.mpr rfl⟩ rfl (by decide +kernel) .nil), rfl⟩

/-- Case of C19, C20, C21: hypotheses met by `a b`. -/
example : abDfa.Wf ∧ 0 < abDfa.nstates ∧ ∀ a ≤ abDfa.numActions, ∃ w v b, abDfa.Ends w a ∧ b ≠ 0 ∧ abDfa.Ends (w ++ v) b := by
  refine ⟨abDfa_wf, by decide, fun a ha => ?_⟩
  have : a = 0 ∨ a = 1 := by simp [abDfa] at ha; omega
  rcases this with rfl | rfl
  · exact ⟨[], [97, 98], 1, ⟨0, .nil, rfl⟩, by omega, abDfa_accepts⟩
  · exact ⟨[97, 98], [], 1, abDfa_accepts, by omega, abDfa_accepts⟩

example : ∀ i, i < abDfa.nstates → Path (fun _ => true) abDfa.rules 0 i := by
  have e1 : HasEdge abDfa.rules 0 (ch 97) 1 := ⟨_, rfl, List.mem_singleton.mpr rfl⟩
  have e2 : HasEdge abDfa.rules 1 (ch 98) 2 := ⟨_, rfl, List.mem_singleton.mpr rfl⟩
  intro i hi
  rcases i with _ | _ | _ | i
  · exact .refl
  · exact .step e1 rfl .refl
  · exact .step e1 rfl (.step e2 rfl .refl)
  · simp [abDfa] at hi; omega

/-! ### Where minimisation goes wrong -/

/-- Run a deterministic automaton on a word: the action, 0 if it gets stuck. -/
def DFA.action (d : DFA C) (w : List Nat) : Nat → Option Nat := fun q =>
  match w with
  | [] => d.accept[q]?
  | x :: w => do
    match stepRules (← d.rules[q]?) x with
    | none => some 0
    | some j => d.action w j

theorem stepRules_edge {es : List (C × Nat)} {x j : Nat} (h : stepRules es x = some j) :
    ∃ c, (c, j) ∈ es ∧ CharSetLike.accepts c x = true := by
  induction es with
  | nil => simp [stepRules] at h
  | cons e es ih =>
    obtain ⟨c, k⟩ := e
    simp only [stepRules] at h
    split at h
    · rename_i hc; cases h; exact ⟨c, List.mem_cons_self, hc⟩
    · obtain ⟨c', h1, h2⟩ := ih h; exact ⟨c', List.mem_cons_of_mem _ h1, h2⟩

theorem action_run {d : DFA C} (hn : ∀ i c j, HasEdge d.rules i c j → CharSetLike.isEps c = false) {w : List Nat} {q a : Nat}
    (ha : a ≠ 0) (h : d.action w q = some a) : ∃ k, Run d.rules q w k ∧ d.accept[k]? = some a := by
  induction w generalizing q with
  | nil => exact ⟨q, .nil, by simpa [DFA.action] using h⟩
  | cons x w ih =>
    simp only [DFA.action, Option.bind_eq_bind, Option.bind_eq_some_iff] at h
    obtain ⟨es, h1, h2⟩ := h
    split at h2
    · simp at h2; omega
    · rename_i j hj
      obtain ⟨k, hk, hka⟩ := ih h2
      obtain ⟨c, hc, hx⟩ := stepRules_edge hj
      exact ⟨k, .chr ⟨es, h1, hc⟩ (hn _ _ _ ⟨es, h1, hc⟩) hx hk, hka⟩

/-- Words accepted by the automaton that computing `action` shows to be accepted. -/
theorem acts_of_action {d : DFA C} (hn : ∀ i c j, HasEdge d.rules i c j → CharSetLike.isEps c = false) {w : List Nat} {a : Nat}
    (ha : a ≠ 0) (h : d.action w 0 = some a) : d.Acts w a := by
  obtain ⟨k, h1, h2⟩ := action_run hn ha h
  exact ⟨ha, k, h1, h2⟩

def noEpsB (d : DFA C) : Bool := d.rules.all fun es => es.all fun e => !CharSetLike.isEps e.1

theorem noEps_of_B {d : DFA C} (h : noEpsB d = true) : ∀ i c j, HasEdge d.rules i c j → CharSetLike.isEps c = false := by
  rintro i c j ⟨es, h1, h2⟩
  simp only [noEpsB, List.all_eq_true] at h
  simpa using h es (List.mem_of_getElem? h1) (c, j) h2

theorem dfaLoop_mono {n : NFA C} {f f' : Nat} {log : Log C} {todo : List Bits} {r : Log C} (h : n.dfaLoop f log todo = some r)
    (hf : f ≤ f') : n.dfaLoop f' log todo = some r := by
  induction f generalizing f' log todo with
  | zero =>
    cases todo with
    | nil => cases f' <;> simpa [NFA.dfaLoop] using h
    | cons x todo => simp [NFA.dfaLoop] at h
  | succ f ih =>
    obtain ⟨f', rfl⟩ : ∃ g, f' = g + 1 := ⟨f' - 1, by omega⟩
    cases todo with
    | nil => simpa [NFA.dfaLoop] using h
    | cons x todo =>
      simp only [NFA.dfaLoop, Option.bind_eq_bind, Option.bind_eq_some_iff] at h ⊢
      obtain ⟨t, h1, h2⟩ := h
      exact ⟨t, h1, ih h2 (by omega)⟩

theorem dfa_mono {n : NFA C} {order : List Bits → List Bits} {f f' : Nat} {d : DFA C} (h : n.dfa order f = some d) (hf : f ≤ f') :
    n.dfa order f' = some d := by
  simp only [NFA.dfa, Option.bind_eq_bind, Option.bind_eq_some_iff] at h ⊢
  obtain ⟨a, h1, b, h2, log, h3, h4⟩ := h
  exact ⟨a, h1, b, h2, log, dfaLoop_mono h3 hf, h4⟩

/-- A computed witness. -/
theorem minimize_witness {o : Option (NFA (SeqCS 128))} {n : NFA (SeqCS 128)} (hn : o = some n) (hwf : n.WfM) {w : List Nat} {a : Nat}
    (ha : a ≠ 0)
    (e : (o.bind fun n => (n.dfa List.dedup 20).bind fun d => d.minimize 20).map (fun d' => (noEpsB d', d'.action w 0)) = some (true, some a)) :
    ∃ d d', n.dfa List.dedup 20 = some d ∧ d.minimize 20 = some d' ∧ (∀ v, d.Lang v ↔ n.Lang v) ∧ d'.Lang w := by
  rw [hn, Option.bind_some] at e
  cases hd : n.dfa List.dedup 20 with
  | none => rw [hd] at e; simp at e
  | some d =>
    rw [hd, Option.bind_some] at e
    cases hd' : d.minimize 20 with
    | none => rw [hd'] at e; simp at e
    | some d' =>
      rw [hd'] at e
      simp only [Option.map_some, Option.some.injEq, Prod.mk.injEq] at e
      obtain ⟨F, d2, g1, g2⟩ := dfa_spec hwf List.dedup enumerates_dedup
      have := g1 (max F 20) (by omega)
      rw [dfa_mono hd (by omega : 20 ≤ max F 20)] at this
      cases this
      exact ⟨d, d', rfl, hd', g2.lang, a, acts_of_action (noEps_of_B e.1) ha e.2⟩

/-- **C19, negative.** Minimising the automaton of the expression `?a` (empty word or `a`) gives an automaton that
accepts `aa`: since no state is rejecting, one of the two initial groups is empty, the first refinement
produces two groups as well, and the loop stops with the old grouping. -/
theorem C19_minimize_wrong : ∃ n d d', (NFA.ofSet (ch 97)).opt = some n ∧ n.dfa List.dedup 20 = some d ∧ d.minimize 20 = some d' ∧
    ¬ d.Lang [97, 97] ∧ d'.Lang [97, 97] := by
  obtain ⟨n, hn, hwf, hl⟩ := alt_spec (wf_ofSet (ch 97)) (wf_emptyWord (C := SeqCS 128))
  obtain ⟨d, d', h1, h2, h3, h4⟩ := minimize_witness (w := [97, 97]) (a := 1) hn hwf.toM (by omega) (by decide +kernel)
  refine ⟨n, d, d', hn, h1, h2, fun h => ?_, h4⟩
  rw [h3, hl, lang_ofSet _ rfl, lang_emptyWord] at h
  rcases h with ⟨x, hx, _⟩ | h
  · simp at hx
  · simp at h

/-- The expression `a b`. -/
def abNfa : Option (NFA (SeqCS 128)) := (NFA.ofSet (ch 97)).concat (NFA.ofSet (ch 98))

/-- **C19, negative.** A lexer with the rule `ab` written twice (the second is never reported): the minimised
automaton accepts `aab`, which no rule matches. -/
theorem C19_minimize_unused_rule : ∃ r n d d', abNfa = some r ∧ NFA.ofList [r, r] = some n ∧ n.dfa List.dedup 20 = some d ∧
    d.minimize 20 = some d' ∧ ¬ r.Lang [97, 97, 98] ∧ d'.Lang [97, 97, 98] := by
  obtain ⟨r, hr, hwf, hl⟩ := concat_spec (wf_ofSet (ch 97)) (wf_ofSet (ch 98))
  obtain ⟨n, hn, hm, _⟩ := ofList_spec [r, r] (by simpa using hwf) (by simp)
  have hb : (abNfa.bind fun r => NFA.ofList [r, r]) = some n := by
    rw [show abNfa = some r from hr]; exact hn
  obtain ⟨d, d', h1, h2, h3, h4⟩ := minimize_witness (w := [97, 97, 98]) (a := 1) hb hm (by omega) (by decide +kernel)
  refine ⟨r, n, d, d', hr, hn, h1, h2, fun h => ?_, h4⟩
  rw [hl] at h
  obtain ⟨u, v, huv, hu, hv⟩ := h
  rw [lang_ofSet _ rfl] at hu hv
  obtain ⟨x, rfl, _⟩ := hu
  obtain ⟨y, rfl, _⟩ := hv
  simp at huv

/-- **C19, negative.** Minimising an automaton that accepts nothing: no state is left, and the next step,
`eliminateUnarrivableStates`, sets bit 0 of an array without bits (undefined behaviour). -/
theorem C19_minimize_nothing : ((NFA.empty : NFA (SeqCS 128)).dfa List.dedup 20).bind (fun d =>
      (d.eliminateUnarrivable.bind fun d => d.eliminateInactive.bind fun d => d.quotient 20).map
        fun q => (q.nstates, q.eliminateUnarrivable.isNone)) = some (0, true) := by
  decide +kernel

end Verif.Auto
