import Verif.Lexer.Lemmas
import Verif.Auto.DfaProps
import Verif.Utf.Spec

set_option linter.unusedSectionVars false

/-!
# Properties of the generated lexer

* C24 longest match, C57 stepping back.
-/

namespace Verif.Lexer

open Verif.Auto

variable {S P C : Type} [CharSetLike C]

/-- C24 for any dispatch that follows the transitions. -/
theorem lex_longest {it : Iter S P} {step : List (C × Nat) → Nat → Option Nat} {d : DFA C} (hd : d.Wf) (h0 : 0 < d.nstates)
    (hstep : StepOk step d) {s : S} {w : List Nat} (hs : Stream it s w) (hw : Word C w) {fuel : Nat} (hf : w.length < fuel) :
    ∃ e p a, lex it step d fuel s = some (it.setPlain e p, a) ∧
      ((∃ k s', Reads it s (w.take k) s' ∧ p = it.plain s' ∧ Longest d w k a) ∨ (a = 0 ∧ p = it.plain s ∧ NoMatch d w)) := by
  obtain ⟨r, h1, h2⟩ := run_spec hd hstep w fuel 0 s (it.plain s) 0 h0 hs hw hf
  have hle : r.lstate ≤ d.numActions := by
    rcases h2 with ⟨_, _, _, _, h⟩ | ⟨_, h, _⟩
    · obtain ⟨_, q, _, hq⟩ := h.acts; exact hd.action _ (List.mem_of_getElem? hq)
    · omega
  refine ⟨r.iter, r.lpos, r.lstate, by simp [lex, h1, hle], ?_⟩
  rcases h2 with ⟨k, s', a, b, c⟩ | ⟨a, b, c⟩
  · exact Or.inl ⟨k, s', a, b, longest_of_from c⟩
  · exact Or.inr ⟨b, a, noMatch_of_from c⟩

/-- **C24, sequence lexers.** The generated state machine, with its decision trees, finds the longest accepted
prefix of the remaining input and its action, and sets the buffer position behind it; if there is none it
runs the fail action (0) at the old position. -/
theorem C24_sequence_lexer {N : Nat} [NeZero N] {it : Iter S P} {d : DFA (SeqCS N)} (hd : d.Wf) (h0 : 0 < d.nstates) (ho : OnePer d.rules)
    {s : S} {w : List Nat} (hs : Stream it s w) (hw : ∀ x ∈ w, x < N) {fuel : Nat} (hf : w.length < fuel) :
    ∃ e p a, lex it (seqStep N) d fuel s = some (it.setPlain e p, a) ∧
      ((∃ k s', Reads it s (w.take k) s' ∧ p = it.plain s' ∧ Longest d w k a) ∨ (a = 0 ∧ p = it.plain s ∧ NoMatch d w)) :=
  lex_longest hd h0 (seqStep_ok hd ho) hs hw hf

/-- **C24, table lexers.** The same with `switch`es, which are valid C++ (no repeated label). -/
theorem C24_table_lexer {N : Nat} {it : Iter S P} {d : DFA (CharSet.Table N)} (hd : d.Wf) (h0 : 0 < d.nstates) (ho : OnePer d.rules)
    {s : S} {w : List Nat} (hs : Stream it s w) (hw : ∀ x ∈ w, x < N) {fuel : Nat} (hf : w.length < fuel) :
    (∀ es ∈ d.rules, CharSet.switchValid (CharSet.tableDispatch es)) ∧
    ∃ e p a, lex it tableStep d fuel s = some (it.setPlain e p, a) ∧
      ((∃ k s', Reads it s (w.take k) s' ∧ p = it.plain s' ∧ Longest d w k a) ∨ (a = 0 ∧ p = it.plain s ∧ NoMatch d w)) :=
  ⟨fun es hes => (CharSet.C12_table_dispatch es (table_disjoint hd ho hes)).1, lex_longest hd h0 (tableStep_ok hd ho) hs hw hf⟩

/-- **C24, `nextAction`.** It returns the iterator right behind the longest accepted prefix and its action, or the
unchanged iterator and no action. -/
theorem C24_nextAction {it : Iter S P} {d : DFA C} (hd : d.Wf) (h0 : 0 < d.nstates) {s : S} {w : List Nat} (hs : Stream it s w)
    (hw : Word C w) {fuel : Nat} (hf : w.length < fuel) :
    (∃ k s' a, nextAction it d fuel s = some (s', some a) ∧ Reads it s (w.take k) s' ∧ Longest d w k a) ∨
    (nextAction it d fuel s = some (s, none) ∧ NoMatch d w) := by
  have hs' : Stream (whole it) s w := by
    obtain ⟨e, h1, h2⟩ := hs; exact ⟨e, whole_reads.mpr h1, h2⟩
  obtain ⟨r, h1, h2⟩ := run_spec hd (stepRules_ok hd) w fuel 0 s s 0 h0 hs' hw hf
  have h3 := nextLoop_eq fuel 0 s s 0 r h1
  simp only [if_true] at h3
  rcases h2 with ⟨k, s', a, b, c⟩ | ⟨a, b, c⟩
  · refine Or.inl ⟨k, s', r.lstate, ?_, whole_reads.mp a, longest_of_from c⟩
    rw [nextAction, h3, if_neg c.acts.1, b]; rfl
  · refine Or.inr ⟨?_, noMatch_of_from c⟩
    rw [nextAction, h3, b, a]; rfl

/-- **C57.** With an iterator whose state is its position, after a match the iterator is in exactly the state it had
right behind the matched prefix, so that the next call reads the rest of the input; without a match it is in
its old state. -/
theorem C57_step_back_partial {it : Iter S P} (hp : PositionOnly it) {step : List (C × Nat) → Nat → Option Nat} {d : DFA C} (hd : d.Wf)
    (h0 : 0 < d.nstates) (hstep : StepOk step d) {s : S} {w : List Nat} (hs : Stream it s w) (hw : Word C w) {fuel : Nat}
    (hf : w.length < fuel) :
    ∃ k s' a, lex it step d fuel s = some (s', a) ∧ Reads it s (w.take k) s' ∧ Stream it s' (w.drop k) ∧
      (Longest d w k a ∨ (a = 0 ∧ k = 0 ∧ s' = s ∧ NoMatch d w)) := by
  have rest : ∀ {k : Nat} {s' : S}, Reads it s (w.take k) s' → Stream it s' (w.drop k) := by
    have : ∀ (w : List Nat) (s : S), Stream it s w → ∀ (k : Nat) (s' : S), Reads it s (w.take k) s' → Stream it s' (w.drop k) := by
      intro w
      induction w with
      | nil => intro s hs k s' h; simp at h; cases h; simpa using hs
      | cons x w ih =>
        intro s hs k s' h
        cases k with
        | zero => simp at h; cases h; exact hs
        | succ k =>
          rw [List.take_succ_cons] at h
          obtain ⟨e, hr, he⟩ := hs
          cases h with
          | cons a b c =>
            cases hr with
            | cons a' b' c' =>
              rw [b] at b'
              cases b'
              exact ih _ ⟨e, c', he⟩ k s' c
    intro k s' h; exact this w s hs k s' h
  obtain ⟨e, p, a, h1, h2⟩ := lex_longest hd h0 hstep hs hw hf
  rcases h2 with ⟨k, s', h3, rfl, h5⟩ | ⟨h3, rfl, h5⟩
  · rw [hp e s'] at h1
    exact ⟨k, s', a, h1, h3, rest h3, Or.inl h5⟩
  · rw [hp e s] at h1
    exact ⟨0, s, a, h1, by rw [List.take_zero]; exact .nil, by simpa using hs, Or.inr ⟨h3, rfl, rfl, h5⟩⟩

/-- All iterators but `QUtf8ToUtf16Iterator` are of this kind. -/
theorem C57_iterators : PositionOnly unitIter ∧ ∀ next, PositionOnly (decodeIter next) := ⟨fun _ _ => rfl, fun _ _ _ => rfl⟩

/-! ### From the rules to the lexer -/

/-- Rule `r` of the list matches the prefix of length `k`, no earlier rule matches it, and no rule matches a longer
prefix. -/
structure RuleMatch (l : List (NFA C)) (w : List Nat) (k r : Nat) : Prop where
  le : k ≤ w.length
  matches_ : ∃ n, l[r]? = some n ∧ n.Lang (w.take k)
  first : ∀ r' < r, ∀ n, l[r']? = some n → ¬ n.Lang (w.take k)
  longest : ∀ k' ≤ w.length, k < k' → ∀ n ∈ l, ¬ n.Lang (w.take k')

/-- **C24 (partial).** The whole way from a list of rules to the generated lexer: combine, determinise, minimise (as
`main.cpp` lines 450-453), generate.  For every input the lexer runs the action of the first rule matching the
longest matching prefix and continues behind it, or the fail action where it was, *if every rule is reported
for some word and some word that no rule matches can be continued to one that a rule matches*.  Missing: rule
lists violating this (see C19). -/
theorem C24_lexer_partial {N : Nat} [NeZero N] (l : List (NFA (SeqCS N))) (hwf : ∀ n ∈ l, n.Wf) (hne : l ≠ [])
    (huse : ∀ r, r < l.length → ∃ w, (∃ n, l[r]? = some n ∧ n.Lang w) ∧ ∀ r' < r, ∀ n, l[r']? = some n → ¬ n.Lang w)
    (hrej : ∃ u v, (∀ n ∈ l, ¬ n.Lang u) ∧ ∃ n ∈ l, n.Lang (u ++ v))
    (order : List Bits → List Bits) (ho : Enumerates order) {it : Iter S P} (hp : PositionOnly it) :
    ∃ c F d m, NFA.ofList l = some c ∧ (∀ fuel, F ≤ fuel → c.dfa order fuel = some d ∧ d.minimize fuel = some m) ∧
      ∀ s w fuel, Stream it s w → (∀ x ∈ w, x < N) → w.length < fuel →
        (∃ k r s', lex it (seqStep N) m fuel s = some (s', r + 1) ∧ Reads it s (w.take k) s' ∧ RuleMatch l w k r) ∨
        (lex it (seqStep N) m fuel s = some (s, 0) ∧ ∀ k ≤ w.length, ∀ n ∈ l, ¬ n.Lang (w.take k)) := by
  obtain ⟨c, F, d, h1, h2, h3, h4, h5, h6⟩ := C17_first_rule_wins l hwf hne order ho
  have hd0 : 0 < d.nstates := by
    obtain ⟨w, hw, hfst⟩ := huse 0 (List.length_pos_iff.mpr hne)
    obtain ⟨_, q, _, hq⟩ := (h5 w 0).mpr ⟨hw, hfst⟩
    have := (List.getElem?_eq_some_iff.mp hq).1
    rw [h3.accept] at this; omega
  have hall : ∀ a ≤ d.numActions, ∃ w v b, d.Ends w a ∧ b ≠ 0 ∧ d.Ends (w ++ v) b := by
    intro a ha
    rcases Nat.eq_zero_or_pos a with rfl | hpos
    · obtain ⟨u, v, hu, hv⟩ := hrej
      obtain ⟨b, hb, hE⟩ := (h6 (u ++ v)).mpr hv
      obtain ⟨q, hq, hqa⟩ := hE
      obtain ⟨p, hp1, hp2⟩ := hq.split
      have hlt := h3.run_lt hp1 hd0
      have hg : d.accept[p]? = some (d.accept[p]'(by rw [h3.accept]; exact hlt)) := List.getElem?_eq_getElem _
      refine ⟨u, v, b, ⟨p, hp1, ?_⟩, hb, ⟨q, hq, hqa⟩⟩
      rw [hg]
      congr 1
      refine Classical.byContradiction fun hne0 => ?_
      obtain ⟨n, hn, hl⟩ := (h6 u).mp ⟨_, hne0, p, hp1, hg⟩
      exact hu n hn hl
    · obtain ⟨r, rfl⟩ : ∃ r, a = r + 1 := ⟨a - 1, by omega⟩
      obtain ⟨w, hw, hfst⟩ := huse r (by omega)
      have := (h5 w r).mpr ⟨hw, hfst⟩
      exact ⟨w, [], r + 1, this.2, by omega, by rw [List.append_nil]; exact this.2⟩
  obtain ⟨F', m, g1, g2, g3, g4, g5, g6⟩ := C19_minimize_partial h3 hd0 hall
  have hlang : ∀ w, m.Lang w ↔ ∃ n ∈ l, n.Lang w := by
    intro w
    rw [← h6]
    exact exists_congr fun a => g6 w a
  have hm0 : 0 < m.nstates := by
    obtain ⟨u, v, _, n, hn, hl⟩ := hrej
    obtain ⟨a, _, q, _, hq⟩ := (hlang (u ++ v)).mpr ⟨n, hn, hl⟩
    have := (List.getElem?_eq_some_iff.mp hq).1
    rw [g2.accept] at this; omega
  refine ⟨c, max F F', d, m, h1, fun fuel hf => ⟨h2 fuel (by omega), g1 fuel (by omega)⟩, ?_⟩
  intro s w fuel hs hw hf
  obtain ⟨k, s', a, e1, e2, _, e4⟩ := C57_step_back_partial hp g2 hm0 (seqStep_ok g2 g5) hs hw hf
  rcases e4 with hL | ⟨rfl, rfl, rfl, hN⟩
  · left
    obtain ⟨r, rfl⟩ : ∃ r, a = r + 1 := ⟨a - 1, by have := hL.acts.1; omega⟩
    obtain ⟨i1, i2⟩ := (h5 _ _).mp ((g6 _ _).mp hL.acts)
    exact ⟨k, r, s', e1, e2, hL.le, i1, i2, fun k' hk' hlt n hn hl => hL.max k' hk' hlt ((hlang _).mpr ⟨n, hn, hl⟩)⟩
  · right
    exact ⟨e1, fun k hk n hn hl => hN k hk ((hlang _).mpr ⟨n, hn, hl⟩)⟩

/-! ### Cases -/

/-- The stream of a buffer of code units. -/
theorem unit_stream (w : List Nat) : Stream unitIter w w := by
  refine ⟨[], ?_, rfl⟩
  induction w with
  | nil => exact .nil
  | cons x w ih => exact .cons rfl rfl ih

/-- Case of C24: the automaton of `ab` on the input `abab`. -/
example : abDfa.Wf ∧ 0 < abDfa.nstates ∧ OnePer abDfa.rules ∧ Stream unitIter [97, 98, 97, 98] [97, 98, 97, 98] ∧
    Longest abDfa [97, 98, 97, 98] 2 1 := by
  refine ⟨abDfa_wf, by decide, ?_, unit_stream _, by decide, ⟨by omega, abDfa_accepts⟩, ?_⟩
  · intro es hes; simp [abDfa] at hes; rcases hes with rfl | rfl | rfl <;> simp
  · rintro k' hk' hlt ⟨a, _, q, hq, _⟩
    rcases k' with _ | _ | _ | k'
    · omega
    · omega
    · omega
    · simp only [List.take_succ_cons] at hq
      rw [run_cons_iff abDfa_wf.noEps] at hq
      obtain ⟨_, j, e1, _, hq⟩ := hq
      rw [run_cons_iff abDfa_wf.noEps] at hq
      obtain ⟨_, j2, e2, _, hq⟩ := hq
      rw [run_cons_iff abDfa_wf.noEps] at hq
      obtain ⟨_, j3, e3, _, hq⟩ := hq
      rcases abDfa_edge e1 with ⟨_, _, rfl⟩ | ⟨_, _, rfl⟩ <;> rcases abDfa_edge e2 with ⟨h, _, rfl⟩ | ⟨h, _, rfl⟩ <;>
        rcases abDfa_edge e3 with ⟨h', _, rfl⟩ | ⟨h', _, rfl⟩ <;> omega

/-- ... and the lexer run on it. -/
example : lex unitIter (seqStep 128) abDfa 5 [97, 98, 97, 98] = some ([97, 98], 1) := by decide +kernel
example : lex unitIter (seqStep 128) abDfa 5 [97, 97] = some ([97, 97], 0) := by decide +kernel

/-- Case of `C24_lexer_partial`: the rules `a` and `b`. -/
example : let l := [NFA.ofSet (ch 97), NFA.ofSet (ch 98)]
    (∀ n ∈ l, n.Wf) ∧ l ≠ [] ∧
    (∀ r, r < l.length → ∃ w, (∃ n, l[r]? = some n ∧ n.Lang w) ∧ ∀ r' < r, ∀ n, l[r']? = some n → ¬ n.Lang w) ∧
    ∃ u v, (∀ n ∈ l, ¬ n.Lang u) ∧ ∃ n ∈ l, n.Lang (u ++ v) := by
  refine ⟨?_, by simp, ?_, [], [97], ?_, NFA.ofSet (ch 97), by simp, (lang_ofSet _ rfl _).mpr ⟨97, rfl, by decide +kernel⟩⟩
  · intro n hn; simp at hn; rcases hn with rfl | rfl <;> exact wf_ofSet _
  · intro r hr
    rcases r with _ | _ | r
    · exact ⟨[97], ⟨_, rfl, (lang_ofSet _ rfl _).mpr ⟨97, rfl, by decide +kernel⟩⟩, by omega⟩
    · refine ⟨[98], ⟨_, rfl, (lang_ofSet _ rfl _).mpr ⟨98, rfl, by decide +kernel⟩⟩, ?_⟩
      intro r' hr' n hn hl
      obtain rfl : r' = 0 := by omega
      simp at hn; subst hn
      rw [lang_ofSet _ rfl] at hl
      obtain ⟨x, hx, hc⟩ := hl
      cases hx
      revert hc; decide +kernel
    · simp at hr; omega
  · intro n hn hl
    simp at hn
    rcases hn with rfl | rfl <;> (rw [lang_ofSet _ rfl] at hl; obtain ⟨x, hx, _⟩ := hl; cases hx)

/-- The lexer with the single rule `a`, over 16-bit code units. -/
def aDfa16 : DFA (SeqCS 65536) := ⟨2, [[(SeqCS.single 97 (by omega), 1)], []], 1, [0, 1]⟩

/-- **C57, negative.** With `QUtf8ToUtf16Iterator` the member `surrogate` is not restored by `plain() = lpos`: reading
"a😀b" with the rule `a`, the lexer looks at the first half of the smiley, matches `a` and steps back; the
iterator then delivers the second half, before the whole smiley again. -/
theorem C57_stale_surrogate :
    let s := (Utf.Spec.encode8 [0x61, 0x1f600, 0x62], 0)
    let s' := (Utf.Spec.encode8 [0x1f600, 0x62], 0xde00)
    lex utf16Iter (seqStep 65536) aDfa16 10 s = some (s', 1) ∧
    Reads utf16Iter s [0x61, 0xd83d, 0xde00, 0x62] ([], 0) ∧ Reads utf16Iter s' [0xde00, 0xd83d, 0xde00, 0x62] ([], 0) := by
  refine ⟨by decide +kernel, ?_, ?_⟩
  · refine .cons (s' := (Utf.Spec.encode8 [0x1f600, 0x62], 0)) (by decide +kernel) (by decide +kernel)
      (.cons (s' := ([0x62], 0xde00)) (by decide +kernel) (by decide +kernel)
      (.cons (s' := ([0x62], 0)) (by decide +kernel) (by decide +kernel) (.cons (s' := ([], 0)) (by decide +kernel) (by decide +kernel) .nil)))
  · refine .cons (s' := (Utf.Spec.encode8 [0x1f600, 0x62], 0)) (by decide +kernel) (by decide +kernel)
      (.cons (s' := ([0x62], 0xde00)) (by decide +kernel) (by decide +kernel)
      (.cons (s' := ([0x62], 0)) (by decide +kernel) (by decide +kernel) (.cons (s' := ([], 0)) (by decide +kernel) (by decide +kernel) .nil)))

end Verif.Lexer
