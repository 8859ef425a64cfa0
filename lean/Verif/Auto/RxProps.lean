import Verif.Auto.Rx
import Verif.Auto.NfaProps
import Verif.Auto.DfaProps

set_option linter.unusedSectionVars false

/-!
# Whole regular expressions

* C15 (and C13, C14, C18 together): the automaton of an expression.
-/

namespace Verif.Auto

variable {C : Type} [CharSetLike C]

/-- The expression does not begin with an iteration (nor with a complement, intersection, difference or name, whose
automaton may have transitions back to its start). -/
def Rx.Fresh : Rx C → Prop
  | nothing | emptyWord | set _ _ | alt _ _ | opt _ => True
  | cat a _ => a.Fresh
  | star _ | plus _ | and _ _ | but _ _ | compl _ | named _ => False
  | sepBy i _ => i.Fresh
  | leaf n _ => ∀ w, n.Loop w ↔ w = []

/-- What may be iterated: an expression that does not begin with an iteration, or matches the empty word, or is `a+`. -/
def Rx.Iter (a : Rx C) : Prop := a.Fresh ∨ a.den [] ∨ ∃ b, a = .plus b

/-- Every iteration occurring is of that kind; every named expression matches something, and some word it does not match can be
continued to one it does (see `C19_minimize_partial`). -/
def Rx.Safe : Rx C → Prop
  | nothing | emptyWord | set _ _ | leaf _ _ => True
  | alt a b | cat a b | and a b | but a b => a.Safe ∧ b.Safe
  | star a => a.Safe ∧ a.Iter
  | plus a => a.Safe ∧ a.Iter
  | opt a | compl a => a.Safe
  | sepBy i s => i.Safe ∧ s.Safe ∧ (s.Fresh ∨ (s.Iter ∧ i.den []))
  | named a => a.Safe ∧ ∃ w v, ¬ a.den w ∧ a.den (w ++ v)

/-- Automaton `n` implements `a`. -/
structure Impl (a : Rx C) (n : NFA C) : Prop where
  wf : n.Wf
  lang : ∀ w, n.Lang w ↔ a.den w
  fresh : a.Fresh → ∀ w, n.Loop w ↔ w = []
  plus : ∀ b, a = .plus b → ∀ w, n.Loop w → Star a.den w

theorem Impl.iter {a : Rx C} {n : NFA C} (h : Impl a n) (hi : a.Iter) (w : List Nat) (hw : n.Loop w) : Star a.den w := by
  rcases hi with hf | h0 | ⟨b, hb⟩
  · rw [h.fresh hf] at hw; subst hw; exact .nil
  · rw [← h.lang, lang_single h.wf] at h0
    have := Run.trans hw h0
    rw [List.append_nil, ← lang_single h.wf, h.lang] at this
    exact Star.one this
  · exact h.plus b hb w hw

theorem star_of_iter {n : NFA C} {L : Lang} (hn : n.Wf) (hL : ∀ w, n.Lang w ↔ L w) (hi : ∀ w, n.Loop w → Star L w) :
    ∃ r, n.star = some r ∧ r.Wf ∧ ∀ w, r.Lang w ↔ Star L w := by
  obtain ⟨r, h1, h2, h3⟩ := star_spec hn
  refine ⟨r, h1, h2, fun w => ?_⟩
  rw [h3]
  constructor
  · intro hw
    refine Star.idem (Star.mono (fun u hu => ?_) hw)
    rcases hu with hu | hu
    · exact Star.one ((hL u).mp hu)
    · exact hi u hu
  · exact Star.mono fun u hu => Or.inl ((hL u).mpr hu)

theorem cat_star_comm {L : Lang} (w : List Nat) : Cat (Star L) L w ↔ Cat L (Star L) w := by
  constructor
  · rintro ⟨u, v, rfl, hu, hv⟩
    cases hu with
    | nil => exact ⟨v, [], by simp, hv, .nil⟩
    | app h1 h2 => exact ⟨_, _, List.append_assoc _ _ _, h1, h2.append (Star.one hv)⟩
  · rintro ⟨u, v, rfl, hu, hv⟩
    induction hv generalizing u with
    | nil => exact ⟨[], u, by simp, .nil, hu⟩
    | @app x y hx _ ih =>
      obtain ⟨p, q, e, hp, hq⟩ := ih x hx
      exact ⟨u ++ p, q, by rw [e, List.append_assoc], .app hu hp, hq⟩

theorem minimized_spec {n : NFA C} (hn : n.Wf) (order : List Bits → List Bits) (ho : Enumerates order) {L : Lang} (hL : ∀ w, n.Lang w ↔ L w)
    (hu : ∃ w v, ¬ L w ∧ L (w ++ v)) :
    ∃ F r, (∀ fuel, F ≤ fuel → (do (← (← n.dfa order fuel).minimize fuel).nfa) = some r) ∧ r.Wf ∧ ∀ w, r.Lang w ↔ L w := by
  have hs := hn.single
  obtain ⟨F, d, g1, g2, g3, g4, g5, g6⟩ := C16_determinisation hn.toM order ho
  have hnum : d.numActions = 1 := by omega
  obtain ⟨w, v, h1, h2⟩ := hu
  rw [← hL, ← g6] at h1 h2
  obtain ⟨a, ha, q, hr, hq⟩ := h2
  have ha1 : a = 1 := by have := g2.action a (List.mem_of_getElem? hq); omega
  subst ha1
  obtain ⟨p, hp, hp'⟩ : ∃ p, Run d.rules 0 w p ∧ Run d.rules p v q := run_split g2.noEps w v hr
  have hplt := g2.run_lt hp (by omega)
  have hacc := g2.accept
  have hp0 : d.accept[p]? = some 0 := by
    rw [List.getElem?_eq_getElem (by omega)]
    congr 1
    refine Classical.byContradiction fun hne => h1 ⟨d.accept[p], hne, p, hp, ?_⟩
    rw [List.getElem?_eq_getElem (by omega)]
  obtain ⟨F', d', m1, m2, m3, m4, _, m6⟩ := C19_minimize_partial g2 g3 (by
    intro a ha
    rw [hnum] at ha
    have : a = 0 ∨ a = 1 := by omega
    rcases this with rfl | rfl
    · exact ⟨w, v, 1, ⟨p, hp, hp0⟩, by omega, q, hr, hq⟩
    · exact ⟨w ++ v, [], 1, ⟨q, hr, hq⟩, by omega, by rw [List.append_nil]; exact ⟨q, hr, hq⟩⟩)
  obtain ⟨r, r1, r2, r3, r4, r5⟩ := C21_back m2
  refine ⟨max F F', r, fun fuel hf => ?_, r5 fun a ha => ?_, fun w => ?_⟩
  · simp only [g1 fuel (by omega), m1 fuel (by omega), r1, Option.bind_eq_bind, Option.bind_some]
  · have := m2.action a ha; omega
  · rw [r4, ← hL, ← g6]
    simp only [DFA.Lang, m6]
where
  run_split {rs : Rules C} (hne : EpsFree rs) (u v : List Nat) {i q : Nat} (h : Run rs i (u ++ v) q) : ∃ p, Run rs i u p ∧ Run rs p v q := by
    induction u generalizing i with
    | nil => exact ⟨i, .nil, h⟩
    | cons x u ih =>
      rw [List.cons_append, run_cons_iff hne] at h
      obtain ⟨c, j, e, ha, hr⟩ := h
      obtain ⟨p, h1, h2⟩ := ih hr
      exact ⟨p, (run_cons_iff hne).mpr ⟨c, j, e, ha, h1⟩, h2⟩

theorem build_spec (order : List Bits → List Bits) (ho : Enumerates order) (a : Rx C) (h : a.Safe) :
    ∃ F n, (∀ fuel, F ≤ fuel → a.build order fuel = some n) ∧ Impl a n := by
  induction a with
  | nothing => exact ⟨0, _, fun _ _ => rfl, wf_empty, fun w => by simp [Rx.den, lang_empty], fun _ => loop_empty, by simp⟩
  | emptyWord => exact ⟨0, _, fun _ _ => rfl, wf_emptyWord, lang_emptyWord, fun _ => loop_emptyWord, by simp⟩
  | set s hs => exact ⟨0, _, fun _ _ => rfl, wf_ofSet s, lang_ofSet s hs, fun _ => loop_ofSet s, by simp⟩
  | alt a b iha ihb =>
    obtain ⟨F1, n, e1, i1⟩ := iha h.1
    obtain ⟨F2, o, e2, i2⟩ := ihb h.2
    obtain ⟨r, h1, h2, h3⟩ := alt_spec i1.wf i2.wf
    refine ⟨max F1 F2, r, fun f hf => by simp [Rx.build, e1 f (by omega), e2 f (by omega), h1], h2,
      fun w => by rw [h3, i1.lang, i2.lang]; rfl, fun _ => loop_alt i1.wf i2.wf h1, by simp⟩
  | cat a b iha ihb =>
    obtain ⟨F1, n, e1, i1⟩ := iha h.1
    obtain ⟨F2, o, e2, i2⟩ := ihb h.2
    obtain ⟨r, h1, h2, h3⟩ := concat_spec i1.wf i2.wf
    refine ⟨max F1 F2, r, fun f hf => by simp [Rx.build, e1 f (by omega), e2 f (by omega), h1], h2, fun w => ?_, fun hf w => ?_, by simp⟩
    · rw [h3]; simp only [Cat, Rx.den, i1.lang, i2.lang]
    · rw [loop_concat i1.wf i2.wf h1]; exact i1.fresh hf w
  | star a iha =>
    obtain ⟨F1, n, e1, i1⟩ := iha h.1
    obtain ⟨r, h1, h2, h3⟩ := star_of_iter i1.wf i1.lang (i1.iter h.2)
    exact ⟨F1, r, fun f hf => by simp [Rx.build, e1 f hf, h1], h2, h3, fun hf => absurd hf (by simp [Rx.Fresh]), by simp⟩
  | plus a iha =>
    obtain ⟨F1, n, e1, i1⟩ := iha h.1
    obtain ⟨r, h1, h2, h3⟩ := star_of_iter i1.wf i1.lang (i1.iter h.2)
    obtain ⟨q, g1, g2, g3⟩ := concat_spec h2 i1.wf
    have hd : ∀ w, q.Lang w ↔ (Rx.plus a).den w := by
      intro w
      rw [g3]
      simp only [Rx.den]
      rw [← cat_star_comm]
      simp only [Cat, h3, i1.lang]
    refine ⟨F1, q, fun f hf => by simp [Rx.build, NFA.plus, e1 f hf, h1, g1], g2, hd, fun hf => absurd hf (by simp [Rx.Fresh]), fun _ _ w hw => ?_⟩
    rw [loop_concat h2 i1.wf g1, loop_star i1.wf h1, h3] at hw
    refine Star.mono (fun u hu => ?_) hw
    exact ⟨u, [], by simp, hu, .nil⟩
  | opt a iha =>
    obtain ⟨F1, n, e1, i1⟩ := iha h
    obtain ⟨r, h1, h2, h3⟩ := alt_spec i1.wf (wf_emptyWord (C := C))
    exact ⟨F1, r, fun f hf => by simp [Rx.build, e1 f hf, NFA.opt, h1], h2, fun w => by rw [h3, i1.lang, lang_emptyWord]; rfl,
      fun _ => loop_alt i1.wf wf_emptyWord h1, by simp⟩
  | sepBy i s ihi ihs =>
    obtain ⟨F1, n, e1, i1⟩ := ihi h.1
    obtain ⟨F2, o, e2, i2⟩ := ihs h.2.1
    obtain ⟨c, c1, c2, c3⟩ := concat_spec i2.wf i1.wf
    have cl : ∀ w, c.Lang w ↔ Cat s.den i.den w := fun w => by rw [c3]; simp only [Cat, i1.lang, i2.lang]
    obtain ⟨r, h1, h2, h3⟩ := star_of_iter c2 cl (fun w hw => by
      rw [loop_concat i2.wf i1.wf c1] at hw
      rcases h.2.2 with hf | ⟨hf, he⟩
      · rw [i2.fresh hf] at hw; subst hw; exact .nil
      · exact Star.mono (fun u hu => ⟨u, [], by simp, hu, he⟩) (i2.iter hf w hw))
    obtain ⟨q, g1, g2, g3⟩ := concat_spec i1.wf h2
    refine ⟨max F1 F2, q, fun f hf => by simp [Rx.build, NFA.sepBy, e1 f (by omega), e2 f (by omega), c1, h1, g1], g2, fun w => ?_, fun hf w => ?_, by simp⟩
    · rw [g3]; simp only [Cat, Rx.den, i1.lang, h3]
    · rw [loop_concat i1.wf h2 g1]; exact i1.fresh hf w
  | and a b iha ihb =>
    obtain ⟨F1, n, e1, i1⟩ := iha h.1
    obtain ⟨F2, o, e2, i2⟩ := ihb h.2
    obtain ⟨F3, r, h1, h2, h3⟩ := C18_intersection i1.wf i2.wf order ho
    exact ⟨max F3 (max F1 F2), r, fun f hf => by simp [Rx.build, e1 f (by omega), e2 f (by omega), h1 f (by omega)], h2,
      fun w => by rw [h3, i1.lang, i2.lang]; rfl, fun hf => absurd hf (by simp [Rx.Fresh]), by simp⟩
  | but a b iha ihb =>
    obtain ⟨F1, n, e1, i1⟩ := iha h.1
    obtain ⟨F2, o, e2, i2⟩ := ihb h.2
    obtain ⟨F3, r, h1, h2, h3⟩ := C18_difference i1.wf i2.wf order ho
    exact ⟨max F3 (max F1 F2), r, fun f hf => by simp [Rx.build, e1 f (by omega), e2 f (by omega), h1 f (by omega)], h2,
      fun w => by rw [h3, i1.lang, i2.lang]; rfl, fun hf => absurd hf (by simp [Rx.Fresh]), by simp⟩
  | compl a iha =>
    obtain ⟨F1, n, e1, i1⟩ := iha h
    obtain ⟨F3, r, h1, h2, h3⟩ := C18_complement i1.wf order ho
    exact ⟨max F3 F1, r, fun f hf => by simp [Rx.build, e1 f (by omega), h1 f (by omega)], h2,
      fun w => by rw [h3, i1.lang]; rfl, fun hf => absurd hf (by simp [Rx.Fresh]), by simp⟩
  | named a iha =>
    obtain ⟨F1, n, e1, i1⟩ := iha h.1
    obtain ⟨F3, r, h1, h2, h3⟩ := minimized_spec i1.wf order ho i1.lang h.2
    exact ⟨max F3 F1, r, fun f hf => by
      simp only [Rx.build, e1 f (by omega), Option.bind_eq_bind, Option.bind_some]; exact h1 f (by omega), h2,
      fun w => by rw [h3]; rfl, fun hf => absurd hf (by simp [Rx.Fresh]), by simp⟩
  | leaf n hn => exact ⟨0, n, fun _ _ => rfl, hn, fun _ => Iff.rfl, fun hf => hf, by simp⟩

/-- **C15 (partial).** The automaton built for a regular expression by the actions of the parser matches exactly the words of the
expression: for all combinations of `|`, juxtaposition, `*`, `+`, `?`, `@`, `&`, `^`, `~` and names, when every iterated
expression does not begin with an iteration, or matches the empty word, or is itself of the form `b+` (and names are used only
where minimisation is right).  Missing: the other expressions, where it is false, see `C15_star_unsound` and
`C19_minimize_wrong`. -/
theorem C15_expression_partial (a : Rx C) (h : a.Safe) (order : List Bits → List Bits) (ho : Enumerates order) :
    ∃ F n, (∀ fuel, F ≤ fuel → a.build order fuel = some n) ∧ n.Wf ∧ ∀ w, n.Lang w ↔ a.den w := by
  obtain ⟨F, n, h1, h2⟩ := build_spec order ho a h
  exact ⟨F, n, h1, h2.wf, h2.lang⟩

/-- Case: `(((a*|) @ (, b+)) & ~(b*)) ^ a`. -/
example : (Rx.but (.and (Rx.sepBy (.alt (.star (.set (ch 97) rfl)) .emptyWord) (.cat (.set (ch 44) rfl) (.plus (.set (ch 98) rfl))))
    (.compl (.star (.set (ch 98) rfl)))) (.set (ch 97) rfl)).Safe := by
  simp [Rx.Safe, Rx.Iter, Rx.Fresh]

/-- Case: iterating a nullable complement. -/
example : (Rx.star (.compl (.plus (.set (ch 97) rfl)))).Safe := by
  refine ⟨⟨trivial, Or.inl trivial⟩, Or.inr (Or.inl ⟨by simp, ?_⟩)⟩
  rintro ⟨u, v, h, ⟨x, rfl, _⟩, _⟩
  simp at h

/-- Case: a named expression `ab`. -/
example : (Rx.named (.cat (.set (ch 97) rfl) (.set (ch 98) rfl))).Safe := by
  refine ⟨⟨trivial, trivial⟩, [97], [98], ?_, [97], [98], rfl, ⟨97, rfl, by decide +kernel⟩, ⟨98, rfl, by decide +kernel⟩⟩
  rintro ⟨u, v, h, ⟨x, rfl, _⟩, ⟨y, rfl, _⟩⟩
  simp at h

/-- **C15, negative.** `(a* b)*` is built so that it matches the word `a`, which is no concatenation of words
of `a* b`: the star reuses the start state of its operand. -/
theorem C15_star_unsound (a b : C) (ha : CharSetLike.isEps a = false) (hb : CharSetLike.isEps b = false)
    (x : Nat) (hx : CharSetLike.accepts a x = true) (hxb : CharSetLike.accepts b x = false) (order : List Bits → List Bits) (fuel : Nat) :
    ∃ n, (Rx.star (.cat (.star (.set a ha)) (.set b hb))).build order fuel = some n ∧ n.Lang [x] ∧
      ¬ (Rx.star (.cat (.star (.set a ha)) (.set b hb))).den [x] := by
  obtain ⟨m, g1, g2, g3⟩ := star_spec (wf_ofSet a)
  obtain ⟨n, h1, h2, h3⟩ := concat_spec g2 (wf_ofSet b)
  obtain ⟨r, h4, h5, h6⟩ := star_spec h2
  refine ⟨r, by simp [Rx.build, g1, h1, h4], (h6 _).mpr (Star.one (Or.inr ?_)), ?_⟩
  · rw [loop_concat g2 (wf_ofSet b) h1, loop_star (wf_ofSet a) g1, g3]
    exact Star.one (Or.inl ((lang_ofSet a ha _).mpr ⟨x, rfl, hx⟩))
  · intro h
    simp only [Rx.den] at h
    have key : ∀ w, Star (Cat (Star fun w => ∃ y, w = [y] ∧ CharSetLike.accepts a y = true)
        fun w => ∃ y, w = [y] ∧ CharSetLike.accepts b y = true) w →
        w = [] ∨ ∃ y ∈ w, CharSetLike.accepts b y = true := by
      intro w hw
      induction hw with
      | nil => exact Or.inl rfl
      | app hu _ _ =>
        obtain ⟨u, v, rfl, _, y, rfl, hy⟩ := hu
        exact Or.inr ⟨y, by simp, hy⟩
    rcases key _ h with h' | ⟨y, hy, h'⟩
    · cases h'
    · simp at hy; subst hy; rw [hxb] at h'; cases h'

/-- Case: the sets of a lexer over ASCII. -/
example : ∃ n, (Rx.star (.cat (.star (.set (ch 97) rfl)) (.set (ch 98) rfl))).build List.dedup 0 = some n ∧ n.Lang [97] := by
  obtain ⟨n, h1, h2, _⟩ := C15_star_unsound (ch 97) (ch 98) rfl rfl 97 (by decide +kernel) (by decide +kernel) List.dedup 0
  exact ⟨n, h1, h2⟩

end Verif.Auto
